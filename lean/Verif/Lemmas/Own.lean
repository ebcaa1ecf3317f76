import Verif.Lemmas.Fits
import Verif.Lemmas.Object
set_option linter.unusedSimpArgs false
/-
Records of objects.
-/
namespace Allocative

theorem own_path (o : Obj) : ∀ cur, ∀ r ∈ o.own cur, ∃ k s, r.path = cur ++ k :: s := by
  induction o with
  | nil => intro cur r hr; simp [Obj.own] at hr
  | inline k n e i rest ih1 ih2 =>
    intro cur r hr
    simp only [Obj.own, List.cons_append, List.mem_cons, List.mem_append] at hr
    rcases hr with rfl | hr | hr
    · exact ⟨k, [], rfl⟩
    · obtain ⟨k', s, h⟩ := ih1 _ r hr; exact ⟨k, k' :: s, by simp [h]⟩
    · exact ih2 _ r hr
  | unique k n e i rest ih1 ih2 =>
    intro cur r hr
    simp only [Obj.own, List.cons_append, List.mem_cons, List.mem_append] at hr
    rcases hr with rfl | hr | hr
    · exact ⟨k, [], rfl⟩
    · obtain ⟨k', s, h⟩ := ih1 _ r hr; exact ⟨k, k' :: s, by simp [h]⟩
    · exact ih2 _ r hr
  | shared k n p e rest ih =>
    intro cur r hr
    simp only [Obj.own, List.mem_cons] at hr
    rcases hr with rfl | hr
    · exact ⟨k, [], rfl⟩
    · exact ih _ r hr

@[simp] theorem own_append (a b : Obj) : ∀ cur, (a.append b).own cur = a.own cur ++ b.own cur := by
  induction a with
  | nil => intro cur; simp [Obj.append, Obj.own]
  | inline k n e i r _ ih => intro cur; simp [Obj.append, Obj.own, ih]
  | unique k n e i r _ ih => intro cur; simp [Obj.append, Obj.own, ih]
  | shared k n p e r ih => intro cur; simp [Obj.append, Obj.own, ih]

theorem childrenAt_cons (r : Rec) (b : List Rec) (p : Path) :
    childrenAt (r :: b) p = (if isChild p r.path then r.size else 0) + childrenAt b p := by simp [childrenAt]
theorem sizeAt_cons (r : Rec) (b : List Rec) (p : Path) : sizeAt (r :: b) p = (if r.path = p then r.size else 0) + sizeAt b p := by simp [sizeAt]

theorem isChild_append (p : Path) (k : Key) : isChild p (p ++ [k]) = true := by simp [isChild]
theorem isChild_append2 (p : Path) (k k' : Key) (s : Path) : isChild p (p ++ k :: k' :: s) = false := by
  simp only [isChild, Bool.and_eq_false_iff]
  right
  simp only [decide_eq_false_iff_not]
  intro h
  have := congrArg List.length h
  simp at this

theorem childrenAt_zero {l : List Rec} {p : Path} (h : ∀ r ∈ l, isChild p r.path = false) : childrenAt l p = 0 := by
  induction l with
  | nil => rfl
  | cons r l ih => rw [childrenAt_cons, h r (by simp), ih fun x hx => h x (by simp [hx])]; simp

theorem sizeAt_zero {l : List Rec} {p : Path} (h : ∀ r ∈ l, r.path ≠ p) : sizeAt l p = 0 := by
  induction l with
  | nil => rfl
  | cons r l ih => rw [sizeAt_cons, if_neg (h r (by simp)), ih fun x hx => h x (by simp [hx])]

/-- The children of the stack an object is visited at are its outermost calls. -/
theorem childrenAt_own (o : Obj) : ∀ cur, childrenAt (o.own cur) cur = o.direct := by
  have deep : ∀ (o : Obj) (cur : Path) (k : Key), childrenAt (o.own (cur ++ [k])) cur = 0 := by
    intro o cur k
    apply childrenAt_zero
    intro r hr
    obtain ⟨k', s, h⟩ := own_path o _ r hr
    rw [h, List.append_assoc]
    exact isChild_append2 _ _ _ _
  induction o with
  | nil => intro cur; rfl
  | inline k n e i r _ ih => intro cur; simp [Obj.own, Obj.direct, childrenAt_append, childrenAt_cons, isChild_append, deep, ih]
  | unique k n e i r _ ih => intro cur; simp [Obj.own, Obj.direct, childrenAt_append, childrenAt_cons, isChild_append, deep, ih]
  | shared k n p e r ih => intro cur; simp [Obj.own, Obj.direct, childrenAt_append, childrenAt_cons, isChild_append, ih]

theorem sizeAt_own_self (o : Obj) (cur : Path) : sizeAt (o.own cur) cur = 0 := by
  apply sizeAt_zero
  intro r hr h
  obtain ⟨k, s, h'⟩ := own_path o _ r hr
  have := congrArg List.length (h'.symm.trans h)
  simp at this

theorem visitWith_closes {content : Ptr → Prog} (h : ∀ p, (content p).Closes) (o : Obj) : (o.visitWith content).Closes := by
  induction o with
  | nil => trivial
  | inline k n e i r ih1 ih2 => exact ⟨e.closes, ih1, ih2⟩
  | unique k n e i r ih1 ih2 => exact ⟨e.closes, ih1, ih2⟩
  | shared k n p e r ih => exact ⟨e.closes, h p, ih, ih⟩

theorem visit_closes (heap : Heap) : ∀ fuel o, (heap.visit fuel o).Closes := by
  intro fuel
  induction fuel with
  | zero => intro o; exact visitWith_closes (content := fun _ => .panic) (fun _ => trivial) o
  | succ fuel ih => intro o; exact visitWith_closes (fun p => ih _) o

theorem visit_consistent {heap : Heap} (h : ∀ p, (heap p).Consistent) : ∀ fuel {o : Obj}, o.Consistent → (heap.visit fuel o).Consistent := by
  intro fuel
  induction fuel with
  | zero => intro o ho; exact visitWith_consistent (content := fun _ => .panic) (fun _ => trivial) ho
  | succ fuel ih => intro o ho; exact visitWith_consistent (fun p => ih (h p)) ho

theorem visits_noLeaks (heap : Heap) (fuel : Nat) (roots : List Obj) : NoLeaks (visits heap fuel roots) := by
  unfold NoLeaks visits
  have : ∀ vis, (traceRoots (roots.map fun o => (heap.visit fuel o, Fate.exit)) vis).leaked = 0 := by
    induction roots with
    | nil => intro vis; rfl
    | cons o roots ih =>
      intro vis
      simp only [List.map_cons, traceRoots, closes_noLeak _ _ _ (visit_closes heap fuel o), ih]
      cases ((heap.visit fuel o).trace [] vis).ctl <;> rfl
  exact this []

end Allocative
