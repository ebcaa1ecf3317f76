import Verif.Spec.Object
import Verif.Lemmas.Run
/-
Depth first traversal of object graphs.
-/
set_option linter.unusedSimpArgs false
namespace Allocative

/-- Cells of `L` not yet visited. -/
def unvisited (L vis : List Ptr) : Nat := (L.filter fun p => p ∉ vis).length

theorem unvisited_cons {L vis : List Ptr} {p : Ptr} (hL : p ∈ L) (hv : p ∉ vis) : unvisited L (p :: vis) < unvisited L vis := by
  unfold unvisited
  have hsub : ∀ L : List Ptr, (L.filter fun q => q ∉ p :: vis).length ≤ (L.filter fun q => q ∉ vis).length := by
    intro L
    induction L with
    | nil => simp
    | cons q L ih =>
      by_cases h1 : q ∈ vis
      · rw [List.filter_cons_of_neg (by simp [h1]), List.filter_cons_of_neg (by simp [h1])]; exact ih
      · rw [List.filter_cons_of_pos (p := fun q => decide (q ∉ vis)) (by simp [h1])]
        by_cases h2 : q = p
        · rw [List.filter_cons_of_neg (by simp [h2])]; simp only [List.length_cons]; omega
        · rw [List.filter_cons_of_pos (by simp [h1, h2])]; simp only [List.length_cons]; omega
  induction L with
  | nil => simp at hL
  | cons q L ih =>
    by_cases h2 : q = p
    · subst h2
      rw [List.filter_cons_of_neg (by simp), List.filter_cons_of_pos (by simp [hv])]
      have := hsub L
      simp only [List.length_cons]; omega
    · have hL' : p ∈ L := by
        rcases List.mem_cons.1 hL with h | h
        · exact absurd h.symm h2
        · exact h
      have := ih hL'
      by_cases h1 : q ∈ vis
      · rw [List.filter_cons_of_neg (by simp [h1]), List.filter_cons_of_neg (by simp [h1])]; exact this
      · rw [List.filter_cons_of_pos (by simp [h1, h2]), List.filter_cons_of_pos (by simp [h1])]
        simp only [List.length_cons]; omega

theorem unvisited_append (L new vis : List Ptr) : unvisited L (new ++ vis) ≤ unvisited L vis := by
  unfold unvisited
  induction L with
  | nil => simp
  | cons q L ih =>
    by_cases h1 : q ∈ vis
    · rw [List.filter_cons_of_neg (by simp [h1]), List.filter_cons_of_neg (by simp [h1])]; exact ih
    · rw [List.filter_cons_of_pos (p := fun q => decide (q ∉ vis)) (by simp [h1])]
      by_cases h2 : q ∈ new
      · rw [List.filter_cons_of_neg (by simp [h2])]; simp only [List.length_cons]; omega
      · rw [List.filter_cons_of_pos (by simp [h1, h2])]; simp only [List.length_cons]; omega

theorem Ending.leaks (e : Ending) (c : Ctl) : e.fate.leaks c = 0 := by cases e <;> cases c <;> rfl

/-- What a complete traversal of an object at stack `cur` does when `vis` have been visited before. -/
structure Traversed (heap : Heap) (L : List Ptr) (ptrs : List Ptr) (ownRecs : List Rec) (vis : List Ptr) (t : Trace) : Prop where
  ctl : t.ctl = .returned
  leaked : t.leaked = 0
  visited : ∃ new, t.visited = new ++ vis ∧ new.Nodup ∧ (∀ p ∈ new, p ∉ vis ∧ p ∈ L) ∧ (∀ p ∈ ptrs, p ∈ new ++ vis) ∧
    (∀ p ∈ new, ∀ q ∈ (heap p).ptrs, q ∈ new ++ vis) ∧
    t.recs.Perm (ownRecs ++ new.flatMap fun p => (heap p).own [])

theorem visitWith_traversed (heap : Heap) (L : List Ptr)
    (fuel : Nat) (content : Ptr → Prog)
    (hc : ∀ p vis, p ∈ L → p ∉ vis → unvisited L vis ≤ fuel →
      Traversed heap L (heap p).ptrs ((heap p).own []) (p :: vis) ((content p).trace [] (p :: vis))) :
    ∀ (o : Obj) cur vis, (∀ p ∈ o.ptrs, p ∈ L) → unvisited L vis ≤ fuel →
      Traversed heap L o.ptrs (o.own cur) vis ((o.visitWith content).trace cur vis) := by
  intro o
  induction o with
  | nil =>
    intro cur vis _ _
    exact ⟨rfl, rfl, [], by simp [Obj.visitWith, Prog.trace, Obj.own, Obj.ptrs]⟩
  | inline k n e inside rest ih1 ih2 =>
    intro cur vis hp hf
    obtain ⟨c1, l1, new1, v1, nd1, s1, p1, cl1, r1⟩ := ih1 (cur ++ [k]) vis (fun p h => hp p (by simp [Obj.ptrs, h])) hf
    obtain ⟨c2, l2, new2, v2, nd2, s2, p2, cl2, r2⟩ := ih2 cur (new1 ++ vis) (fun p h => hp p (by simp [Obj.ptrs, h]))
      (Nat.le_trans (unvisited_append _ _ _) hf)
    have he : (Obj.visitWith content (.inline k n e inside rest)).trace cur vis =
        ⟨⟨cur ++ [k], n, false⟩ :: ((inside.visitWith content).trace (cur ++ [k]) vis).recs ++ ((rest.visitWith content).trace cur (new1 ++ vis)).recs,
          new2 ++ (new1 ++ vis), .returned, 0⟩ := by
      simp only [Obj.visitWith, Prog.trace, c1, v1, v2, c2, l1, l2, Ending.leaks]
    rw [he]
    refine ⟨rfl, rfl, new2 ++ new1, by simp, ?_, ?_, ?_, ?_, ?_⟩
    · rw [List.nodup_append]
      exact ⟨nd2, nd1, fun a ha b hb hab => (s2 a ha).1 (by simp [hab, hb])⟩
    · intro p h
      rcases List.mem_append.1 h with h | h
      · exact ⟨fun hv => (s2 p h).1 (by simp [hv]), (s2 p h).2⟩
      · exact s1 p h
    · intro p h
      simp only [Obj.ptrs, List.mem_append] at h
      rcases h with h | h
      · have := p1 p h; simp only [List.mem_append] at this ⊢; grind
      · have := p2 p h; simp only [List.mem_append] at this ⊢; grind
    · intro p h q hq
      rcases List.mem_append.1 h with h | h
      · have := cl2 p h q hq; simp only [List.mem_append] at this ⊢; grind
      · have := cl1 p h q hq; simp only [List.mem_append] at this ⊢; grind
    · simp only [Obj.own, List.flatMap_append, List.cons_append, List.append_assoc]
      refine List.Perm.cons _ ?_
      refine (r1.append r2).trans ?_
      simp only [List.append_assoc]
      refine List.Perm.append_left _ ?_
      refine (List.perm_append_comm_assoc _ _ _).trans ?_
      exact List.Perm.append_left _ List.perm_append_comm
  | unique k n e inside rest ih1 ih2 =>
    intro cur vis hp hf
    obtain ⟨c1, l1, new1, v1, nd1, s1, p1, cl1, r1⟩ := ih1 (cur ++ [k]) vis (fun p h => hp p (by simp [Obj.ptrs, h])) hf
    obtain ⟨c2, l2, new2, v2, nd2, s2, p2, cl2, r2⟩ := ih2 cur (new1 ++ vis) (fun p h => hp p (by simp [Obj.ptrs, h]))
      (Nat.le_trans (unvisited_append _ _ _) hf)
    have he : (Obj.visitWith content (.unique k n e inside rest)).trace cur vis =
        ⟨⟨cur ++ [k], n, true⟩ :: ((inside.visitWith content).trace (cur ++ [k]) vis).recs ++ ((rest.visitWith content).trace cur (new1 ++ vis)).recs,
          new2 ++ (new1 ++ vis), .returned, 0⟩ := by
      simp only [Obj.visitWith, Prog.trace, c1, v1, v2, c2, l1, l2, Ending.leaks]
    rw [he]
    refine ⟨rfl, rfl, new2 ++ new1, by simp, ?_, ?_, ?_, ?_, ?_⟩
    · rw [List.nodup_append]
      exact ⟨nd2, nd1, fun a ha b hb hab => (s2 a ha).1 (by simp [hab, hb])⟩
    · intro p h
      rcases List.mem_append.1 h with h | h
      · exact ⟨fun hv => (s2 p h).1 (by simp [hv]), (s2 p h).2⟩
      · exact s1 p h
    · intro p h
      simp only [Obj.ptrs, List.mem_append] at h
      rcases h with h | h
      · have := p1 p h; simp only [List.mem_append] at this ⊢; grind
      · have := p2 p h; simp only [List.mem_append] at this ⊢; grind
    · intro p h q hq
      rcases List.mem_append.1 h with h | h
      · have := cl2 p h q hq; simp only [List.mem_append] at this ⊢; grind
      · have := cl1 p h q hq; simp only [List.mem_append] at this ⊢; grind
    · simp only [Obj.own, List.flatMap_append, List.cons_append, List.append_assoc]
      refine List.Perm.cons _ ?_
      refine (r1.append r2).trans ?_
      simp only [List.append_assoc]
      refine List.Perm.append_left _ ?_
      refine (List.perm_append_comm_assoc _ _ _).trans ?_
      exact List.Perm.append_left _ List.perm_append_comm
  | shared k n p e rest ih =>
    intro cur vis hp hf
    have hpL : p ∈ L := hp p (by simp [Obj.ptrs])
    by_cases hv : p ∈ vis
    · obtain ⟨c2, l2, new2, v2, nd2, s2, p2, cl2, r2⟩ := ih cur vis (fun p h => hp p (by simp [Obj.ptrs, h])) hf
      have he : (Obj.visitWith content (.shared k n p e rest)).trace cur vis =
          ⟨⟨cur ++ [k], n, false⟩ :: ((rest.visitWith content).trace cur vis).recs, new2 ++ vis, .returned, 0⟩ := by
        simp only [Obj.visitWith, Prog.trace, if_pos hv, v2, c2, l2]
      rw [he]
      refine ⟨rfl, rfl, new2, rfl, nd2, s2, ?_, cl2, ?_⟩
      · intro q h
        simp only [Obj.ptrs, List.mem_cons] at h
        rcases h with rfl | h
        · simp [hv]
        · exact p2 q h
      · simp only [Obj.own, List.cons_append]
        exact List.Perm.cons _ r2
    · obtain ⟨c1, l1, new1, v1, nd1, s1, p1, cl1, r1⟩ := hc p vis hpL hv hf
      obtain ⟨c2, l2, new2, v2, nd2, s2, p2, cl2, r2⟩ := ih cur (new1 ++ p :: vis) (fun p h => hp p (by simp [Obj.ptrs, h]))
        (by
          have h1 := unvisited_append L new1 (p :: vis)
          have h2 := unvisited_cons hpL hv
          omega)
      have he : (Obj.visitWith content (.shared k n p e rest)).trace cur vis =
          ⟨⟨cur ++ [k], n, false⟩ :: ((content p).trace [] (p :: vis)).recs ++ ((rest.visitWith content).trace cur (new1 ++ p :: vis)).recs,
            new2 ++ (new1 ++ p :: vis), .returned, 0⟩ := by
        simp only [Obj.visitWith, Prog.trace, if_neg hv, c1, v1, v2, c2, l1, l2, Ending.leaks]
      rw [he]
      refine ⟨rfl, rfl, new2 ++ (new1 ++ [p]), by simp, ?_, ?_, ?_, ?_, ?_⟩
      · rw [List.nodup_append, List.nodup_append]
        refine ⟨nd2, ⟨nd1, by simp, ?_⟩, ?_⟩
        · intro a ha b hb hab
          simp only [List.mem_singleton] at hb
          exact (s1 a ha).1 (by simp [hab, hb])
        · intro a ha b hb hab
          subst hab
          simp only [List.mem_append, List.mem_singleton] at hb
          exact (s2 a ha).1 (by simp only [List.mem_append, List.mem_cons]; grind)
      · intro q h
        simp only [List.mem_append, List.mem_singleton] at h
        rcases h with h | h | h
        · exact ⟨fun hv => (s2 q h).1 (by simp [hv]), (s2 q h).2⟩
        · exact ⟨fun hv => (s1 q h).1 (by simp [hv]), (s1 q h).2⟩
        · subst h; exact ⟨hv, hpL⟩
      · intro q h
        simp only [Obj.ptrs, List.mem_cons] at h
        rcases h with rfl | h
        · simp
        · have := p2 q h; simp only [List.mem_append, List.mem_cons] at this ⊢; grind
      · intro q h q' hq'
        simp only [List.mem_append, List.mem_singleton] at h
        rcases h with h | h | h
        · have := cl2 q h q' hq'; simp only [List.mem_append, List.mem_cons] at this ⊢; grind
        · have := cl1 q h q' hq'; simp only [List.mem_append, List.mem_cons] at this ⊢; grind
        · subst h; have := p1 q' hq'; simp only [List.mem_append, List.mem_cons] at this ⊢; grind
      · simp only [Obj.own, List.flatMap_append, List.flatMap_cons, List.flatMap_nil, List.append_nil, List.cons_append]
        refine List.Perm.cons _ ?_
        refine (r1.append r2).trans ?_
        -- (A ++ N1) ++ (O ++ N2)  ~  O ++ (N2 ++ (N1 ++ A))
        refine List.perm_append_comm.trans ?_
        simp only [List.append_assoc]
        refine List.Perm.append_left _ (List.Perm.append_left _ List.perm_append_comm)

theorem visit_traversed (heap : Heap) (L : List Ptr) (hclosed : ∀ p ∈ L, ∀ q ∈ (heap p).ptrs, q ∈ L) :
    ∀ (fuel : Nat) (o : Obj) cur vis, (∀ p ∈ o.ptrs, p ∈ L) → unvisited L vis ≤ fuel →
      Traversed heap L o.ptrs (o.own cur) vis ((heap.visit fuel o).trace cur vis) := by
  intro fuel
  induction fuel with
  | zero =>
    intro o cur vis hp hf
    refine visitWith_traversed heap L 0 _ ?_ o cur vis hp hf
    intro p vis hpL hv hf
    have := unvisited_cons hpL hv
    omega
  | succ fuel ih =>
    intro o cur vis hp hf
    refine visitWith_traversed heap L (fuel + 1) _ ?_ o cur vis hp hf
    intro p vis hpL hv hf
    have := unvisited_cons hpL hv
    exact ih (heap p) [] (p :: vis) (hclosed p hpL) (by omega)

theorem visits_traversed (heap : Heap) (L : List Ptr) (hclosed : ∀ p ∈ L, ∀ q ∈ (heap p).ptrs, q ∈ L) (fuel : Nat) :
    ∀ (roots : List Obj) vis, (∀ o ∈ roots, ∀ p ∈ o.ptrs, p ∈ L) → unvisited L vis ≤ fuel →
      Traversed heap L (roots.flatMap Obj.ptrs) (roots.flatMap fun o => o.own []) vis (traceRoots (visits heap fuel roots) vis) := by
  intro roots
  induction roots with
  | nil => intro vis _ _; exact ⟨rfl, rfl, [], by simp [visits, traceRoots]⟩
  | cons o roots ih =>
    intro vis hp hf
    obtain ⟨c1, l1, new1, v1, nd1, s1, p1, cl1, r1⟩ := visit_traversed heap L hclosed fuel o [] vis (hp o (by simp)) hf
    obtain ⟨c2, l2, new2, v2, nd2, s2, p2, cl2, r2⟩ := ih (new1 ++ vis) (fun o ho => hp o (by simp [ho]))
      (Nat.le_trans (unvisited_append _ _ _) hf)
    have he : traceRoots (visits heap fuel (o :: roots)) vis =
        ⟨((heap.visit fuel o).trace [] vis).recs ++ (traceRoots (visits heap fuel roots) (new1 ++ vis)).recs, new2 ++ (new1 ++ vis), .returned, 0⟩ := by
      rw [show visits heap fuel (o :: roots) = (heap.visit fuel o, .exit) :: visits heap fuel roots from rfl]
      simp only [traceRoots, v1, v2, l1, l2, c1]; rfl
    rw [he]
    refine ⟨rfl, rfl, new2 ++ new1, by simp, ?_, ?_, ?_, ?_, ?_⟩
    · rw [List.nodup_append]
      exact ⟨nd2, nd1, fun a ha b hb hab => (s2 a ha).1 (by simp [hab, hb])⟩
    · intro p h
      rcases List.mem_append.1 h with h | h
      · exact ⟨fun hv => (s2 p h).1 (by simp [hv]), (s2 p h).2⟩
      · exact s1 p h
    · intro p h
      simp only [List.flatMap_cons, List.mem_append] at h
      rcases h with h | h
      · have := p1 p h; simp only [List.mem_append] at this ⊢; grind
      · have := p2 p h; simp only [List.mem_append] at this ⊢; grind
    · intro p h q hq
      rcases List.mem_append.1 h with h | h
      · have := cl2 p h q hq; simp only [List.mem_append] at this ⊢; grind
      · have := cl1 p h q hq; simp only [List.mem_append] at this ⊢; grind
    · simp only [List.flatMap_append, List.flatMap_cons, List.append_assoc]
      refine (r1.append r2).trans ?_
      simp only [List.append_assoc]
      refine List.Perm.append_left _ ?_
      refine (List.perm_append_comm_assoc _ _ _).trans ?_
      exact List.Perm.append_left _ List.perm_append_comm

/-- The complete statement about visits of object graphs with finitely many reachable cells. -/
theorem visits_spec (heap : Heap) (roots : List Obj) (L : List Ptr) (hn : L.Nodup) (hL : ∀ p, p ∈ L ↔ Reachable heap roots p)
    (fuel : Nat) (hf : L.length ≤ fuel) :
    NoLeaks (visits heap fuel roots) ∧
    (traceRoots (visits heap fuel roots) []).visited.Perm L ∧
    (records (visits heap fuel roots)).Perm (roots.flatMap (fun o => o.own []) ++ L.flatMap fun p => (heap p).own []) := by
  obtain ⟨_, l, new, v, nd, s, p, cl, r⟩ := visits_traversed heap L
    (fun p hp q hq => (hL q).2 (.step ((hL p).1 hp) hq)) fuel roots []
    (fun o ho p hp => (hL p).2 (.root ho hp)) (by unfold unvisited; exact Nat.le_trans (List.length_filter_le _ _) hf)
  simp only [List.append_nil] at v cl p
  have hperm : new.Perm L := by
    rw [List.perm_ext_iff_of_nodup nd hn]
    intro q
    refine ⟨fun h => (s q h).2, fun h => ?_⟩
    have := (hL q).1 h
    clear h
    induction this with
    | root ho hp => exact p _ (List.mem_flatMap.2 ⟨_, ho, hp⟩)
    | step _ hp ih => exact cl _ ih _ hp
  refine ⟨l, by rw [v]; exact hperm, r.trans (List.Perm.append_left _ (hperm.flatMap_right _))⟩

theorem visitWith_keysAre {Q : Key → Prop} {content : Ptr → Prog} (hc : ∀ p, (content p).KeysAre Q) :
    ∀ o : Obj, o.KeysAre Q → (o.visitWith content).KeysAre Q := by
  intro o
  induction o with
  | nil => intro _; trivial
  | inline k n e a r ih1 ih2 => intro h; exact ⟨h.1, ih1 h.2.1, ih2 h.2.2⟩
  | unique k n e a r ih1 ih2 => intro h; exact ⟨h.1, ih1 h.2.1, ih2 h.2.2⟩
  | shared k n p e r ih => intro h; exact ⟨h.1, hc p, ih h.2, ih h.2⟩

theorem visit_keysAre {Q : Key → Prop} {heap : Heap} (hh : ∀ p, (heap p).KeysAre Q) :
    ∀ fuel (o : Obj), o.KeysAre Q → (heap.visit fuel o).KeysAre Q := by
  intro fuel
  induction fuel with
  | zero => intro o h; exact visitWith_keysAre (Q := Q) (content := fun _ => .panic) (fun _ => trivial) o h
  | succ fuel ih => intro o h; exact visitWith_keysAre (fun p => ih _ (hh p)) o h

namespace Obj.Shuffle

theorem ptrs {a b : Obj} (h : a.Shuffle b) : a.ptrs.Perm b.ptrs := by
  induction h with
  | nil => exact .refl _
  | inline k n e _ _ ih1 ih2 => exact ih1.append ih2
  | unique k n e _ _ ih1 ih2 => exact ih1.append ih2
  | shared k n p e _ ih => exact .cons _ ih
  | swapII => exact List.perm_append_comm_assoc _ _ _
  | swapIU => exact List.perm_append_comm_assoc _ _ _
  | swapUU => exact List.perm_append_comm_assoc _ _ _
  | swapIS => exact List.perm_middle
  | swapUS => exact List.perm_middle
  | swapSS => exact .swap _ _ _
  | symm _ ih => exact ih.symm
  | trans _ _ ih1 ih2 => exact ih1.trans ih2

theorem swap_aux {α : Type} (x y : α) (a b r : List α) : (x :: a ++ (y :: b ++ r)).Perm (y :: b ++ (x :: a ++ r)) :=
  List.perm_append_comm_assoc (x :: a) (y :: b) r

theorem own {a b : Obj} (h : a.Shuffle b) : ∀ cur, (a.own cur).Perm (b.own cur) := by
  induction h with
  | nil => intro cur; exact .refl _
  | inline k n e _ _ ih1 ih2 => intro cur; exact .cons _ ((ih1 _).append (ih2 _))
  | unique k n e _ _ ih1 ih2 => intro cur; exact .cons _ ((ih1 _).append (ih2 _))
  | shared k n p e _ ih => intro cur; exact .cons _ (ih _)
  | swapII => intro cur; exact swap_aux _ _ _ _ _
  | swapIU => intro cur; exact swap_aux _ _ _ _ _
  | swapUU => intro cur; exact swap_aux _ _ _ _ _
  | swapIS => intro cur; exact swap_aux _ _ _ [] _
  | swapUS => intro cur; exact swap_aux _ _ _ [] _
  | swapSS => intro cur; exact swap_aux _ _ [] [] _
  | symm _ ih => intro cur; exact (ih cur).symm
  | trans _ _ ih1 ih2 => intro cur; exact (ih1 cur).trans (ih2 cur)

theorem keysAre {Q : Key → Prop} {a b : Obj} (h : a.Shuffle b) : a.KeysAre Q ↔ b.KeysAre Q := by
  induction h with
  | symm _ ih => exact ih.symm
  | trans _ _ ih1 ih2 => exact ih1.trans ih2
  | _ => simp only [Obj.KeysAre] <;> grind

end Obj.Shuffle

/-! Fuel. -/

/-- More contents: what returns with `c` returns the same with `c'`. -/
theorem visitWith_more {σ : Type} {impl : VisitorImpl σ} {c c' : Ptr → Prog}
    (h : ∀ p kind s s', exec impl (c p) kind s = .ok (s', .returned) → exec impl (c' p) kind s = .ok (s', .returned)) :
    ∀ (o : Obj) (kind : NodeKind) (s s' : σ), exec impl (o.visitWith c) kind s = .ok (s', .returned) → exec impl (o.visitWith c') kind s = .ok (s', .returned)
  | .nil, _, _, _, e => e
  | .inline k n en inside rest, kind, s, s', e => by
    simp only [Obj.visitWith, exec] at e ⊢
    cases h1 : impl.enterInlineImpl s k n kind with
    | error x => rw [h1] at e; simp at e
    | ok s1 =>
      rw [h1] at e
      simp only at e ⊢
      cases h2 : exec impl (inside.visitWith c) .inline s1 with
      | error x => rw [h2] at e; simp at e
      | ok r =>
        obtain ⟨s2, ctl⟩ := r
        rw [h2] at e
        simp only at e
        cases h3 : impl.finishChild .inline en.fate ctl s2 with
        | error x => rw [h3] at e; simp at e
        | ok s3 =>
          rw [h3] at e
          cases ctl with
          | unwinding => simp at e
          | returned => simp only at e; simp only [visitWith_more h inside _ _ _ h2, h3]; exact visitWith_more h rest _ _ _ e
  | .unique k n en inside rest, kind, s, s', e => by
    simp only [Obj.visitWith, exec] at e ⊢
    cases h1 : impl.enterUniqueImpl s k n kind with
    | error x => rw [h1] at e; simp at e
    | ok s1 =>
      rw [h1] at e
      simp only at e ⊢
      cases h2 : exec impl (inside.visitWith c) .unique s1 with
      | error x => rw [h2] at e; simp at e
      | ok r =>
        obtain ⟨s2, ctl⟩ := r
        rw [h2] at e
        simp only at e
        cases h3 : impl.finishChild .unique en.fate ctl s2 with
        | error x => rw [h3] at e; simp at e
        | ok s3 =>
          rw [h3] at e
          cases ctl with
          | unwinding => simp at e
          | returned => simp only at e; simp only [visitWith_more h inside _ _ _ h2, h3]; exact visitWith_more h rest _ _ _ e
  | .shared k n p en rest, kind, s, s', e => by
    simp only [Obj.visitWith, exec] at e ⊢
    cases h1 : impl.enterSharedImpl s k n p kind with
    | error x => rw [h1] at e; simp at e
    | ok r1 =>
      obtain ⟨b, s1⟩ := r1
      rw [h1] at e
      cases b with
      | false => simp only at e ⊢; exact visitWith_more h rest _ _ _ e
      | true =>
        simp only at e ⊢
        cases h2 : exec impl (c p) .shared s1 with
        | error x => rw [h2] at e; simp at e
        | ok r =>
          obtain ⟨s2, ctl⟩ := r
          rw [h2] at e
          simp only at e
          cases h3 : impl.finishChild .shared en.fate ctl s2 with
          | error x => rw [h3] at e; simp at e
          | ok s3 =>
            rw [h3] at e
            cases ctl with
            | unwinding => simp at e
            | returned => simp only at e; simp only [h p _ _ _ h2, h3]; exact visitWith_more h rest _ _ _ e

/-- A visit that returns within the fuel has a derivation. -/
theorem visitWith_runs {σ : Type} {impl : VisitorImpl σ} {heap : Heap} {c : Ptr → Prog}
    (h : ∀ p kind s s', exec impl (c p) kind s = .ok (s', .returned) → (heap p).Runs impl heap kind s s') :
    ∀ (o : Obj) (kind : NodeKind) (s s' : σ), exec impl (o.visitWith c) kind s = .ok (s', .returned) → o.Runs impl heap kind s s'
  | .nil, _, _, _, e => by simp only [Obj.visitWith, exec, Except.ok.injEq, Prod.mk.injEq, and_true] at e; subst e; exact .nil
  | .inline k n en inside rest, kind, s, s', e => by
    simp only [Obj.visitWith, exec] at e
    cases h1 : impl.enterInlineImpl s k n kind with
    | error x => rw [h1] at e; simp at e
    | ok s1 =>
      rw [h1] at e
      simp only at e
      cases h2 : exec impl (inside.visitWith c) .inline s1 with
      | error x => rw [h2] at e; simp at e
      | ok r =>
        obtain ⟨s2, ctl⟩ := r
        rw [h2] at e
        simp only at e
        cases h3 : impl.finishChild .inline en.fate ctl s2 with
        | error x => rw [h3] at e; simp at e
        | ok s3 =>
          rw [h3] at e
          cases ctl with
          | unwinding => simp at e
          | returned => simp only at e; exact .inline h1 (visitWith_runs h inside _ _ _ h2) h3 (visitWith_runs h rest _ _ _ e)
  | .unique k n en inside rest, kind, s, s', e => by
    simp only [Obj.visitWith, exec] at e
    cases h1 : impl.enterUniqueImpl s k n kind with
    | error x => rw [h1] at e; simp at e
    | ok s1 =>
      rw [h1] at e
      simp only at e
      cases h2 : exec impl (inside.visitWith c) .unique s1 with
      | error x => rw [h2] at e; simp at e
      | ok r =>
        obtain ⟨s2, ctl⟩ := r
        rw [h2] at e
        simp only at e
        cases h3 : impl.finishChild .unique en.fate ctl s2 with
        | error x => rw [h3] at e; simp at e
        | ok s3 =>
          rw [h3] at e
          cases ctl with
          | unwinding => simp at e
          | returned => simp only at e; exact .unique h1 (visitWith_runs h inside _ _ _ h2) h3 (visitWith_runs h rest _ _ _ e)
  | .shared k n p en rest, kind, s, s', e => by
    simp only [Obj.visitWith, exec] at e
    cases h1 : impl.enterSharedImpl s k n p kind with
    | error x => rw [h1] at e; simp at e
    | ok r1 =>
      obtain ⟨b, s1⟩ := r1
      rw [h1] at e
      cases b with
      | false => simp only at e; exact .known h1 (visitWith_runs h rest _ _ _ e)
      | true =>
        simp only at e
        cases h2 : exec impl (c p) .shared s1 with
        | error x => rw [h2] at e; simp at e
        | ok r =>
          obtain ⟨s2, ctl⟩ := r
          rw [h2] at e
          simp only at e
          cases h3 : impl.finishChild .shared en.fate ctl s2 with
          | error x => rw [h3] at e; simp at e
          | ok s3 =>
            rw [h3] at e
            cases ctl with
            | unwinding => simp at e
            | returned => simp only at e; exact .first h1 (h p _ _ _ h2) h3 (visitWith_runs h rest _ _ _ e)

theorem visit_runs {σ : Type} {impl : VisitorImpl σ} {heap : Heap} : ∀ (fuel : Nat) (o : Obj) (kind : NodeKind) (s s' : σ),
    exec impl (heap.visit fuel o) kind s = .ok (s', .returned) → o.Runs impl heap kind s s'
  | 0, o, kind, s, s', e => visitWith_runs (c := fun _ => .panic) (fun p kind s s' e => by simp [exec] at e) o kind s s' e
  | f + 1, o, kind, s, s', e => visitWith_runs (c := fun p => heap.visit f (heap p)) (fun p kind s s' e => visit_runs f (heap p) kind s s' e) o kind s s' e

theorem visit_eq_visitWith (heap : Heap) (fuel : Nat) : ∃ c : Ptr → Prog, (∀ o, heap.visit fuel o = o.visitWith c) ∧ ∀ p, fuel = 0 ∨ ∃ f, fuel = f + 1 ∧ c p = heap.visit f (heap p) := by
  cases fuel with
  | zero => exact ⟨_, fun _ => rfl, fun _ => .inl rfl⟩
  | succ f => exact ⟨_, fun _ => rfl, fun _ => .inr ⟨f, rfl, rfl⟩⟩

/-- A visit with a derivation returns, given enough fuel. -/
theorem runs_visit {σ : Type} {impl : VisitorImpl σ} {heap : Heap} {o : Obj} {kind : NodeKind} {s s' : σ} (h : o.Runs impl heap kind s s') :
    ∃ n, ∀ fuel, n ≤ fuel → exec impl (heap.visit fuel o) kind s = .ok (s', .returned) := by
  induction h with
  | nil => exact ⟨0, fun fuel _ => by cases fuel <;> rfl⟩
  | inline h1 _ h3 _ iha ihb =>
    obtain ⟨a, iha⟩ := iha
    obtain ⟨b, ihb⟩ := ihb
    refine ⟨max a b, fun fuel hf => ?_⟩
    have ea := iha fuel (by omega)
    have eb := ihb fuel (by omega)
    obtain ⟨c, hc, _⟩ := visit_eq_visitWith heap fuel
    rw [hc] at ea eb ⊢
    simp only [Obj.visitWith, exec, h1, ea, h3, eb]
  | unique h1 _ h3 _ iha ihb =>
    obtain ⟨a, iha⟩ := iha
    obtain ⟨b, ihb⟩ := ihb
    refine ⟨max a b, fun fuel hf => ?_⟩
    have ea := iha fuel (by omega)
    have eb := ihb fuel (by omega)
    obtain ⟨c, hc, _⟩ := visit_eq_visitWith heap fuel
    rw [hc] at ea eb ⊢
    simp only [Obj.visitWith, exec, h1, ea, h3, eb]
  | known h1 _ ihb =>
    obtain ⟨b, ihb⟩ := ihb
    refine ⟨b, fun fuel hf => ?_⟩
    have eb := ihb fuel hf
    obtain ⟨c, hc, _⟩ := visit_eq_visitWith heap fuel
    rw [hc] at eb ⊢
    simp only [Obj.visitWith, exec, h1, eb]
  | first h1 _ h3 _ iha ihb =>
    obtain ⟨a, iha⟩ := iha
    obtain ⟨b, ihb⟩ := ihb
    refine ⟨max (a + 1) b, fun fuel hf => ?_⟩
    obtain ⟨f, rfl⟩ : ∃ f, fuel = f + 1 := ⟨fuel - 1, by omega⟩
    have ea := iha f (by omega)
    have eb := ihb (f + 1) (by omega)
    simp only [Heap.visit] at eb ⊢
    simp only [Obj.visitWith, exec, h1, ea, h3, eb]

theorem Obj.Runs.det {σ : Type} {impl : VisitorImpl σ} {heap : Heap} {o : Obj} {kind : NodeKind} {s s' s'' : σ} (h : o.Runs impl heap kind s s')
    (h' : o.Runs impl heap kind s s'') : s' = s'' := by
  obtain ⟨n, h⟩ := runs_visit h
  obtain ⟨n', h'⟩ := runs_visit h'
  have e := (h (max n n') (by omega)).symm.trans (h' (max n n') (by omega))
  simpa using e

theorem Obj.RunsRoots.det {heap : Heap} {roots : List Obj} {b b' b'' : Builder} (h : Obj.RunsRoots heap b roots b') : Obj.RunsRoots heap b roots b'' → b' = b'' := by
  induction h with
  | nil => intro h'; cases h'; rfl
  | cons h1 h2 h3 _ ih =>
    intro h'
    cases h' with
    | cons g1 g2 g3 g4 =>
      rw [h1] at g1
      cases g1
      cases h2.det g2
      rw [h3] at g3
      cases g3
      exact ih g4

end Allocative
