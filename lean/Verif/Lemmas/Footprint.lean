import Verif.Lemmas.Own
import Verif.Lemmas.Report
import Verif.Spec.Footprint
set_option linter.unusedSimpArgs false
/-
Accounting for C59.
-/
namespace Allocative

/-- On root, shared and unique visitors (flag) only `enter` is called. -/
def Obj.Apart : Obj → Bool → Prop
  | .nil, _ => True
  | .inline _ _ _ inside rest, u => inside.Apart false ∧ rest.Apart u
  | .unique _ _ _ inside rest, u => u = false ∧ inside.Apart true ∧ rest.Apart u
  | .shared _ _ _ _ rest, u => u = false ∧ rest.Apart u

theorem Obj.Apart.weaken {o : Obj} : o.Apart true → o.Apart false := by
  induction o with
  | nil => exact id
  | inline k n e i r _ ih => exact fun h => ⟨h.1, ih h.2⟩
  | unique k n e i r _ ih => exact fun h => ⟨rfl, h.2.1, ih h.2.2⟩
  | shared k n p e r ih => exact fun h => ⟨rfl, ih h.2⟩

@[simp] theorem apart_nil (u : Bool) : Obj.nil.Apart u := trivial
@[simp] theorem apart_append (a b : Obj) (u : Bool) : (a.append b).Apart u ↔ a.Apart u ∧ b.Apart u := by
  induction a with
  | nil => simp [Obj.append]
  | inline k n e i r _ ih => simp [Obj.append, Obj.Apart, ih, and_assoc]
  | unique k n e i r _ ih => simp [Obj.append, Obj.Apart, ih, and_assoc]
  | shared k n p e r ih => simp [Obj.append, Obj.Apart, ih, and_assoc]
@[simp] theorem apart_enter (k n e) (o : Obj) (u : Bool) : (Visit.enter k n e o).Apart u ↔ o.Apart false := by simp [Visit.enter, Obj.Apart]
@[simp] theorem apart_enterUnique (k n e) (o : Obj) (u : Bool) : (Visit.enterUnique k n e o).Apart u ↔ u = false ∧ o.Apart true := by
  simp [Visit.enterUnique, Obj.Apart]
@[simp] theorem apart_simple (k n) (u : Bool) : (Visit.simple k n).Apart u := by simp [Visit.simple]
@[simp] theorem apart_field (k) (v : Value) (u : Bool) : (Visit.field k v).Apart u ↔ v.visit.Apart false := by
  simp [Visit.field, Visit.fieldWith]
theorem apart_concat {l : List Obj} {u : Bool} (h : ∀ o ∈ l, o.Apart u) : (Obj.concat l).Apart u := by
  induction l with
  | nil => trivial
  | cons o l ih => simpa [Obj.concat] using ⟨h o (by simp), ih fun x hx => h x (by simp [hx])⟩

/-- Values whose visit may happen anywhere. -/
def Value.Any (v : Value) : Prop := v.visit.Apart true

theorem Value.Any.at {v : Value} (h : v.Any) (u : Bool) : v.visit.Apart u := by
  cases u
  · exact h.weaken
  · exact h

theorem apart_each {l : List Value} (h : ∀ v ∈ l, v.Any) (u : Bool) : (Visit.each l).Apart u := by
  apply apart_concat
  intro o ho
  obtain ⟨v, hv, rfl⟩ := List.mem_map.1 ho
  exact (h v hv).at u

theorem apart_iter [Target] {T : Ty} {l : List Value} (h : ∀ v ∈ l, v.Any) (u : Bool) : (Visit.iter T l).Apart u := by
  unfold Visit.iter
  split
  · simp
  · exact apart_each h u

theorem apart_fields {l : List Value} (h : ∀ v ∈ l, v.Any) (k : Key) (u : Bool) : (Obj.concat (l.map fun v => Visit.field k v)).Apart u := by
  apply apart_concat
  intro o ho
  obtain ⟨v, hv, rfl⟩ := List.mem_map.1 ho
  simpa using (h v hv).at false

theorem apart_pairs {l : List (Value × Value)} (h : ∀ e ∈ l, e.1.Any ∧ e.2.Any) (a b : Key) (u : Bool) :
    (Obj.concat (l.map fun e => (Visit.field a e.1).append (Visit.field b e.2))).Apart u := by
  apply apart_concat
  intro o ho
  obtain ⟨e, he, rfl⟩ := List.mem_map.1 ho
  simpa using ⟨(h e he).1.at false, (h e he).2.at false⟩

theorem any_zip {a b : List Value} (ha : ∀ v ∈ a, v.Any) (hb : ∀ v ∈ b, v.Any) : ∀ e ∈ a.zip b, e.1.Any ∧ e.2.Any :=
  fun e he => ⟨ha _ (List.of_mem_zip (a := e.1) (b := e.2) he).1, hb _ (List.of_mem_zip (a := e.1) (b := e.2) he).2⟩

theorem apart_tuple {l : List Value} (h : ∀ v ∈ l, v.Any) (i : Nat) (u : Bool) :
    (Obj.concat ((tupleLabels i l).map fun f => Visit.field (Key.new f.1) f.2)).Apart u := by
  induction l generalizing i with
  | nil => trivial
  | cons v l ih =>
    simp only [tupleLabels, List.map_cons, Obj.concat, apart_append, apart_field]
    exact ⟨(h v (by simp)).at _, ih (fun x hx => h x (by simp [hx])) _⟩

theorem apart_derived {l : List Value} (h : ∀ v ∈ l, v.Any) (labels : List (Str × Bool)) (u : Bool) : (Visit.derivedFields labels l).Apart u := by
  induction l generalizing labels with
  | nil => cases labels <;> simp [Visit.derivedFields]
  | cons v l ih =>
    cases labels with
    | nil => simp [Visit.derivedFields]
    | cons x xs =>
      obtain ⟨lb, sk⟩ := x
      simp only [Visit.derivedFields, apart_append]
      refine ⟨?_, ih (fun x hx => h x (by simp [hx])) _⟩
      cases sk
      · simpa using (h v (by simp)).at false
      · simp

theorem apart_rawTable [Target] (T : Ty) (len : Nat) : (Impl.addRawTableForLen T len).Apart false := by
  unfold Impl.addRawTableForLen
  split <;> simp

theorem any_enter {v : Value} {k n e} {body : Obj} (hv : v.visit = Visit.enter k n e body) (h : body.Apart false) : v.Any := by
  simp only [Value.Any, hv, apart_enter]; exact h

mutual
/-- Every value is visited with one call of `enter` (or none) on the visitor it is given. -/
theorem any [Target] : (d : Datum) → d.value.Any
  | .plain _ => by simp [Value.Any, Datum.value, Impl.plain, Impl.sized, Visit.simpleSized, Visit.enterSelfSized]
  | .hollow _ _ => trivial
  | .str _ _ => by simp [Value.Any, Datum.value, Impl.str]
  | .osStr _ _ => by simp [Value.Any, Datum.value, Impl.osStr]
  | .box _ _ v => any_enter rfl (by simpa using (any v).at true)
  | .ok _ v => any_enter rfl (by simpa using (any v).at false)
  | .err _ v => any_enter rfl (by simpa using (any v).at false)
  | .none _ => any_enter rfl (by simp)
  | .some _ v => any_enter rfl (by simpa using (any v).at false)
  | .left _ v => any_enter rfl (by simpa using (any v).at false)
  | .right _ v => any_enter rfl (by simpa using (any v).at false)
  | .vec _ T items _ => any_enter rfl (by
      split
      · simpa [Visit.slice] using apart_iter (anyAll items) true
      · simp)
  | .vecDeque _ T front back _ => any_enter rfl (by
      split
      · simpa [Visit.slice] using ⟨apart_iter (anyAll front) true, apart_iter (anyAll back) true⟩
      · simp)
  | .string _ _ _ => any_enter rfl (by simp [Visit.vecLikeBody, Visit.fieldWith, Visit.slice, Visit.iter, Impl.u8])
  | .pathBuf _ _ _ => any_enter rfl (by split <;> simp)
  | .compactString _ _ _ _ => any_enter rfl (by split <;> simp)
  | .slice _ T items => any_enter rfl (apart_fields (anyAll items) _ _)
  | .array _ T items => any_enter rfl (apart_fields (anyAll items) _ _)
  | .tuple _ fields => any_enter rfl (apart_tuple (anyAll fields) 0 _)
  | .manuallyDrop _ v => any_enter rfl (by simpa using (any v).at false)
  | .cell _ accessible v => any_enter rfl (by
      cases accessible
      · simp
      · simpa using (any v).at false)
  | .cellEmpty _ => any_enter rfl (by simp)
  | .onceCell _ v => any_enter rfl ((any v).at false)
  | .map _ _ keys values => any_enter rfl (by
      simpa [Visit.genericMapFields, Visit.fieldWith] using apart_pairs (any_zip (anyAll keys) (anyAll values)) _ _ false)
  | .set _ _ items => any_enter rfl (by simpa [Visit.genericSetFields, Visit.fieldWith] using apart_fields (anyAll items) _ false)
  | .smallVecInline _ _ items => any_enter rfl (by simpa using apart_fields (anyAll items) _ false)
  | .smallVecSpilled _ _ items _ => any_enter rfl (by simpa using apart_fields (anyAll items) _ true)
  | .slab _ T _ items _ => any_enter rfl (by
      split
      · simpa using apart_iter (anyAll items) true
      · simp)
  | .arc _ _ _ => any_enter rfl (by simp [Obj.Apart])
  | .weakDangling _ => any_enter rfl (by simp)
  | .weak _ _ _ _ => any_enter rfl (by simp [Impl.arc, Impl.sized, Visit.enterSelfSized, Obj.Apart])
  | .struct _ _ labels fields => any_enter rfl (apart_derived (anyAll fields) labels _)
  | .enum _ _ labels fields => any_enter rfl (by simpa using apart_derived (anyAll fields) labels false)
  | .onceCellEmpty _ => any_enter rfl (by simp)
  | .hashTable _ T items _ _ => any_enter rfl (by simpa using apart_iter (anyAll items) false)
  | .indexSet _ T items _ _ _ => any_enter rfl (by simpa using ⟨apart_fields (anyAll items) _ true, apart_rawTable _ _⟩)
  | .indexMap _ _ _ _ keys values _ _ _ => any_enter rfl (by
      simpa using ⟨apart_pairs (any_zip (anyAll keys) (anyAll values)) _ _ true, apart_rawTable _ _⟩)
  | .dashMap _ _ _ _ _ keys values _ _ _ => any_enter rfl (by simpa using apart_pairs (any_zip (anyAll keys) (anyAll values)) _ _ false)
  | .dashSet _ _ _ items _ _ _ => any_enter rfl (by simpa using apart_fields (anyAll items) _ false)
  | .bigInt _ _ _ => any_enter rfl (by simp)
  | .bump _ _ _ _ => any_enter rfl (by simp)
  | .jsonMap _ _ keys values => any_enter rfl (by simpa using apart_pairs (any_zip (anyAll keys) (anyAll values)) _ _ true)
  | .jsonLeaf _ => any_enter rfl (by simp)
  | .json _ _ v => any_enter rfl (by simpa using (any v).at false)
  | .futuresPending _ => any_enter rfl (by simp)
  | .futuresShared _ _ => any_enter rfl (by simp [Obj.Apart])
  | .headerSlice _ _ header tail => any_enter rfl (by simpa using ⟨(any header).at false, (any tail).at false⟩)
  | .headerWithLength _ header len => any_enter rfl (by simpa using ⟨(any header).at false, (any len).at false⟩)
  | .unit _ _ _ => any_enter rfl (by simp)
theorem anyAll [Target] : (l : List Datum) → ∀ v ∈ Datum.values l, v.Any
  | [] => by simp [Datum.values]
  | d :: l => by
    intro x hx
    simp only [Datum.values, List.mem_cons] at hx
    rcases hx with hx | hx
    · rw [hx]; exact any d
    · exact anyAll l x hx
end

/-! ### Sums -/

/-- The part of the records that counts, if `P` tells which stacks are entered as unique or are the top. -/
def countedBy (P : Path → Bool) (recs : List Rec) : Nat := (recs.map fun r => if P r.path.dropLast then r.size else 0).sum

theorem countedBy_append (P) (a b : List Rec) : countedBy P (a ++ b) = countedBy P a + countedBy P b := by simp [countedBy]
theorem countedBy_cons (P) (r : Rec) (b : List Rec) : countedBy P (r :: b) = (if P r.path.dropLast then r.size else 0) + countedBy P b := by
  simp [countedBy]
theorem countedBy_flatMap {α : Type} (P) (l : List α) (f : α → List Rec) : countedBy P (l.flatMap f) = (l.map fun x => countedBy P (f x)).sum := by
  induction l with
  | nil => rfl
  | cons x l ih => rw [List.flatMap_cons, countedBy_append, ih]; rfl

/-- The records of an object that count. -/
theorem counted_own {P : Path → Bool} (o : Obj) : ∀ (cur : Path) (u : Bool), o.Apart u → P cur = u → (∀ r ∈ o.own cur, P r.path = r.unique) →
    countedBy P (o.own cur) = o.heap u := by
  induction o with
  | nil => intro cur u _ _ _; rfl
  | inline k n e i r ih1 ih2 =>
    intro cur u ha hu hr
    simp only [Obj.own, List.cons_append, List.mem_cons, List.mem_append] at hr
    simp only [Obj.own, List.cons_append, countedBy_cons, countedBy_append, List.dropLast_concat, hu, Obj.heap]
    rw [ih1 (cur ++ [k]) false ha.1 (hr _ (.inl rfl)) fun x hx => hr x (.inr (.inl hx)), ih2 cur u ha.2 hu fun x hx => hr x (.inr (.inr hx))]
    omega
  | unique k n e i r ih1 ih2 =>
    intro cur u ha hu hr
    obtain ⟨rfl, h1, h2⟩ := ha
    simp only [Obj.own, List.cons_append, List.mem_cons, List.mem_append] at hr
    simp only [Obj.own, List.cons_append, countedBy_cons, countedBy_append, List.dropLast_concat, hu, Obj.heap]
    rw [ih1 (cur ++ [k]) true h1 (hr _ (.inl rfl)) fun x hx => hr x (.inr (.inl hx)), ih2 cur false h2 hu fun x hx => hr x (.inr (.inr hx))]
    simp
  | shared k n p e r ih =>
    intro cur u ha hu hr
    obtain ⟨rfl, h2⟩ := ha
    simp only [Obj.own, List.mem_cons] at hr
    simp only [Obj.own, countedBy_cons, List.dropLast_concat, hu, Obj.heap]
    rw [ih cur false h2 hu fun x hx => hr x (.inr hx)]
    simp

/-- The same with no assumption about mixed stacks: at least that much counts. -/
theorem counted_own_le {P : Path → Bool} (o : Obj) : ∀ (cur : Path) (u : Bool), (u = true → P cur = true) → (∀ r ∈ o.own cur, r.unique = true → P r.path = true) →
    o.heap u ≤ countedBy P (o.own cur) := by
  induction o with
  | nil => intro cur u _ _; exact Nat.le_refl _
  | inline k n e i r ih1 ih2 =>
    intro cur u hu hr
    simp only [Obj.own, List.cons_append, List.mem_cons, List.mem_append] at hr
    simp only [Obj.own, List.cons_append, countedBy_cons, countedBy_append, List.dropLast_concat, Obj.heap]
    have h1 := ih1 (cur ++ [k]) false (by simp) fun x hx => hr x (.inr (.inl hx))
    have h2 := ih2 cur u hu fun x hx => hr x (.inr (.inr hx))
    cases u
    · simp; omega
    · rw [hu rfl]; simp; omega
  | unique k n e i r ih1 ih2 =>
    intro cur u hu hr
    simp only [Obj.own, List.cons_append, List.mem_cons, List.mem_append] at hr
    simp only [Obj.own, List.cons_append, countedBy_cons, countedBy_append, List.dropLast_concat, Obj.heap]
    have h1 := ih1 (cur ++ [k]) true (fun _ => hr _ (.inl rfl) rfl) fun x hx => hr x (.inr (.inl hx))
    have h2 := ih2 cur u hu fun x hx => hr x (.inr (.inr hx))
    omega
  | shared k n p e r ih =>
    intro cur u hu hr
    simp only [Obj.own, List.mem_cons] at hr
    simp only [Obj.own, countedBy_cons, List.dropLast_concat, Obj.heap]
    have h2 := ih cur u hu fun x hx => hr x (.inr hx)
    omega

/-- Consistent objects have no over-full stacks. -/
theorem own_consistent (o : Obj) : ∀ (cur p : Path), o.Consistent → uniqueAt (o.own cur) p = false → p ≠ cur →
    childrenAt (o.own cur) p ≤ sizeAt (o.own cur) p := by
  have key : ∀ (o : Obj) (cur p : Path) (k : Key) (n : Nat), (∀ (cur p : Path), o.Consistent → uniqueAt (o.own cur) p = false → p ≠ cur →
      childrenAt (o.own cur) p ≤ sizeAt (o.own cur) p) → o.Consistent → uniqueAt (o.own (cur ++ [k])) p = false → (p = cur ++ [k] → o.direct ≤ n) → p ≠ cur →
      childrenAt (o.own (cur ++ [k])) p ≤ (if cur ++ [k] = p then n else 0) + sizeAt (o.own (cur ++ [k])) p := by
    intro o cur p k n ih ho hu hd hp
    by_cases h : p = cur ++ [k]
    · subst h; rw [childrenAt_own]; simp; have := hd rfl; omega
    · have := ih _ p ho hu h; omega
  have notChild : ∀ (cur p : Path) (k : Key), p ≠ cur → isChild p (cur ++ [k]) = false := by
    intro cur p k h
    simp only [isChild, List.dropLast_concat, Bool.and_eq_false_iff, decide_eq_false_iff_not]
    exact .inr (Ne.symm h)
  induction o with
  | nil => intro cur p _ _ _; exact Nat.le_refl _
  | inline k n e i r ih1 ih2 =>
    intro cur p hc hu hp
    simp only [Obj.own, List.cons_append, uniqueAt, List.any_cons, List.any_append, Bool.or_eq_false_iff] at hu
    simp only [Obj.own, List.cons_append, childrenAt_cons, childrenAt_append, sizeAt_cons, sizeAt_append, notChild cur p k hp]
    have h1 := key i cur p k n ih1 hc.2.1 hu.2.1 (fun _ => hc.1) hp
    have h2 := ih2 cur p hc.2.2 hu.2.2 hp
    simp; omega
  | unique k n e i r ih1 ih2 =>
    intro cur p hc hu hp
    simp only [Obj.own, List.cons_append, uniqueAt, List.any_cons, List.any_append, Bool.or_eq_false_iff] at hu
    have hne : ¬ cur ++ [k] = p := by simpa using hu.1
    simp only [Obj.own, List.cons_append, childrenAt_cons, childrenAt_append, sizeAt_cons, sizeAt_append, notChild cur p k hp]
    have h1 := ih1 (cur ++ [k]) p hc.1 hu.2.1 (fun h => hne h.symm)
    have h2 := ih2 cur p hc.2 hu.2.2 hp
    simp [hne]; omega
  | shared k n q e r ih =>
    intro cur p hc hu hp
    simp only [Obj.own, uniqueAt, List.any_cons, Bool.or_eq_false_iff] at hu
    simp only [Obj.own, childrenAt_cons, sizeAt_cons, notChild cur p k hp]
    have h2 := ih cur p hc hu.2 hp
    simp; omega

end Allocative
