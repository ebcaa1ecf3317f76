import Verif.Lemmas.Datum
set_option linter.unusedSimpArgs false
/-
Visits of Rust values are locally consistent.
-/
namespace Allocative

mutual
theorem standard_missed [Target] : (d : Datum) → d.Standard → d.missed = 0
  | .plain _, _ => rfl
  | .hollow _ _, h => h
  | .str _ _, _ => rfl
  | .osStr _ _, _ => rfl
  | .box _ _ v, h => by
    have := standard_missed v h.1
    simp only [Datum.missed, this, Datum.hidden]
    by_cases ho : v.isOpaque = true
    · simp [ho, h.2 ho]
    · simp [ho]
  | .ok _ v, h => standard_missed v h
  | .err _ v, h => standard_missed v h
  | .none _, _ => rfl
  | .some _ v, h => standard_missed v h
  | .left _ v, h => standard_missed v h
  | .right _ v, h => standard_missed v h
  | .vec _ T items _, h => by
    have := standard_missedAll items h.2
    have h1 := h.1
    simp only [Datum.missed, Datum.ElementsOk] at *
    by_cases hc : T.needsDrop = true ∧ T.size ≠ 0
    · rw [if_pos hc] at *
      exact this true fun d hd _ => h1 d hd
    · rw [if_neg hc] at *
      exact h1
  | .vecDeque _ T front back _, h => by
    have e1 := standard_missedAll front h.2.2.1
    have e2 := standard_missedAll back h.2.2.2
    have h1 := h.1
    have h2 := h.2.1
    simp only [Datum.missed, Datum.ElementsOk] at *
    by_cases hc : T.needsDrop = true ∧ T.size ≠ 0
    · rw [if_pos hc] at *
      rw [e1 true fun d hd _ => h1 d hd, e2 true fun d hd _ => h2 d hd]
    · rw [if_neg hc] at *
      rw [h1, h2]
  | .string _ _ _, _ => rfl
  | .pathBuf _ _ _, _ => rfl
  | .compactString _ _ _ _, _ => rfl
  | .slice _ _ items, h => standard_missedAll items h false (by simp)
  | .array _ _ items, h => standard_missedAll items h false (by simp)
  | .tuple _ fields, h => standard_missedAll fields h false (by simp)
  | .manuallyDrop _ v, h => standard_missed v h
  | .cell _ accessible v, h => by
    obtain ⟨rfl, h⟩ := h
    simp [Datum.missed, standard_missed v h]
  | .cellEmpty _, _ => rfl
  | .onceCell _ v, h => standard_missed v h
  | .map _ _ _ _, h => absurd h (by simp [Datum.Standard])
  | .set _ _ _, h => absurd h (by simp [Datum.Standard])
  | .smallVecInline _ _ items, h => standard_missedAll items h false (by simp)
  | .smallVecSpilled _ _ items _, h => by
    simp only [Datum.missed, standard_missedAll items h.2 false (by simp), h.1]; simp
  | .slab _ _ _ _ _, h => absurd h (by simp [Datum.Standard])
  | .arc _ _ _, _ => rfl
  | .weakDangling _, _ => rfl
  | .weak _ _ _ _, _ => rfl
  | .struct _ _ labels fields, h => standard_missedFields fields h.2 labels h.1
  | .enum _ _ labels fields, h => standard_missedFields fields h.2 labels h.1
  | .onceCellEmpty _, _ => rfl
  | .hashTable _ _ _ _ _, h => absurd h (by simp [Datum.Standard])
  | .indexSet _ _ _ _ _ _, h => absurd h (by simp [Datum.Standard])
  | .indexMap _ _ _ _ _ _ _ _ _, h => absurd h (by simp [Datum.Standard])
  | .dashMap _ _ _ _ _ _ _ _ _ _, h => absurd h (by simp [Datum.Standard])
  | .dashSet _ _ _ _ _ _ _, h => absurd h (by simp [Datum.Standard])
  | .bigInt _ digits heap, h => by
    have : heap = digits * 8 := h
    simp [Datum.missed, this]
  | .bump _ allocated _ heap, h => by
    have : heap = allocated := h
    simp [Datum.missed, this]
  | .jsonMap _ _ _ _, h => absurd h (by simp [Datum.Standard])
  | .jsonLeaf _, _ => rfl
  | .json _ _ v, h => standard_missed v h
  | .futuresPending _, _ => rfl
  | .futuresShared _ _, _ => rfl
  | .headerSlice _ _ header tail, h => by simp [Datum.missed, standard_missed header h.1, standard_missed tail h.2]
  | .headerWithLength _ header len, h => by simp [Datum.missed, standard_missed header h.1, standard_missed len h.2]
  | .unit _ _ _, h => h
theorem standard_missedAll [Target] : (l : List Datum) → Datum.StandardAll l → ∀ b, (∀ d ∈ l, b = true → d.isOpaque = false) → Datum.missedAll b l = 0
  | [], _, _, _ => rfl
  | d :: l, h, b, hb => by
    simp only [Datum.missedAll, standard_missed d h.1, standard_missedAll l h.2 b fun x hx => hb x (by simp [hx]), Datum.hidden]
    cases b
    · simp
    · simp [hb d (by simp) rfl]
theorem standard_missedFields [Target] : (l : List Datum) → Datum.StandardAll l → ∀ labels : List (Str × Bool), (∀ x ∈ labels, x.2 = false) →
    Datum.missedFields labels l = 0
  | [], _, labels, _ => by cases labels <;> rfl
  | d :: l, h, labels, hb => by
    cases labels with
    | nil => rfl
    | cons x ls =>
      obtain ⟨lbl, sk⟩ := x
      have : sk = false := hb (lbl, sk) (by simp)
      subst this
      simp [Datum.missedFields, standard_missed d h.1, standard_missedFields l h.2 ls fun y hy => hb y (by simp [hy])]
end

/-! ### Local consistency of objects -/

theorem visitWith_direct (content : Ptr → Prog) (o : Obj) : (o.visitWith content).direct = o.direct := by
  induction o with
  | nil => rfl
  | inline k n e i r _ ih => simp [Obj.visitWith, Prog.direct, Obj.direct, ih]
  | unique k n e i r _ ih => simp [Obj.visitWith, Prog.direct, Obj.direct, ih]
  | shared k n p e r ih => simp [Obj.visitWith, Prog.direct, Obj.direct, ih]

theorem visitWith_consistent {content : Ptr → Prog} (hc : ∀ p, (content p).Consistent) {o : Obj} (h : o.Consistent) :
    (o.visitWith content).Consistent := by
  induction o with
  | nil => trivial
  | inline k n e i r ih1 ih2 => exact ⟨by rw [visitWith_direct]; exact h.1, ih1 h.2.1, ih2 h.2.2⟩
  | unique k n e i r ih1 ih2 => exact ⟨ih1 h.1, ih2 h.2⟩
  | shared k n p e r ih => exact ⟨hc p, ih h, ih h⟩

@[simp] theorem direct_append (a b : Obj) : (a.append b).direct = a.direct + b.direct := by
  induction a with
  | nil => simp [Obj.append, Obj.direct]
  | inline k n e i r _ ih => simp only [Obj.append, Obj.direct, ih]; omega
  | unique k n e i r _ ih => simp only [Obj.append, Obj.direct, ih]; omega
  | shared k n p e r ih => simp only [Obj.append, Obj.direct, ih]; omega

@[simp] theorem consistent_append (a b : Obj) : (a.append b).Consistent ↔ a.Consistent ∧ b.Consistent := by
  induction a with
  | nil => simp [Obj.append, Obj.Consistent]
  | inline k n e i r _ ih => simp only [Obj.append, Obj.Consistent, ih]; simp only [and_assoc]
  | unique k n e i r _ ih => simp only [Obj.append, Obj.Consistent, ih]; simp only [and_assoc]
  | shared k n p e r ih => simp only [Obj.append, Obj.Consistent, ih]

@[simp] theorem direct_nil : Obj.nil.direct = 0 := rfl
@[simp] theorem consistent_nil : Obj.nil.Consistent := trivial
@[simp] theorem direct_enter (k n e) (o : Obj) : (Visit.enter k n e o).direct = n := by simp [Visit.enter, Obj.direct]
@[simp] theorem direct_enterUnique (k n e) (o : Obj) : (Visit.enterUnique k n e o).direct = n := by simp [Visit.enterUnique, Obj.direct]
@[simp] theorem direct_simple (k n) : (Visit.simple k n).direct = n := by simp [Visit.simple]
@[simp] theorem direct_field (k) (v : Value) : (Visit.field k v).direct = v.sizeOfVal := by simp [Visit.field, Visit.fieldWith]
@[simp] theorem consistent_enter (k n e) (o : Obj) : (Visit.enter k n e o).Consistent ↔ o.direct ≤ n ∧ o.Consistent := by
  simp [Visit.enter, Obj.Consistent]
@[simp] theorem consistent_enterUnique (k n e) (o : Obj) : (Visit.enterUnique k n e o).Consistent ↔ o.Consistent := by
  simp [Visit.enterUnique, Obj.Consistent]
@[simp] theorem consistent_simple (k n) : (Visit.simple k n).Consistent := by simp [Visit.simple]
@[simp] theorem consistent_field (k) (v : Value) : (Visit.field k v).Consistent ↔ v.visit.direct ≤ v.sizeOfVal ∧ v.visit.Consistent := by
  simp [Visit.field, Visit.fieldWith]

/-- For values that enter themselves. -/
theorem fit_self {v : Value} {k n e} {body : Obj} (hv : v.visit = Visit.enter k n e body) (hn : n ≤ v.sizeOfVal) (hb : body.direct ≤ n)
    (hc : body.Consistent) : v.Fit := by
  unfold Value.Fit
  rw [hv]; simp [hn, hb, hc]

theorem each_consistent {l : List Value} (h : ∀ v ∈ l, v.Fit) : (Visit.each l).Consistent := by
  induction l with
  | nil => simp [Visit.each, Obj.concat]
  | cons v l ih =>
    have := ih fun x hx => h x (by simp [hx])
    simp only [Visit.each, List.map_cons, Obj.concat, consistent_append] at *
    exact ⟨(h v (by simp)).2, this⟩

theorem iter_consistent [Target] (T : Ty) {l : List Value} (h : ∀ v ∈ l, v.Fit) : (Visit.iter T l).Consistent := by
  unfold Visit.iter
  split
  · simp
  · exact each_consistent h

theorem iter_direct_le [Target] (T : Ty) {l : List Value} (h : ∀ v ∈ l, v.Fit) (hT : ∀ v ∈ l, v.sizeOfVal = T.size) :
    (Visit.iter T l).direct ≤ T.size * l.length := by
  unfold Visit.iter
  split
  · simp only [direct_simple]; exact Nat.mod_le _ _
  · induction l with
    | nil => simp [Visit.each, Obj.concat]
    | cons v l ih =>
      have := ih (fun x hx => h x (by simp [hx])) (fun x hx => hT x (by simp [hx]))
      have h1 := (h v (by simp)).1
      have h2 := hT v (by simp)
      simp only [Visit.each, List.map_cons, Obj.concat, direct_append, List.length_cons, Nat.mul_add] at *
      omega

theorem allOf_sizes [Target] {T : Ty} {l : List Datum} (h : Datum.AllOf T l) : ∀ v ∈ Datum.values l, v.sizeOfVal = T.size := by
  intro v hv
  simp only [values_eq, List.mem_map] at hv
  obtain ⟨d, hd, rfl⟩ := hv
  exact (h d hd).2

theorem rawTable_fit [Target] (len : Nat) : (Impl.addRawTableForLen Impl.usize len).Consistent ∧ (Impl.addRawTableForLen Impl.usize len).direct ≤ ptrBytes := by
  unfold Impl.addRawTableForLen
  split <;> simp

theorem fields_fit (k : Key) {l : List Value} (h : ∀ v ∈ l, v.Fit) :
    (Obj.concat (l.map fun v => Visit.field k v)).Consistent ∧ (Obj.concat (l.map fun v => Visit.field k v)).direct = (l.map Value.sizeOfVal).sum := by
  induction l with
  | nil => simp [Obj.concat]
  | cons v l ih =>
    have := ih fun x hx => h x (by simp [hx])
    simp only [List.map_cons, Obj.concat, consistent_append, direct_append, consistent_field, direct_field, List.sum_cons, this.2]
    exact ⟨⟨h v (by simp), this.1⟩, trivial⟩

theorem tuple_fit {l : List Value} (h : ∀ v ∈ l, v.Fit) (i : Nat) :
    (Obj.concat ((tupleLabels i l).map fun f => Visit.field (Key.new f.1) f.2)).Consistent ∧
    (Obj.concat ((tupleLabels i l).map fun f => Visit.field (Key.new f.1) f.2)).direct = (l.map Value.sizeOfVal).sum := by
  induction l generalizing i with
  | nil => simp [Obj.concat, tupleLabels]
  | cons v l ih =>
    have := ih (fun x hx => h x (by simp [hx])) (i + 1)
    simp only [List.map_cons, tupleLabels, Obj.concat, consistent_append, direct_append, consistent_field, direct_field, List.sum_cons, this.2]
    exact ⟨⟨h v (by simp), this.1⟩, trivial⟩

theorem map_fit {keys values : List Value} (hl : keys.length = values.length) (h1 : ∀ v ∈ keys, v.Fit) (h2 : ∀ v ∈ values, v.Fit) (a b : Key) :
    (Obj.concat ((keys.zip values).map fun e => (Visit.field a e.1).append (Visit.field b e.2))).Consistent ∧
    (Obj.concat ((keys.zip values).map fun e => (Visit.field a e.1).append (Visit.field b e.2))).direct =
      (keys.map Value.sizeOfVal).sum + (values.map Value.sizeOfVal).sum := by
  induction keys generalizing values with
  | nil =>
    cases values with
    | nil => simp [Obj.concat]
    | cons => simp at hl
  | cons k ks ih =>
    cases values with
    | nil => simp at hl
    | cons v vs =>
      have := ih (values := vs) (by simpa using hl) (fun x hx => h1 x (by simp [hx])) (fun x hx => h2 x (by simp [hx]))
      simp only [List.zip_cons_cons, List.map_cons, Obj.concat, consistent_append, direct_append, consistent_field, direct_field, List.sum_cons,
        this.2]
      exact ⟨⟨⟨h1 k (by simp), h2 v (by simp)⟩, this.1⟩, by omega⟩

theorem derived_fit {l : List Value} (h : ∀ v ∈ l, v.Fit) (labels : List (Str × Bool)) :
    (Visit.derivedFields labels l).Consistent ∧ (Visit.derivedFields labels l).direct ≤ (l.map Value.sizeOfVal).sum := by
  induction l generalizing labels with
  | nil => cases labels <;> simp [Visit.derivedFields]
  | cons v l ih =>
    cases labels with
    | nil => simp [Visit.derivedFields]
    | cons lb ls =>
      obtain ⟨lbl, sk⟩ := lb
      have := ih (fun x hx => h x (by simp [hx])) ls
      have hv := h v (by simp)
      simp only [Visit.derivedFields, consistent_append, direct_append, List.map_cons, List.sum_cons]
      cases sk
      · simp only [Bool.false_eq_true, if_false, consistent_field, direct_field]
        exact ⟨⟨hv, this.1⟩, by omega⟩
      · simp only [if_true, consistent_nil, direct_nil, true_and]
        exact ⟨this.1, by omega⟩

theorem sizes_values [Target] (l : List Datum) : ((Datum.values l).map Value.sizeOfVal).sum = Datum.sizes l := by
  simp [values_eq, Datum.sizes, List.map_map]; rfl

mutual
theorem datum_fit [Target] : (d : Datum) → d.WF → d.Fits → d.value.Fit
  | .plain self, _, _ => fit_self (k := self.key) (n := self.size) (e := .exit) (body := .nil) rfl (Nat.le_refl _) (by simp) trivial
  | .hollow self _, _, _ => by simp [Datum.value, Impl.empty, Impl.sized, Value.Fit]
  | .str self len, _, _ => by simp [Datum.value, Impl.str, Value.Fit]
  | .osStr self len, _, _ => by simp [Datum.value, Impl.osStr, Value.Fit]
  | .box self ptrSize v, h, hf => by
    have := datum_fit v h hf.2
    exact fit_self (v := (Datum.box self ptrSize v).value) rfl (Nat.le_refl _) (by simp [hf.1]) (by simp [this.2])
  | .ok self v, h, hf => by
    have := datum_fit v h hf.2
    exact fit_self (v := (Datum.ok self v).value) rfl (Nat.le_refl _) (by simpa [Datum.size] using hf.1) (by simpa [Value.Fit] using this)
  | .err self v, h, hf => by
    have := datum_fit v h hf.2
    exact fit_self (v := (Datum.err self v).value) rfl (Nat.le_refl _) (by simpa [Datum.size] using hf.1) (by simpa [Value.Fit] using this)
  | .none self, _, _ => fit_self (v := (Datum.none self).value) rfl (Nat.le_refl _) (by simp) (by simp)
  | .some self v, h, hf => by
    have := datum_fit v h hf.2
    exact fit_self (v := (Datum.some self v).value) rfl (Nat.le_refl _) (by simpa [Datum.size] using hf.1) (by simpa [Value.Fit] using this)
  | .left self v, h, hf => by
    have := datum_fit v h hf.2
    exact fit_self (v := (Datum.left self v).value) rfl (Nat.le_refl _) (by simpa [Datum.size] using hf.1) (by simpa [Value.Fit] using this)
  | .right self v, h, hf => by
    have := datum_fit v h hf.2
    exact fit_self (v := (Datum.right self v).value) rfl (Nat.le_refl _) (by simpa [Datum.size] using hf.1) (by simpa [Value.Fit] using this)
  | .vec self T items capacity, h, hf => by
    have := iter_consistent T (datum_fitAll items h.2.2.2.2 hf.2)
    refine fit_self (v := (Datum.vec self T items capacity).value) rfl (Nat.le_refl _) ?_ ?_
    · split <;> simp [hf.1]
    · split <;> simp [Visit.slice, this]
  | .vecDeque self T front back capacity, h, hf => by
    have h1 := iter_consistent T (datum_fitAll front h.2.2.2.2.2.1 hf.2.1)
    have h2 := iter_consistent T (datum_fitAll back h.2.2.2.2.2.2 hf.2.2)
    refine fit_self (v := (Datum.vecDeque self T front back capacity).value) rfl (Nat.le_refl _) ?_ ?_
    · split <;> simp [hf.1]
    · split <;> simp [Visit.slice, h1, h2]
  | .string self len capacity, h, hf => by
    obtain ⟨hl, hc⟩ := h
    refine fit_self (v := (Datum.string self len capacity).value) rfl (Nat.le_refl _) (by simpa [Datum.Fits] using hf) ?_
    have e1 := Usize.mul_eq (a := 1) (b := capacity) (by omega)
    have e2 := Usize.mul_eq (a := 1) (b := len) (by omega)
    have e3 := Usize.mul_eq (a := 1) (b := capacity - len) (by omega)
    simp [Visit.vecLikeBody, Visit.fieldWith, Visit.slice, Visit.iter, Impl.u8, Usize.sub_eq hl hc, e1, e2, e3]
    omega
  | .pathBuf self len capacity, h, hf => by
    refine fit_self (v := (Datum.pathBuf self len capacity).value) rfl (Nat.le_refl _) ?_ ?_
    · have : ptrBytes ≤ self.size := hf
      split <;> simp [this]
    · split <;> simp
  | .compactString self heapAllocated len capacity, h, hf => by
    refine fit_self (v := (Datum.compactString self heapAllocated len capacity).value) rfl (Nat.le_refl _) ?_ ?_
    · have : ptrBytes ≤ self.size := hf
      split <;> simp [this]
    · split <;> simp
  | .slice self T items, h, hf => by
    have := fields_fit dataName (datum_fitAll items h.2.2 hf)
    refine fit_self (v := (Datum.slice self T items).value) rfl (Nat.le_refl _) ?_ this.1
    rw [this.2, sizes_values, sizes_allOf h.1, values_length, Usize.mul_eq h.2.1]
    exact Nat.le_refl _
  | .array self T items, h, hf => by
    obtain ⟨ht, hs, hb, hw⟩ := h
    have := fields_fit dataName (datum_fitAll items hw hf)
    have hm : Usize.mul T.size (Datum.values items).length = T.size * items.length := by rw [values_length, Usize.mul_eq (by omega)]
    refine fit_self (v := (Datum.array self T items).value) rfl ?_ ?_ this.1
    · simp only [Datum.value, Impl.array, Impl.sized]; omega
    · rw [this.2, sizes_values, sizes_allOf ht, hm]; exact Nat.le_refl _
  | .tuple self fields, h, hf => by
    have := tuple_fit (datum_fitAll fields h hf.2) 0
    exact fit_self (v := (Datum.tuple self fields).value) rfl (Nat.le_refl _) (by rw [this.2, sizes_values]; exact hf.1) this.1
  | .manuallyDrop self v, h, hf => by
    have := datum_fit v h hf
    exact fit_self (v := (Datum.manuallyDrop self v).value) rfl (Nat.le_refl _) (by simp) (by simpa [Value.Fit] using this)
  | .cell self accessible v, h, hf => by
    have := datum_fit v h hf.2
    refine fit_self (v := (Datum.cell self accessible v).value) rfl (Nat.le_refl _) ?_ ?_
    · have := hf.1
      cases accessible
      · simp
      · simpa [Datum.size] using this
    · cases accessible
      · simp
      · simpa [Value.Fit] using this
  | .cellEmpty self, _, _ => fit_self (v := (Datum.cellEmpty self).value) rfl (Nat.le_refl _) (by simp) (by simp)
  | .onceCell self v, h, hf => by
    have := datum_fit v h hf.2
    have h1 := hf.1
    exact fit_self (v := (Datum.onceCell self v).value) rfl (Nat.le_refl _) (Nat.le_trans this.1 h1) this.2
  | .map self table keys values, h, hf => by
    obtain ⟨hl, hk, hv⟩ := h
    obtain ⟨f1, f2, f3, f4⟩ := hf
    have := map_fit (by simpa using hl) (datum_fitAll keys hk f3) (datum_fitAll values hv f4) keyName valueName
    refine fit_self (v := (Datum.map self table keys values).value) rfl (Nat.le_refl _) (by simpa [Visit.genericMapFields, Visit.fieldWith] using f1) ?_
    simp only [Visit.genericMapFields, Visit.fieldWith, consistent_enter]
    exact ⟨by rw [this.2, sizes_values, sizes_values]; exact f2, this.1⟩
  | .set self table items, h, hf => by
    obtain ⟨f1, f2, f3⟩ := hf
    have := fields_fit keyName (datum_fitAll items h f3)
    refine fit_self (v := (Datum.set self table items).value) rfl (Nat.le_refl _) (by simpa [Visit.genericSetFields, Visit.fieldWith] using f1) ?_
    simp only [Visit.genericSetFields, Visit.fieldWith, consistent_enter]
    exact ⟨by rw [this.2, sizes_values]; exact f2, this.1⟩
  | .smallVecInline self T items, h, hf => by
    have := fields_fit dataName (datum_fitAll items h.2 hf.2)
    refine fit_self (v := (Datum.smallVecInline self T items).value) rfl (Nat.le_refl _) ?_ ?_
    · simp only [Bool.false_eq_true, if_false]; rw [this.2, sizes_values]; exact hf.1
    · simp only [Bool.false_eq_true, if_false]; exact this.1
  | .smallVecSpilled self T items capacity, h, hf => by
    have := fields_fit dataName (datum_fitAll items h.2.2 hf.2)
    refine fit_self (v := (Datum.smallVecSpilled self T items capacity).value) rfl (Nat.le_refl _) ?_ ?_
    · simpa using hf.1
    · simpa using this.1
  | .slab self T entry items capacity, h, hf => by
    have := iter_consistent T (datum_fitAll items h.2.2.2.2.2 hf.2)
    refine fit_self (v := (Datum.slab self T entry items capacity).value) rfl (Nat.le_refl _) ?_ ?_
    · split <;> simp [hf.1]
    · split <;> simp [Visit.slice, this]
  | .arc self ptrSize ptr, _, hf => by
    have hf' : ptrSize ≤ self.size := hf
    exact fit_self (v := (Datum.arc self ptrSize ptr).value) rfl (Nat.le_refl _) (by simpa [Obj.direct] using hf') (by simp [Obj.Consistent])
  | .weakDangling self, _, _ => fit_self (v := (Datum.weakDangling self).value) rfl (Nat.le_refl _) (by simp) (by simp)
  | .weak self strong ptrSize ptr, _, hf => by
    obtain ⟨h1, h2⟩ := hf
    exact fit_self (v := (Datum.weak self strong ptrSize ptr).value) rfl (Nat.le_refl _)
      (by simpa [Impl.arc, Impl.sized, Visit.enterSelfSized] using h2)
      (by simpa [Impl.arc, Impl.sized, Visit.enterSelfSized, Obj.direct, Obj.Consistent] using h1)
  | .struct self size labels fields, h, hf => by
    have := derived_fit (datum_fitAll fields h.2 hf.2) labels
    have h1 := hf.1
    exact fit_self (v := (Datum.struct self size labels fields).value) rfl (Nat.le_refl _)
      (Nat.le_trans this.2 (by rw [sizes_values]; exact h1)) this.1
  | .enum self variant labels fields, h, hf => by
    have := derived_fit (datum_fitAll fields h.2 hf.2) labels
    have h1 := hf.1
    refine fit_self (v := (Datum.enum self variant labels fields).value) rfl (Nat.le_refl _) (by simp) ?_
    rw [consistent_enter]
    exact ⟨Nat.le_trans this.2 (by rw [sizes_values]; exact h1), this.1⟩
  | .onceCellEmpty self, _, _ => fit_self (v := (Datum.onceCellEmpty self).value) rfl (Nat.le_refl _) (by simp) (by simp)
  | .hashTable self T items capacity table, h, hf => by
    obtain ⟨ht, hl, hb, hc, hw⟩ := h
    have h1 := iter_consistent T (datum_fitAll items hw hf.2)
    have h2 := iter_direct_le T (datum_fitAll items hw hf.2) (allOf_sizes ht)
    have h3 := tableBytes_ge (size := T.size) hl
    refine fit_self (v := (Datum.hashTable self T items capacity table).value) rfl (Nat.le_refl _) (by simpa using hf.1) ?_
    simp only [consistent_enterUnique, consistent_enter, rawTable_eq T capacity (by omega), values_length] at *
    exact ⟨by omega, h1⟩
  | .indexSet self T items capacity bucket table, h, hf => by
    have h1 := fields_fit (Key.new (ascii "value")) (datum_fitAll items h.2.2.2.2.2.2.2 hf.2)
    have h2 := rawTable_fit (Datum.values items).length
    have h3 := hf.1
    refine fit_self (v := (Datum.indexSet self T items capacity bucket table).value) rfl (Nat.le_refl _) ?_ ?_
    · simp only [direct_append, direct_enterUnique]; omega
    · simp only [consistent_append, consistent_enterUnique, consistent_simple, h1.1, h2.1, and_self]
  | .indexMap self K V KV keys values capacity bucket table, h, hf => by
    have h1 := map_fit (by simpa using h.2.2.1) (datum_fitAll keys h.2.2.2.2.2.2.2.2.2.2.1 hf.2.1)
      (datum_fitAll values h.2.2.2.2.2.2.2.2.2.2.2 hf.2.2) (Key.new (ascii "key")) (Key.new (ascii "value"))
    have h2 := rawTable_fit ((Datum.values keys).zip (Datum.values values)).length
    have h3 := hf.1
    refine fit_self (v := (Datum.indexMap self K V KV keys values capacity bucket table).value) rfl (Nat.le_refl _) ?_ ?_
    · simp only [direct_append, direct_enterUnique]; omega
    · simp only [consistent_append, consistent_enterUnique, consistent_simple, h1.1, h2.1, and_self]
  | .dashMap self K V KV capacity keys values capacityLater len table, h, hf => by
    obtain ⟨hk, hv, hlen, hkv, hb, hc, hu, hwk, hwv⟩ := h
    obtain ⟨f1, rfl, rfl, f2, f3, f4⟩ := hf
    have h1 := map_fit (by simpa using hlen) (datum_fitAll keys hwk f3) (datum_fitAll values hwv f4) keyName valueName
    rw [sizes_values, sizes_values, sizes_allOf hk, sizes_allOf hv, ← hlen] at h1
    refine fit_self (v := (Datum.dashMap self K V KV capacityLater keys values capacityLater keys.length table).value) rfl (Nat.le_refl _) (by simpa using f1) ?_
    have hs := cap_split (size := KV.size) f2
    have hm : (K.size + V.size) * keys.length ≤ KV.size * keys.length := Nat.mul_le_mul_right _ hkv
    rw [Nat.add_mul] at hm
    have hsat : Usize.saturatingSub capacityLater keys.length = capacityLater - keys.length := by unfold Usize.saturatingSub; split <;> omega
    simp only [consistent_enterUnique, consistent_enter, consistent_append, direct_append, direct_simple, consistent_simple, h1.1, and_self, and_true, h1.2,
      hsat, Usize.mul_eq (a := capacityLater) (b := KV.size) (by omega), Usize.mul_eq hu]
    omega
  | .dashSet self T capacity items capacityLater len table, h, hf => by
    obtain ⟨ht, hb, hc, hu, hw⟩ := h
    obtain ⟨f1, rfl, rfl, f2, f3⟩ := hf
    have h1 := fields_fit dataName (datum_fitAll items hw f3)
    rw [sizes_values, sizes_allOf ht] at h1
    refine fit_self (v := (Datum.dashSet self T capacityLater items capacityLater items.length table).value) rfl (Nat.le_refl _) (by simpa using f1) ?_
    have hs := cap_split (size := T.size) f2
    have hsat : Usize.saturatingSub capacityLater items.length = capacityLater - items.length := by unfold Usize.saturatingSub; split <;> omega
    simp only [consistent_enterUnique, consistent_enter, consistent_append, direct_append, direct_simple, consistent_simple, h1.1, and_self, and_true, h1.2,
      hsat, Usize.mul_eq (a := capacityLater) (b := T.size) (by omega), Usize.mul_eq hu]
    omega
  | .bigInt self digits heap, _, hf => fit_self (v := (Datum.bigInt self digits heap).value) rfl (Nat.le_refl _) (by simpa [Datum.Fits] using hf) (by simp)
  | .bump self allocated chunks heap, _, hf =>
    fit_self (v := (Datum.bump self allocated chunks heap).value) rfl (Nat.le_refl _) (by simpa [Datum.Fits] using hf) (by simp)
  | .jsonMap self table keys values, h, hf => by
    have h1 := map_fit (by simpa using h.1) (datum_fitAll keys h.2.2.1 hf.2.1) (datum_fitAll values h.2.2.2 hf.2.2) (Key.new (ascii "key"))
      (Key.new (ascii "value"))
    exact fit_self (v := (Datum.jsonMap self table keys values).value) rfl (Nat.le_refl _) (by simpa using hf.1) (by simpa using h1.1)
  | .jsonLeaf self, _, _ => fit_self (v := (Datum.jsonLeaf self).value) rfl (Nat.le_refl _) (by simp) (by simp)
  | .json self variant v, h, hf => by
    have := datum_fit v h hf.2
    exact fit_self (v := (Datum.json self variant v).value) rfl (Nat.le_refl _) (by simpa [Datum.size] using hf.1) (by simpa [Value.Fit] using this)
  | .futuresPending self, _, _ => fit_self (v := (Datum.futuresPending self).value) rfl (Nat.le_refl _) (by simp) (by simp)
  | .futuresShared self ptr, _, hf => by
    have hf' : ptrBytes ≤ self.size := hf
    exact fit_self (v := (Datum.futuresShared self ptr).value) rfl (Nat.le_refl _) (by simpa [Obj.direct] using hf') (by simp [Obj.Consistent])
  | .headerSlice self sizeOfVal header tail, h, hf => by
    have h1 := datum_fit header h.1 hf.2.1
    have h2 := datum_fit tail h.2 hf.2.2
    have h3 := hf.1
    exact fit_self (v := (Datum.headerSlice self sizeOfVal header tail).value) rfl (Nat.le_refl _) (by simpa [Datum.size] using h3)
      (by simpa [Value.Fit] using ⟨h1, h2⟩)
  | .headerWithLength self header len, h, hf => by
    have h1 := datum_fit header h.1 hf.2.1
    have h2 := datum_fit len h.2 hf.2.2
    have h3 := hf.1
    exact fit_self (v := (Datum.headerWithLength self header len).value) rfl (Nat.le_refl _) (by simpa [Datum.size] using h3)
      (by simpa [Value.Fit] using ⟨h1, h2⟩)
  | .unit self size _, _, _ => fit_self (v := (Datum.unit self size _).value) rfl (Nat.le_refl _) (by simp) (by simp)
theorem datum_fitAll [Target] : (l : List Datum) → Datum.WFAll l → Datum.FitsAll l → ∀ v ∈ Datum.values l, v.Fit
  | [], _, _ => by simp [Datum.values]
  | d :: l, h, hf => by
    intro x hx
    simp only [Datum.values, List.mem_cons] at hx
    rcases hx with hx | hx
    · rw [hx]; exact datum_fit d h.1 hf.1
    · exact datum_fitAll l h.2 hf.2 x hx
end

end Allocative
