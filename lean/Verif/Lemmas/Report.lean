import Verif.Spec.Report
import Verif.Lemmas.Own
set_option linter.unusedSimpArgs false
/-
The records and pointers of values are those of the specification.
-/
namespace Allocative

/-! ### Records -/

@[simp] theorem own_nil (cur : Path) : Obj.nil.own cur = [] := rfl
@[simp] theorem own_enter (k n e) (o : Obj) (cur : Path) : (Visit.enter k n e o).own cur = inl (cur ++ [k]) n :: o.own (cur ++ [k]) := by
  simp [Visit.enter, Obj.own, inl]
@[simp] theorem own_enterUnique (k n e) (o : Obj) (cur : Path) : (Visit.enterUnique k n e o).own cur = uniq (cur ++ [k]) n :: o.own (cur ++ [k]) := by
  simp [Visit.enterUnique, Obj.own, uniq]
@[simp] theorem own_shared (k n p e) (cur : Path) : (Obj.shared k n p e .nil).own cur = [inl (cur ++ [k]) n] := by
  simp [Obj.own, inl]
@[simp] theorem own_simple (k n) (cur : Path) : (Visit.simple k n).own cur = [inl (cur ++ [k]) n] := by simp [Visit.simple]
@[simp] theorem own_field (k) (v : Value) (cur : Path) : (Visit.field k v).own cur = inl (cur ++ [k]) v.sizeOfVal :: v.visit.own (cur ++ [k]) := by
  simp [Visit.field, Visit.fieldWith]

/-- What is to be shown for a value. -/
def Reported [Target] (d : Datum) : Prop := ∀ cur, d.value.visit.own cur = d.report cur

@[simp] theorem parts_length [Target] (l : List Datum) : (Datum.parts l).length = l.length := by
  induction l with
  | nil => rfl
  | cons d l ih => simp [Datum.parts, ih]

theorem reported_each [Target] {items : List Datum} (h : ∀ d ∈ items, Reported d) (cur : Path) :
    (Visit.each (Datum.values items)).own cur = (Datum.parts items).flatMap fun x => x.report cur := by
  induction items with
  | nil => rfl
  | cons d l ih =>
    have := ih fun x hx => h x (by simp [hx])
    simp only [Visit.each, Datum.values, List.map_cons, Obj.concat, own_append, Datum.parts, List.flatMap_cons] at *
    rw [this, h d (by simp) cur]

theorem reported_elements [Target] {T : Ty} {items : List Datum} (h : ∀ d ∈ items, Reported d) (hb : T.size * items.length < Usize.modulus) (cur : Path) :
    (Visit.iter T (Datum.values items)).own cur = reportElements T (Datum.parts items) cur := by
  unfold Visit.iter reportElements
  by_cases hc : T.needsDrop = true ∧ T.size ≠ 0
  · have : (!T.needsDrop || T.size == 0) = false := by simp [hc.1, hc.2]
    rw [this, if_pos hc]
    exact reported_each h cur
  · have : (!T.needsDrop || T.size == 0) = true := by
      cases hn : T.needsDrop <;> simp [hn] at hc ⊢; exact hc
    rw [this, if_neg hc]
    simp [Usize.mul_eq hb, Ty.key, ty]

theorem reported_field [Target] {d : Datum} (h : Reported d) (k : Key) (cur : Path) :
    (Visit.field k d.value).own cur = reportField k ⟨d.size, d.report⟩ cur := by
  simp [reportField, h (cur ++ [k]), Datum.size]

theorem reported_fields [Target] {items : List Datum} (h : ∀ d ∈ items, Reported d) (k : Key) (cur : Path) :
    (Obj.concat ((Datum.values items).map fun v => Visit.field k v)).own cur = reportFields k (Datum.parts items) cur := by
  induction items with
  | nil => rfl
  | cons d l ih =>
    have := ih fun x hx => h x (by simp [hx])
    simp only [Datum.values, List.map_cons, Obj.concat, own_append, reported_field (h d (by simp)), this]
    rfl

theorem reported_tuple [Target] {items : List Datum} (h : ∀ d ∈ items, Reported d) (i : Nat) (cur : Path) :
    (Obj.concat ((tupleLabels i (Datum.values items)).map fun f => Visit.field (Key.new f.1) f.2)).own cur = reportTuple i (Datum.parts items) cur := by
  induction items generalizing i with
  | nil => rfl
  | cons d l ih =>
    have := ih (fun x hx => h x (by simp [hx])) (i + 1)
    simp only [Datum.values, tupleLabels, List.map_cons, Obj.concat, own_append, reported_field (h d (by simp)), this]
    rfl

theorem reported_pairs [Target] {keys values : List Datum} (h1 : ∀ d ∈ keys, Reported d) (h2 : ∀ d ∈ values, Reported d) (cur : Path) :
    (Obj.concat (((Datum.values keys).zip (Datum.values values)).map fun e =>
      (Visit.field (lbl "key") e.1).append (Visit.field (lbl "value") e.2))).own cur = reportPairs (Datum.parts keys) (Datum.parts values) cur := by
  induction keys generalizing values with
  | nil => cases values <;> simp [Datum.values, Obj.concat, Datum.parts, reportPairs]
  | cons k ks ih =>
    cases values with
    | nil => simp [Datum.values, Obj.concat, Datum.parts, reportPairs]
    | cons v vs =>
      have := ih (values := vs) (fun x hx => h1 x (by simp [hx])) (fun x hx => h2 x (by simp [hx]))
      simp only [Datum.values, List.zip_cons_cons, List.map_cons, Obj.concat, own_append, reported_field (h1 k (by simp)),
        reported_field (h2 v (by simp)), this]
      rfl

theorem reported_derived [Target] {items : List Datum} (h : ∀ d ∈ items, Reported d) (labels : List (Str × Bool)) (cur : Path) :
    (Visit.derivedFields labels (Datum.values items)).own cur = reportDerived labels (Datum.parts items) cur := by
  induction items generalizing labels with
  | nil => cases labels <;> simp [Datum.values, Visit.derivedFields, Datum.parts, reportDerived]
  | cons d l ih =>
    cases labels with
    | nil => simp [Datum.values, Visit.derivedFields, Datum.parts, reportDerived]
    | cons lb ls =>
      obtain ⟨lbl, sk⟩ := lb
      have := ih (fun x hx => h x (by simp [hx])) ls
      simp only [Datum.values, Visit.derivedFields, own_append, this]
      cases sk
      · simp only [Bool.false_eq_true, if_false, reported_field (h d (by simp))]; rfl
      · simp only [if_true, own_nil]; rfl

theorem reported_indices [Target] (len : Nat) (h : tableBytes ptrBytes len < Usize.modulus) (cur : Path) :
    (Impl.addRawTableForLen Impl.usize len).own cur = reportIndices len cur := by
  unfold Impl.addRawTableForLen reportIndices
  by_cases h0 : len = 0
  · simp [h0]
  · have : (len != 0) = true := by simp [h0]
    simp only [this, if_true, if_neg h0, own_enterUnique, own_simple, rawTable_eq Impl.usize len h]
    simp [lbl, Impl.usize]

/-- Unfolds an implementation. -/
macro "impl_simp" "[" ls:Lean.Parser.Tactic.simpLemma,* "]" : tactic =>
  `(tactic| simp [Datum.value, Datum.report, Datum.size, Impl.sized, Visit.enterSelfSized, Visit.enterSelf, Visit.simpleSized, Ty.key, ty, lbl, $ls,*])

mutual
theorem reported [Target] : (d : Datum) → d.WF → Reported d
  | .plain self, _ => fun cur => by impl_simp [Impl.plain]
  | .hollow self owned, _ => fun cur => by impl_simp [Impl.empty]
  | .str self len, _ => fun cur => by impl_simp [Impl.str]
  | .osStr self len, _ => fun cur => by impl_simp [Impl.osStr]
  | .box self ptrSize v, h => fun cur => by impl_simp [Impl.box, ptrName, reported v h _]
  | .ok self v, h => fun cur => by impl_simp [Impl.result, reported v h _]
  | .err self v, h => fun cur => by impl_simp [Impl.result, reported v h _]
  | .none self, _ => fun cur => by impl_simp [Impl.option]
  | .some self v, h => fun cur => by impl_simp [Impl.option, reported v h _]
  | .left self v, h => fun cur => by impl_simp [Impl.either, reported v h _]
  | .right self v, h => fun cur => by impl_simp [Impl.either, reported v h _]
  | .vec self T items capacity, h => fun cur => by
    obtain ⟨ht, hl, hc, hb, hw⟩ := h
    have hle := mul_le_cap (a := T.size) hl
    have hs := cap_split (size := T.size) hl
    have he := reported_elements (T := T) (reportedAll items hw) (by omega)
    by_cases hz : capacity = 0 ∨ T.size = 0
    · have : (capacity != 0 && T.size != 0) = false := by rcases hz with hz | hz <;> simp [hz]
      impl_simp [Impl.vec, this, hz]
    · have : (capacity != 0 && T.size != 0) = true := by simpa using hz
      impl_simp [Impl.vec, this, hz, Visit.slice, he, Usize.sub_eq hl hc, ptrName, unusedCapacityName]
      rw [Usize.mul_eq (by omega)]
  | .vecDeque self T front back capacity, h => fun cur => by
    obtain ⟨ht, ht', hl, hc, hb, hw, hw'⟩ := h
    have hle := mul_le_cap (a := T.size) hl
    have hs := cap_split2 (size := T.size) hl
    have he := reported_elements (T := T) (reportedAll front hw) (by omega)
    have he' := reported_elements (T := T) (reportedAll back hw') (by omega)
    by_cases hz : capacity = 0 ∨ T.size = 0
    · have : (capacity != 0 && T.size != 0) = false := by rcases hz with hz | hz <;> simp [hz]
      impl_simp [Impl.vecDeque, this, hz]
    · have : (capacity != 0 && T.size != 0) = true := by simpa using hz
      impl_simp [Impl.vecDeque, this, hz, Visit.slice, he, he', Usize.sub_eq hl hc, ptrName, unusedCapacityName]
      rw [Usize.mul_eq (by omega)]
  | .string self len capacity, h => fun cur => by
    obtain ⟨hl, hc⟩ := h
    have e1 := Usize.mul_eq (a := 1) (b := capacity) (by omega)
    have e2 := Usize.mul_eq (a := 1) (b := len) (by omega)
    have e3 := Usize.mul_eq (a := 1) (b := capacity - len) (by omega)
    impl_simp [Impl.string, Visit.vecLikeBody, Visit.fieldWith, Visit.slice, Visit.iter, Impl.u8, Usize.sub_eq hl hc, e1, e2, e3, ptrName, capacityName,
      unusedCapacityName]
  | .pathBuf self len capacity, h => fun cur => by
    obtain ⟨hl, hc⟩ := h
    by_cases hz : capacity = 0
    · impl_simp [Impl.pathBuf, hz]
    · impl_simp [Impl.pathBuf, hz, Usize.sub_eq hl hc, ptrName, unusedCapacityName]
  | .compactString self heapAllocated len capacity, h => fun cur => by
    obtain ⟨hl, hc⟩ := h
    cases heapAllocated
    · impl_simp [Impl.compactString]
    · impl_simp [Impl.compactString, Usize.sub_eq hl hc, ptrName, unusedCapacityName]
  | .slice self T items, h => fun cur => by
    have := reported_fields (reportedAll items h.2.2) dataName
    impl_simp [Impl.slice, Impl.sliceVisit, this, Usize.mul_eq h.2.1]
    simp [dataName]
  | .array self T items, h => fun cur => by
    obtain ⟨ht, hs, hb, hw⟩ := h
    have := reported_fields (reportedAll items hw) dataName
    impl_simp [Impl.array, Impl.sliceVisit, this, Usize.mul_eq (a := T.size) (b := items.length) (by omega)]
    simp [dataName]
  | .tuple self fields, h => fun cur => by
    have := reported_tuple (reportedAll fields h) 0
    impl_simp [Impl.tuple, this]
  | .manuallyDrop self v, h => fun cur => by impl_simp [Impl.manuallyDrop, reported v h _]
  | .cell self accessible v, h => fun cur => by
    cases accessible
    · impl_simp [Impl.cell]
    · impl_simp [Impl.cell, reported v h _, dataName]
  | .cellEmpty self, _ => fun cur => by impl_simp [Impl.cell]
  | .onceCell self v, h => fun cur => by impl_simp [Impl.onceCell, reported v h _]
  | .onceCellEmpty self, _ => fun cur => by impl_simp [Impl.onceCell]
  | .map self table keys values, h => fun cur => by
    have := reported_pairs (reportedAll keys h.2.1) (reportedAll values h.2.2)
    simp only [lbl] at this
    impl_simp [Impl.map, Visit.genericMapFields, Visit.fieldWith, keyName, valueName, dataName, this]
  | .set self table items, h => fun cur => by
    have := reported_fields (reportedAll items h) keyName
    impl_simp [Impl.set, Visit.genericSetFields, Visit.fieldWith, this]
    simp [keyName, dataName]
  | .smallVecInline self T items, h => fun cur => by
    have := reported_fields (reportedAll items h.2) dataName
    impl_simp [Impl.smallVec, this]
    simp [dataName]
  | .smallVecSpilled self T items capacity, h => fun cur => by
    have := reported_fields (reportedAll items h.2.2) dataName
    impl_simp [Impl.smallVec, this]
    simp [dataName, ptrName]
  | .slab self T entry items capacity, h => fun cur => by
    obtain ⟨ht, hl, hc, hen, hb, hw⟩ := h
    have hle := mul_le_cap (a := T.size) hl
    have hs := cap_split (size := T.size) hl
    have hce : capacity * T.size ≤ capacity * entry := Nat.mul_le_mul_left _ hen
    have he := reported_elements (T := T) (reportedAll items hw) (by omega)
    by_cases hz : capacity = 0 ∨ T.size = 0
    · have : (capacity != 0 && T.size != 0) = false := by rcases hz with hz | hz <;> simp [hz]
      impl_simp [Impl.slab, this, hz]
    · have : (capacity != 0 && T.size != 0) = true := by simpa using hz
      impl_simp [Impl.slab, this, hz, he, Usize.sub_eq hl hc, ptrName, unusedCapacityName]
      rw [Usize.mul_eq (by omega)]
  | .arc self ptrSize ptr, _ => fun cur => by impl_simp [Impl.arc, ptrName]
  | .weakDangling self, _ => fun cur => by impl_simp [Impl.weak]
  | .weak self strong ptrSize ptr, _ => fun cur => by impl_simp [Impl.weak, Impl.arc, ptrName]
  | .hashTable self T items capacity table, h => fun cur => by
    obtain ⟨ht, hl, hb, hc, hw⟩ := h
    have h3 := tableBytes_ge (size := T.size) hl
    have he := reported_elements (T := T) (reportedAll items hw) (by omega)
    impl_simp [Impl.hashTable, he, rawTable_eq T capacity (by omega), dataName, capacityName]
  | .indexSet self T items capacity bucket table, h => fun cur => by
    obtain ⟨ht, hl, hc, hen, hb, htb, htc, hw⟩ := h
    have hs := cap_split (size := T.size) hl
    have hce : capacity * T.size ≤ capacity * bucket := Nat.mul_le_mul_left _ hen
    have := reported_fields (reportedAll items hw) (Key.new (ascii "value"))
    have hi := reported_indices items.length (by omega)
    impl_simp [Impl.indexSet, this, hi, unusedCapacityName, Usize.sub_eq hl hc]
    rw [Usize.mul_eq (by omega)]
  | .indexMap self K V KV keys values capacity bucket table, h => fun cur => by
    obtain ⟨hk, hv, hlen, hl, hc, hkv, hen, hb, htb, htc, hwk, hwv⟩ := h
    have hs := cap_split (size := KV.size) hl
    have hce : capacity * KV.size ≤ capacity * bucket := Nat.mul_le_mul_left _ hen
    have := reported_pairs (reportedAll keys hwk) (reportedAll values hwv)
    simp only [lbl] at this
    have hi := reported_indices keys.length (by omega)
    have hz : min keys.length values.length = keys.length := by omega
    impl_simp [Impl.indexMap, this, hz, hi, unusedCapacityName, Usize.sub_eq hl hc]
    rw [Usize.mul_eq (by omega)]
  | .dashMap self K V KV capacity keys values capacityLater len table, h => fun cur => by
    obtain ⟨hk, hv, hlen, hkv, hb, hc, hu, hwk, hwv⟩ := h
    have := reported_pairs (reportedAll keys hwk) (reportedAll values hwv)
    simp only [lbl] at this
    have hsat : Usize.saturatingSub capacityLater len = capacityLater - len := by unfold Usize.saturatingSub; split <;> omega
    impl_simp [Impl.dashMap, keyName, valueName, this, hsat, Usize.mul_eq hu, Usize.mul_eq (a := capacity) (b := KV.size) (by omega), ptrName, capacityName,
      unusedCapacityName]
  | .dashSet self T capacity items capacityLater len table, h => fun cur => by
    obtain ⟨ht, hb, hc, hu, hw⟩ := h
    have := reported_fields (reportedAll items hw) dataName
    have hsat : Usize.saturatingSub capacityLater len = capacityLater - len := by unfold Usize.saturatingSub; split <;> omega
    impl_simp [Impl.dashSet, this, hsat, Usize.mul_eq hu, Usize.mul_eq (a := capacity) (b := T.size) (by omega), ptrName, capacityName, unusedCapacityName]
    simp [dataName]
  | .bigInt self digits heap, h => fun cur => by
    impl_simp [Impl.bigInt, Usize.mul_eq (a := digits) (b := 8) (Nat.lt_of_le_of_lt h.1 h.2), ptrName, dataName]
  | .bump self allocated chunks heap, h => fun cur => by
    obtain ⟨h1, h2, h3⟩ := h
    have hf := foldl_add (chunks := chunks) (a := 0) (by omega)
    rw [Nat.zero_add] at hf
    impl_simp [Impl.bump, hf, Usize.sub_eq h1 (by omega), ptrName, dataName, unusedCapacityName]
  | .jsonMap self table keys values, h => fun cur => by
    have := reported_pairs (reportedAll keys h.2.2.1) (reportedAll values h.2.2.2)
    simp only [lbl] at this
    impl_simp [Impl.jsonMap, this]
  | .jsonLeaf self, _ => fun cur => by impl_simp [Impl.jsonValue]
  | .json self variant v, h => fun cur => by impl_simp [Impl.jsonValue, reported v h _]
  | .futuresPending self, _ => fun cur => by impl_simp [Impl.futuresShared]
  | .futuresShared self ptr, _ => fun cur => by impl_simp [Impl.futuresShared, ptrName]
  | .headerSlice self sizeOfVal header tail, h => fun cur => by impl_simp [Impl.headerSlice, reported header h.1 _, reported tail h.2 _]
  | .headerWithLength self header len, h => fun cur => by impl_simp [Impl.headerWithLength, reported header h.1 _, reported len h.2 _]
  | .struct self size labels fields, h => fun cur => by
    have := reported_derived (reportedAll fields h.2) labels
    impl_simp [this]
  | .enum self variant labels fields, h => fun cur => by
    have := reported_derived (reportedAll fields h.2) labels
    impl_simp [this]
  | .unit self size owned, _ => fun cur => by impl_simp []
theorem reportedAll [Target] : (l : List Datum) → Datum.WFAll l → ∀ d ∈ l, Reported d
  | [], _ => by simp
  | d :: l, h => by
    intro x hx
    rcases List.mem_cons.1 hx with hx | hx
    · rw [hx]; exact reported d h.1
    · exact reportedAll l h.2 x hx
end

/-! ### Pointers -/

@[simp] theorem ptrs_append (a b : Obj) : (a.append b).ptrs = a.ptrs ++ b.ptrs := by
  induction a with
  | nil => simp [Obj.append, Obj.ptrs]
  | inline k n e i r _ ih => simp [Obj.append, Obj.ptrs, ih]
  | unique k n e i r _ ih => simp [Obj.append, Obj.ptrs, ih]
  | shared k n p e r ih => simp [Obj.append, Obj.ptrs, ih]
@[simp] theorem ptrs_nil : Obj.nil.ptrs = [] := rfl
@[simp] theorem ptrs_enter (k n e) (o : Obj) : (Visit.enter k n e o).ptrs = o.ptrs := by simp [Visit.enter, Obj.ptrs]
@[simp] theorem ptrs_enterUnique (k n e) (o : Obj) : (Visit.enterUnique k n e o).ptrs = o.ptrs := by simp [Visit.enterUnique, Obj.ptrs]
@[simp] theorem ptrs_shared (k n p e) : (Obj.shared k n p e .nil).ptrs = [p] := by simp [Obj.ptrs]
@[simp] theorem ptrs_simple (k n) : (Visit.simple k n).ptrs = [] := by simp [Visit.simple]
@[simp] theorem ptrs_field (k) (v : Value) : (Visit.field k v).ptrs = v.visit.ptrs := by simp [Visit.field, Visit.fieldWith]
@[simp] theorem ptrs_rawTable [Target] (T : Ty) (n : Nat) : (Impl.addRawTableForLen T n).ptrs = [] := by
  unfold Impl.addRawTableForLen; split <;> simp

/-- What is to be shown for a value. -/
def Pointed [Target] (d : Datum) : Prop := d.value.visit.ptrs = d.pointers

theorem pointed_each [Target] {items : List Datum} (h : ∀ d ∈ items, Pointed d) : (Visit.each (Datum.values items)).ptrs = (Datum.pointersEach items).flatten := by
  induction items with
  | nil => rfl
  | cons d l ih =>
    have := ih fun x hx => h x (by simp [hx])
    simp only [Visit.each, Datum.values, List.map_cons, Obj.concat, ptrs_append, Datum.pointersEach, List.flatten_cons] at *
    rw [this, h d (by simp)]

theorem pointed_elements [Target] {items : List Datum} (h : ∀ d ∈ items, Pointed d) (T : Ty) :
    (Visit.iter T (Datum.values items)).ptrs = pointersElements T (Datum.pointersEach items) := by
  unfold Visit.iter pointersElements
  by_cases hc : T.needsDrop = true ∧ T.size ≠ 0
  · have : (!T.needsDrop || T.size == 0) = false := by simp [hc.1, hc.2]
    rw [this, if_pos hc]
    exact pointed_each h
  · have : (!T.needsDrop || T.size == 0) = true := by
      cases hn : T.needsDrop <;> simp [hn] at hc ⊢; exact hc
    rw [this, if_neg hc]
    simp

theorem pointed_fields [Target] {items : List Datum} (h : ∀ d ∈ items, Pointed d) (k : Key) :
    (Obj.concat ((Datum.values items).map fun v => Visit.field k v)).ptrs = (Datum.pointersEach items).flatten := by
  induction items with
  | nil => rfl
  | cons d l ih =>
    have := ih fun x hx => h x (by simp [hx])
    simp only [Datum.values, List.map_cons, Obj.concat, ptrs_append, ptrs_field, this, h d (by simp), Datum.pointersEach, List.flatten_cons]
    rw [h d (by simp)]

theorem pointed_tuple [Target] {items : List Datum} (h : ∀ d ∈ items, Pointed d) (i : Nat) :
    (Obj.concat ((tupleLabels i (Datum.values items)).map fun f => Visit.field (Key.new f.1) f.2)).ptrs = (Datum.pointersEach items).flatten := by
  induction items generalizing i with
  | nil => rfl
  | cons d l ih =>
    have := ih (fun x hx => h x (by simp [hx])) (i + 1)
    simp only [Datum.values, tupleLabels, List.map_cons, Obj.concat, ptrs_append, ptrs_field, this, Datum.pointersEach, List.flatten_cons]
    rw [h d (by simp)]

theorem pointed_pairs [Target] {keys values : List Datum} (h1 : ∀ d ∈ keys, Pointed d) (h2 : ∀ d ∈ values, Pointed d) (a b : Key) :
    (Obj.concat (((Datum.values keys).zip (Datum.values values)).map fun e => (Visit.field a e.1).append (Visit.field b e.2))).ptrs =
      pointersPairs (Datum.pointersEach keys) (Datum.pointersEach values) := by
  induction keys generalizing values with
  | nil => cases values <;> simp [Datum.values, Obj.concat, Datum.pointersEach, pointersPairs]
  | cons k ks ih =>
    cases values with
    | nil => simp [Datum.values, Obj.concat, Datum.pointersEach, pointersPairs]
    | cons v vs =>
      have := ih (values := vs) (fun x hx => h1 x (by simp [hx])) (fun x hx => h2 x (by simp [hx]))
      simp only [Datum.values, List.zip_cons_cons, List.map_cons, Obj.concat, ptrs_append, ptrs_field, this]
      rw [h1 k (by simp), h2 v (by simp)]
      simp [Datum.pointersEach, pointersPairs]

theorem pointed_derived [Target] {items : List Datum} (h : ∀ d ∈ items, Pointed d) (labels : List (Str × Bool)) :
    (Visit.derivedFields labels (Datum.values items)).ptrs = pointersDerived labels (Datum.pointersEach items) := by
  induction items generalizing labels with
  | nil => cases labels <;> simp [Datum.values, Visit.derivedFields, Datum.pointersEach, pointersDerived]
  | cons d l ih =>
    cases labels with
    | nil => simp [Datum.values, Visit.derivedFields, Datum.pointersEach, pointersDerived]
    | cons lb ls =>
      obtain ⟨lbl, sk⟩ := lb
      have := ih (fun x hx => h x (by simp [hx])) ls
      simp only [Datum.values, Visit.derivedFields, ptrs_append, this]
      cases sk
      · simp only [Bool.false_eq_true, if_false, ptrs_field]; rw [h d (by simp)]; simp [Datum.pointersEach, pointersDerived]
      · simp [Datum.pointersEach, pointersDerived]

theorem pointersEach_elements_nil (T : Ty) (l : List Datum) (h : T.size = 0 ∨ l = []) : pointersElements T (Datum.pointersEach l) = [] := by
  unfold pointersElements
  split
  · rename_i hc
    rcases h with h | h
    · exact absurd h hc.2
    · subst h; rfl
  · rfl

/-- Unfolds an implementation. -/
macro "ptrs_simp" "[" ls:Lean.Parser.Tactic.simpLemma,* "]" : tactic =>
  `(tactic| simp [Pointed, Datum.value, Datum.pointers, Impl.sized, Visit.enterSelfSized, Visit.enterSelf, Visit.simpleSized, $ls,*])

mutual
theorem pointed [Target] : (d : Datum) → d.WF → Pointed d
  | .plain self, _ => by ptrs_simp [Impl.plain]
  | .hollow self owned, _ => by ptrs_simp [Impl.empty]
  | .str self len, _ => by ptrs_simp [Impl.str]
  | .osStr self len, _ => by ptrs_simp [Impl.osStr]
  | .box self ptrSize v, h => by ptrs_simp [Impl.box]; exact pointed v h
  | .ok self v, h => by ptrs_simp [Impl.result]; exact pointed v h
  | .err self v, h => by ptrs_simp [Impl.result]; exact pointed v h
  | .none self, _ => by ptrs_simp [Impl.option]
  | .some self v, h => by ptrs_simp [Impl.option]; exact pointed v h
  | .left self v, h => by ptrs_simp [Impl.either]; exact pointed v h
  | .right self v, h => by ptrs_simp [Impl.either]; exact pointed v h
  | .vec self T items capacity, h => by
    obtain ⟨ht, hl, hc, hb, hw⟩ := h
    have he := pointed_elements (pointedAll items hw) T
    by_cases hz : (capacity != 0 && T.size != 0) = true
    · ptrs_simp [Impl.vec, hz, Visit.slice, he]
    · have hz' : T.size = 0 ∨ items = [] := by
        by_cases h0 : T.size = 0
        · exact .inl h0
        · have h0' : capacity = 0 := by simpa [h0] using hz
          exact .inr (List.length_eq_zero_iff.1 (by omega))
      ptrs_simp [Impl.vec, hz, pointersEach_elements_nil T items hz']
  | .vecDeque self T front back capacity, h => by
    obtain ⟨ht, ht', hl, hc, hb, hw, hw'⟩ := h
    have he := pointed_elements (pointedAll front hw) T
    have he' := pointed_elements (pointedAll back hw') T
    by_cases hz : (capacity != 0 && T.size != 0) = true
    · ptrs_simp [Impl.vecDeque, hz, Visit.slice, he, he']
    · have hz' : (T.size = 0 ∨ front = []) ∧ (T.size = 0 ∨ back = []) := by
        by_cases h0 : T.size = 0
        · exact ⟨.inl h0, .inl h0⟩
        · have h0' : capacity = 0 := by simpa [h0] using hz
          exact ⟨.inr (List.length_eq_zero_iff.1 (by omega)), .inr (List.length_eq_zero_iff.1 (by omega))⟩
      ptrs_simp [Impl.vecDeque, hz, pointersEach_elements_nil T front hz'.1, pointersEach_elements_nil T back hz'.2]
  | .string self len capacity, _ => by ptrs_simp [Impl.string, Visit.vecLikeBody, Visit.fieldWith, Visit.slice, Visit.iter, Impl.u8]
  | .pathBuf self len capacity, _ => by
    by_cases hz : capacity = 0 <;> ptrs_simp [Impl.pathBuf, hz]
  | .compactString self heapAllocated len capacity, _ => by cases heapAllocated <;> ptrs_simp [Impl.compactString]
  | .slice self T items, h => by ptrs_simp [Impl.slice, Impl.sliceVisit, pointed_fields (pointedAll items h.2.2)]
  | .array self T items, h => by ptrs_simp [Impl.array, Impl.sliceVisit, pointed_fields (pointedAll items h.2.2.2)]
  | .tuple self fields, h => by ptrs_simp [Impl.tuple, pointed_tuple (pointedAll fields h)]
  | .manuallyDrop self v, h => by ptrs_simp [Impl.manuallyDrop]; exact pointed v h
  | .cell self accessible v, h => by
    cases accessible
    · ptrs_simp [Impl.cell]
    · ptrs_simp [Impl.cell]; exact pointed v h
  | .cellEmpty self, _ => by ptrs_simp [Impl.cell]
  | .onceCell self v, h => by ptrs_simp [Impl.onceCell]; exact pointed v h
  | .onceCellEmpty self, _ => by ptrs_simp [Impl.onceCell]
  | .map self table keys values, h => by
    ptrs_simp [Impl.map, Visit.genericMapFields, Visit.fieldWith, pointed_pairs (pointedAll keys h.2.1) (pointedAll values h.2.2)]
  | .set self table items, h => by ptrs_simp [Impl.set, Visit.genericSetFields, Visit.fieldWith, pointed_fields (pointedAll items h)]
  | .smallVecInline self T items, h => by ptrs_simp [Impl.smallVec, pointed_fields (pointedAll items h.2)]
  | .smallVecSpilled self T items capacity, h => by ptrs_simp [Impl.smallVec, pointed_fields (pointedAll items h.2.2)]
  | .slab self T entry items capacity, h => by
    obtain ⟨ht, hl, hc, hen, hb, hw⟩ := h
    have he := pointed_elements (pointedAll items hw) T
    by_cases hz : (capacity != 0 && T.size != 0) = true
    · ptrs_simp [Impl.slab, hz, Visit.slice, he]
    · have hz' : T.size = 0 ∨ items = [] := by
        by_cases h0 : T.size = 0
        · exact .inl h0
        · have h0' : capacity = 0 := by simpa [h0] using hz
          exact .inr (List.length_eq_zero_iff.1 (by omega))
      ptrs_simp [Impl.slab, hz, pointersEach_elements_nil T items hz']
  | .arc self ptrSize ptr, _ => by ptrs_simp [Impl.arc]
  | .weakDangling self, _ => by ptrs_simp [Impl.weak]
  | .weak self strong ptrSize ptr, _ => by ptrs_simp [Impl.weak, Impl.arc]
  | .hashTable self T items capacity table, h => by ptrs_simp [Impl.hashTable, pointed_elements (pointedAll items h.2.2.2.2) T]
  | .indexSet self T items capacity bucket table, h => by ptrs_simp [Impl.indexSet, pointed_fields (pointedAll items h.2.2.2.2.2.2.2)]
  | .indexMap self K V KV keys values capacity bucket table, h => by
    ptrs_simp [Impl.indexMap, pointed_pairs (pointedAll keys h.2.2.2.2.2.2.2.2.2.2.1) (pointedAll values h.2.2.2.2.2.2.2.2.2.2.2)]
  | .dashMap self K V KV capacity keys values capacityLater len table, h => by
    ptrs_simp [Impl.dashMap, pointed_pairs (pointedAll keys h.2.2.2.2.2.2.2.1) (pointedAll values h.2.2.2.2.2.2.2.2)]
  | .dashSet self T capacity items capacityLater len table, h => by ptrs_simp [Impl.dashSet, pointed_fields (pointedAll items h.2.2.2.2)]
  | .bigInt self digits heap, _ => by ptrs_simp [Impl.bigInt]
  | .bump self allocated chunks heap, _ => by ptrs_simp [Impl.bump]
  | .jsonMap self table keys values, h => by ptrs_simp [Impl.jsonMap, pointed_pairs (pointedAll keys h.2.2.1) (pointedAll values h.2.2.2)]
  | .jsonLeaf self, _ => by ptrs_simp [Impl.jsonValue]
  | .json self variant v, h => by ptrs_simp [Impl.jsonValue]; exact pointed v h
  | .futuresPending self, _ => by ptrs_simp [Impl.futuresShared]
  | .futuresShared self ptr, _ => by ptrs_simp [Impl.futuresShared]
  | .headerSlice self sizeOfVal header tail, h => by
    have h1 : header.value.visit.ptrs = _ := pointed header h.1
    have h2 : tail.value.visit.ptrs = _ := pointed tail h.2
    ptrs_simp [Impl.headerSlice, h1, h2]
  | .headerWithLength self header len, h => by
    have h1 : header.value.visit.ptrs = _ := pointed header h.1
    have h2 : len.value.visit.ptrs = _ := pointed len h.2
    ptrs_simp [Impl.headerWithLength, h1, h2]
  | .struct self size labels fields, h => by ptrs_simp [pointed_derived (pointedAll fields h.2) labels]
  | .enum self variant labels fields, h => by ptrs_simp [pointed_derived (pointedAll fields h.2) labels]
  | .unit self size owned, _ => by ptrs_simp []
theorem pointedAll [Target] : (l : List Datum) → Datum.WFAll l → ∀ d ∈ l, Pointed d
  | [], _ => by simp
  | d :: l, h => by
    intro x hx
    rcases List.mem_cons.1 hx with hx | hx
    · rw [hx]; exact pointed d h.1
    · exact pointedAll l h.2 x hx
end

theorem cell_report [Target] (c : Cell) (h : c.datum.WF) : c.visit.own [] = c.report := by
  cases c with
  | arc size v => simp [Cell.visit, Impl.arcInner, Cell.report, reported v h _, lbl]
  | rc size v => simp [Cell.visit, Impl.rcInner, Cell.report, reported v h _, lbl]
  | triomphe size v =>
    simp [Cell.visit, Impl.triompheInner, Cell.report, reported v h _, lbl, dataName, Ty.key, Impl.arcInnerRepr, Datum.size]
  | thin repr size v => simp [Cell.visit, Impl.thinArcInner, Cell.report, reported v h _, lbl, dataName, Ty.key, ty, Datum.size]
  | future v => simp [Cell.visit, Cell.report, reported v h _]

theorem cell_pointers [Target] (c : Cell) (h : c.datum.WF) : c.visit.ptrs = c.datum.pointers := by
  cases c with
  | arc size v => simp only [Cell.visit, Impl.arcInner, ptrs_enter]; exact pointed v h
  | rc size v => simp only [Cell.visit, Impl.rcInner, ptrs_enter]; exact pointed v h
  | triomphe size v => simp only [Cell.visit, Impl.triompheInner, ptrs_enter, ptrs_field]; exact pointed v h
  | thin repr size v => simp only [Cell.visit, Impl.thinArcInner, ptrs_enter, ptrs_field]; exact pointed v h
  | future v => exact pointed v h

theorem reachable_iff [Target] {cells : Ptr → Cell} {roots : List Datum} (hr : ∀ d ∈ roots, d.WF) (hc : ∀ p, ReachableCell cells roots p → (cells p).datum.WF)
    (p : Ptr) : Reachable (fun p => (cells p).visit) (roots.map fun d => d.value.visit) p ↔ ReachableCell cells roots p := by
  constructor
  · intro h
    induction h with
    | root ho hp =>
      obtain ⟨d, hd, rfl⟩ := List.mem_map.1 ho
      exact .root hd (by rwa [← pointed d (hr d hd)])
    | step _ hp ih => exact .step ih (by rwa [← cell_pointers _ (hc _ ih)])
  · intro h
    induction h with
    | root hd hp => exact .root (List.mem_map.2 ⟨_, hd, rfl⟩) (by rw [pointed _ (hr _ hd)]; exact hp)
    | step hq hp ih => exact .step ih (by rw [cell_pointers _ (hc _ hq)]; exact hp)

/-! ### Keys -/

@[simp] theorem proper_new (s : Str) : (Key.new s).Proper := rfl
@[simp] theorem proper_forTypeName (s : Str) : (Key.forTypeName s).Proper := rfl
@[simp] theorem keysAre_append {Q : Key → Prop} (a b : Obj) : (a.append b).KeysAre Q ↔ a.KeysAre Q ∧ b.KeysAre Q := by
  induction a with
  | nil => simp [Obj.append, Obj.KeysAre]
  | inline k n e i r _ ih => simp [Obj.append, Obj.KeysAre, ih, and_assoc]
  | unique k n e i r _ ih => simp [Obj.append, Obj.KeysAre, ih, and_assoc]
  | shared k n p e r ih => simp [Obj.append, Obj.KeysAre, ih, and_assoc]
@[simp] theorem keysAre_nil {Q : Key → Prop} : Obj.nil.KeysAre Q := trivial
@[simp] theorem keysAre_enter {Q : Key → Prop} (k n e) (o : Obj) : (Visit.enter k n e o).KeysAre Q ↔ Q k ∧ o.KeysAre Q := by simp [Visit.enter, Obj.KeysAre]
@[simp] theorem keysAre_enterUnique {Q : Key → Prop} (k n e) (o : Obj) : (Visit.enterUnique k n e o).KeysAre Q ↔ Q k ∧ o.KeysAre Q := by
  simp [Visit.enterUnique, Obj.KeysAre]
@[simp] theorem keysAre_shared {Q : Key → Prop} (k n p e) : (Obj.shared k n p e .nil).KeysAre Q ↔ Q k := by simp [Obj.KeysAre]
@[simp] theorem keysAre_simple {Q : Key → Prop} (k n) : (Visit.simple k n).KeysAre Q ↔ Q k := by simp [Visit.simple]
@[simp] theorem keysAre_field {Q : Key → Prop} (k) (v : Value) : (Visit.field k v).KeysAre Q ↔ Q k ∧ v.visit.KeysAre Q := by
  simp [Visit.field, Visit.fieldWith]
@[simp] theorem proper_rawTable [Target] (T : Ty) (n : Nat) : (Impl.addRawTableForLen T n).KeysAre Key.Proper := by
  unfold Impl.addRawTableForLen; split <;> simp

theorem proper_concat {l : List Obj} (h : ∀ o ∈ l, o.KeysAre Key.Proper) : (Obj.concat l).KeysAre Key.Proper := by
  induction l with
  | nil => trivial
  | cons o l ih => simp only [Obj.concat, keysAre_append]; exact ⟨h o (by simp), ih fun x hx => h x (by simp [hx])⟩

/-- All keys of the values are proper. -/
def Proper (l : List Value) : Prop := ∀ v ∈ l, v.visit.KeysAre Key.Proper

theorem proper_iter [Target] {l : List Value} (h : Proper l) (T : Ty) : (Visit.iter T l).KeysAre Key.Proper := by
  unfold Visit.iter
  split
  · simp [Ty.key]
  · apply proper_concat
    intro o ho
    obtain ⟨v, hv, rfl⟩ := List.mem_map.1 ho
    exact h v hv

theorem proper_fields {l : List Value} (h : Proper l) {k : Key} (hk : k.Proper) :
    (Obj.concat (l.map fun v => Visit.field k v)).KeysAre Key.Proper := by
  apply proper_concat
  intro o ho
  obtain ⟨v, hv, rfl⟩ := List.mem_map.1 ho
  simp [hk, h v hv]

theorem proper_tuple {l : List Value} (h : Proper l) (i : Nat) :
    (Obj.concat ((tupleLabels i l).map fun f => Visit.field (Key.new f.1) f.2)).KeysAre Key.Proper := by
  induction l generalizing i with
  | nil => trivial
  | cons v l ih =>
    simp only [tupleLabels, List.map_cons, Obj.concat, keysAre_append, keysAre_field, proper_new, true_and]
    exact ⟨h v (by simp), ih (fun x hx => h x (by simp [hx])) _⟩

theorem proper_pairs {ks vs : List Value} (h1 : Proper ks) (h2 : Proper vs) {a b : Key} (ha : a.Proper) (hb : b.Proper) :
    (Obj.concat ((ks.zip vs).map fun e => (Visit.field a e.1).append (Visit.field b e.2))).KeysAre Key.Proper := by
  apply proper_concat
  intro o ho
  obtain ⟨e, he, rfl⟩ := List.mem_map.1 ho
  simp [ha, hb, h1 _ (List.of_mem_zip he).1, h2 _ (List.of_mem_zip he).2]

theorem proper_derived {l : List Value} (h : Proper l) (labels : List (Str × Bool)) : (Visit.derivedFields labels l).KeysAre Key.Proper := by
  induction l generalizing labels with
  | nil => cases labels <;> trivial
  | cons v l ih =>
    cases labels with
    | nil => trivial
    | cons lb ls =>
      obtain ⟨lb, sk⟩ := lb
      have := ih (fun x hx => h x (by simp [hx])) ls
      simp only [Visit.derivedFields, keysAre_append]
      cases sk
      · simp [h v (by simp), this]
      · simp [this]

@[simp] theorem proper_ptr : ptrName.Proper := rfl
@[simp] theorem proper_data : dataName.Proper := rfl
@[simp] theorem proper_key : keyName.Proper := rfl
@[simp] theorem proper_value : valueName.Proper := rfl
@[simp] theorem proper_capacity : capacityName.Proper := rfl
@[simp] theorem proper_unused : unusedCapacityName.Proper := rfl

/-- Unfolds an implementation. -/
macro "keys_simp" "[" ls:Lean.Parser.Tactic.simpLemma,* "]" : tactic =>
  `(tactic| simp [Datum.value, Impl.sized, Visit.enterSelfSized, Visit.enterSelf, Visit.simpleSized, Ty.key, $ls,*])

mutual
theorem proper [Target] : (d : Datum) → d.value.visit.KeysAre Key.Proper
  | .plain self => by keys_simp [Impl.plain]
  | .hollow self owned => by keys_simp [Impl.empty]
  | .str self len => by keys_simp [Impl.str]
  | .osStr self len => by keys_simp [Impl.osStr]
  | .box self ptrSize v => by keys_simp [Impl.box, proper v]
  | .ok self v => by keys_simp [Impl.result, proper v]
  | .err self v => by keys_simp [Impl.result, proper v]
  | .none self => by keys_simp [Impl.option]
  | .some self v => by keys_simp [Impl.option, proper v]
  | .left self v => by keys_simp [Impl.either, proper v]
  | .right self v => by keys_simp [Impl.either, proper v]
  | .vec self T items capacity => by
    keys_simp [Impl.vec]
    split <;> simp [Visit.slice, proper_iter (properAll items) T]
  | .vecDeque self T front back capacity => by
    keys_simp [Impl.vecDeque]
    split <;> simp [Visit.slice, proper_iter (properAll front) T, proper_iter (properAll back) T]
  | .string self len capacity => by keys_simp [Impl.string, Visit.vecLikeBody, Visit.fieldWith, Visit.slice, Visit.iter, Impl.u8]
  | .pathBuf self len capacity => by
    keys_simp [Impl.pathBuf]
    split <;> simp
  | .compactString self heapAllocated len capacity => by cases heapAllocated <;> keys_simp [Impl.compactString]
  | .slice self T items => by keys_simp [Impl.slice, Impl.sliceVisit, proper_fields (properAll items)]
  | .array self T items => by keys_simp [Impl.array, Impl.sliceVisit, proper_fields (properAll items)]
  | .tuple self fields => by keys_simp [Impl.tuple, proper_tuple (properAll fields)]
  | .manuallyDrop self v => by keys_simp [Impl.manuallyDrop, proper v]
  | .cell self accessible v => by cases accessible <;> keys_simp [Impl.cell, proper v]
  | .cellEmpty self => by keys_simp [Impl.cell]
  | .onceCell self v => by keys_simp [Impl.onceCell, proper v]
  | .onceCellEmpty self => by keys_simp [Impl.onceCell]
  | .map self table keys values => by
    keys_simp [Impl.map, Visit.genericMapFields, Visit.fieldWith, proper_pairs (properAll keys) (properAll values)]
  | .set self table items => by keys_simp [Impl.set, Visit.genericSetFields, Visit.fieldWith, proper_fields (properAll items)]
  | .smallVecInline self T items => by keys_simp [Impl.smallVec, proper_fields (properAll items)]
  | .smallVecSpilled self T items capacity => by keys_simp [Impl.smallVec, proper_fields (properAll items)]
  | .slab self T entry items capacity => by
    keys_simp [Impl.slab]
    split <;> simp [Visit.slice, proper_iter (properAll items) T]
  | .arc self ptrSize ptr => by keys_simp [Impl.arc]
  | .weakDangling self => by keys_simp [Impl.weak]
  | .weak self strong ptrSize ptr => by keys_simp [Impl.weak, Impl.arc]
  | .hashTable self T items capacity table => by keys_simp [Impl.hashTable, proper_iter (properAll items) T]
  | .indexSet self T items capacity bucket table => by keys_simp [Impl.indexSet, proper_fields (properAll items)]
  | .indexMap self K V KV keys values capacity bucket table => by keys_simp [Impl.indexMap, proper_pairs (properAll keys) (properAll values)]
  | .dashMap self K V KV capacity keys values capacityLater len table => by
    keys_simp [Impl.dashMap, proper_pairs (properAll keys) (properAll values)]
  | .dashSet self T capacity items capacityLater len table => by keys_simp [Impl.dashSet, proper_fields (properAll items)]
  | .bigInt self digits heap => by keys_simp [Impl.bigInt]
  | .bump self allocated chunks heap => by keys_simp [Impl.bump]
  | .jsonMap self table keys values => by keys_simp [Impl.jsonMap, proper_pairs (properAll keys) (properAll values)]
  | .jsonLeaf self => by keys_simp [Impl.jsonValue]
  | .json self variant v => by keys_simp [Impl.jsonValue, proper v]
  | .futuresPending self => by keys_simp [Impl.futuresShared]
  | .futuresShared self ptr => by keys_simp [Impl.futuresShared]
  | .headerSlice self sizeOfVal header tail => by keys_simp [Impl.headerSlice, proper header, proper tail]
  | .headerWithLength self header len => by keys_simp [Impl.headerWithLength, proper header, proper len]
  | .struct self size labels fields => by keys_simp [proper_derived (properAll fields) labels]
  | .enum self variant labels fields => by keys_simp [proper_derived (properAll fields) labels]
  | .unit self size owned => by keys_simp []
theorem properAll [Target] : (l : List Datum) → Proper (Datum.values l)
  | [] => by simp [Proper, Datum.values]
  | d :: l => by
    intro x hx
    rcases List.mem_cons.1 hx with hx | hx
    · rw [hx]; exact proper d
    · exact properAll l x hx
end

theorem cell_proper [Target] (c : Cell) : c.visit.KeysAre Key.Proper := by
  cases c with
  | arc size v => simp [Cell.visit, Impl.arcInner, proper v]
  | rc size v => simp [Cell.visit, Impl.rcInner, proper v]
  | triomphe size v => simp [Cell.visit, Impl.triompheInner, proper v, Ty.key]
  | thin repr size v => simp [Cell.visit, Impl.thinArcInner, proper v, Ty.key]
  | future v => exact proper v

end Allocative
