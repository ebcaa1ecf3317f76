import Verif.Lemmas.Own
import Verif.Props.Totals
import Verif.Props.Objects
import Verif.Props.Derive
set_option linter.unusedSimpArgs false
/-
C32, C33, C34, C39, C48, C49: visits of Rust values built from the supported types.
`content` is what the visit of a shared pointee does; `size_of_unique_allocated_data` never gets there.
-/
namespace Allocative

/-- C32/C33/C49, general form: for every value, bytes reported plus bytes missed (`Datum.missed` lists the reasons) are the bytes of heap
memory the value owns. -/
theorem C32_accounting [Target] (d : Datum) (h : d.WF) (content : Ptr → Prog) :
    ∃ n, SizeOf.sizeOfUniqueAllocatedData (d.value.visit.visitWith content) = .ok (some n) ∧ n + d.missed = d.heapBytes := by
  refine ⟨_, sizeOf_heap content _, ?_⟩
  simpa using accounted d h false

/-- C32. For values in which none of the listed exceptions occurs the report is exact. -/
theorem C32_exact [Target] (d : Datum) (h : d.WF) (hs : d.Standard) (content : Ptr → Prog) :
    SizeOf.sizeOfUniqueAllocatedData (d.value.visit.visitWith content) = .ok (some d.heapBytes) := by
  obtain ⟨n, e, hn⟩ := C32_accounting d h content
  rw [e, ← hn, standard_missed d hs]; rfl

/-- C49. The report never exceeds the heap memory owned by the value. -/
theorem C49_never_overcounts [Target] (d : Datum) (h : d.WF) (content : Ptr → Prog) :
    ∃ n, SizeOf.sizeOfUniqueAllocatedData (d.value.visit.visitWith content) = .ok (some n) ∧ n ≤ d.heapBytes := by
  obtain ⟨n, e, hn⟩ := C32_accounting d h content
  exact ⟨n, e, by omega⟩

/-- C49, the exception: `BigInt` and `BigUint` with `words` digits of the size of a `usize` in an allocation with room for `capacity` of them.  The code asks for
the number of 64-bit digits, so on 32-bit targets an odd number of digits is rounded up, and the report exceeds the allocation exactly if there is no spare digit. -/
theorem C49_bigint [Target] (self : Ty) (words capacity : Nat) (h : words ≤ capacity) (hc : capacity * ptrBytes ≤ Layout.isizeMax) (content : Ptr → Prog) :
    ∃ n, SizeOf.sizeOfUniqueAllocatedData ((Impl.bigInt self ((words * ptrBytes + 7) / 8)).visit.visitWith content) = .ok (some n) ∧
      LeastMultiple 8 (words * ptrBytes) n ∧ (n ≤ capacity * ptrBytes ↔ ptrBytes = 8 ∨ 2 ∣ words ∨ words < capacity) := by
  have hlt : (words * ptrBytes + 7) / 8 * 8 < Usize.modulus := by
    have : words * ptrBytes ≤ capacity * ptrBytes := Nat.mul_le_mul_right _ h
    unfold Layout.isizeMax at hc
    generalize words * ptrBytes = a at *
    generalize capacity * ptrBytes = b at *
    word_omega
  refine ⟨(words * ptrBytes + 7) / 8 * 8, ?_, ⟨⟨_, Nat.mul_comm _ _⟩, by omega, ?_⟩, ?_⟩
  · have : Usize.mul ((words * ptrBytes + 7) / 8) 8 = (words * ptrBytes + 7) / 8 * 8 := Nat.mod_eq_of_lt hlt
    simp only [Impl.bigInt, this]
    rw [sizeOf_heap]
    simp [Impl.sized, Visit.enterSelfSized, Visit.enterUnique, Visit.simple, Obj.heap]
  · rintro k ⟨c, rfl⟩ hk; omega
  · rcases Usize.cases with ⟨hb, -⟩ | ⟨hb, -⟩ <;> rw [hb] <;> omega

/-- C33. Of maps and sets only what keys and values own is reported, nothing of the table. -/
theorem C33_tables_invisible [Target] (self : Ty) (table : Nat) (content : Ptr → Prog) :
    (∀ keys values : List Datum, keys.length = values.length → (∀ d ∈ keys ++ values, d.WF ∧ d.Standard) →
      SizeOf.sizeOfUniqueAllocatedData ((Datum.map self table keys values).value.visit.visitWith content) =
        .ok (some ((keys.map Datum.heapBytes).sum + (values.map Datum.heapBytes).sum))) ∧
    (∀ items : List Datum, (∀ d ∈ items, d.WF ∧ d.Standard) →
      SizeOf.sizeOfUniqueAllocatedData ((Datum.set self table items).value.visit.visitWith content) =
        .ok (some (items.map Datum.heapBytes).sum)) := by
  have hall : ∀ l : List Datum, Datum.heapBytesAll l = (l.map Datum.heapBytes).sum := by
    intro l
    induction l with
    | nil => rfl
    | cons d l ih => simp [Datum.heapBytesAll, ih]
  constructor
  · intro keys values hl h
    have hk : ∀ d ∈ keys, d.WF ∧ d.Standard := fun d hd => h d (by simp [hd])
    have hv : ∀ d ∈ values, d.WF ∧ d.Standard := fun d hd => h d (by simp [hd])
    obtain ⟨n, e, hn⟩ := C32_accounting (.map self table keys values)
      ⟨hl, (WFAll_iff _).2 fun d hd => (hk d hd).1, (WFAll_iff _).2 fun d hd => (hv d hd).1⟩ content
    rw [e, ← hall, ← hall]
    simp only [Datum.missed, Datum.heapBytes, standard_missedAll keys ((StandardAll_iff _).2 fun d hd => (hk d hd).2) false (by simp),
      standard_missedAll values ((StandardAll_iff _).2 fun d hd => (hv d hd).2) false (by simp)] at hn
    congr 2; omega
  · intro items h
    obtain ⟨n, e, hn⟩ := C32_accounting (.set self table items) ((WFAll_iff _).2 fun d hd => (h d hd).1) content
    rw [e, ← hall]
    simp only [Datum.missed, Datum.heapBytes, standard_missedAll items ((StandardAll_iff _).2 fun d hd => (h d hd).2) false (by simp)] at hn
    congr 2; omega

/-- C33, warnings.  A map at the root of an object graph: if keys and values total more than a pointer, there is a warning for its
`data` node (unless reachable shared memory is recorded at the same stack). -/
theorem C33_warning [Target] (heap : Heap) (self : Ty) (table : Nat) (keys values : List Datum) (hl : keys.length = values.length)
    (hbig : ptrBytes < Datum.sizes keys + Datum.sizes values)
    (L : List Ptr) (hn : L.Nodup) (hL : ∀ p, p ∈ L ↔ Reachable heap [(Datum.map self table keys values).value.visit] p) (fuel : Nat)
    (hf : L.length ≤ fuel) (hsep : ∀ p ∈ L, ∀ r ∈ (heap p).own [], r.path ≠ [self.key, dataName]) (ord : HashOrder TreeId) :
    ∃ out, ∃ ws : List Path, run ord (visits heap fuel [(Datum.map self table keys values).value.visit]) = .ok out ∧
      out.warnings = ws.flatMap (renderWarning (records (visits heap fuel [(Datum.map self table keys values).value.visit]))) ∧
      [self.key, dataName] ∈ ws := by
  obtain ⟨out, ws, e, hw, _, hm, _⟩ := C16_conservation_exact _ (visits_noLeaks heap fuel [(Datum.map self table keys values).value.visit]) ord
  refine ⟨out, ws, e, hw, (hm _).2 ?_⟩
  have hp := (C08_counted_once_iff_reachable heap _ L hn hL fuel hf).2
  generalize hR : records (visits heap fuel [(Datum.map self table keys values).value.visit]) = R at *
  simp only [List.flatMap_cons, List.flatMap_nil, List.append_nil] at hp
  generalize hb : Obj.concat (((Datum.values keys).zip (Datum.values values)).map fun e => (Visit.field keyName e.1).append (Visit.field valueName e.2)) = body
  have hown : (Datum.map self table keys values).value.visit.own [] =
      ⟨[self.key], self.size, false⟩ :: ⟨[self.key, dataName], ptrBytes, false⟩ :: body.own [self.key, dataName] := by
    simp only [Datum.value, Impl.map, Impl.sized, Visit.enterSelfSized, Visit.enter, Visit.genericMapFields, Visit.fieldWith, hb, Obj.own]
    simp
  have hdir : body.direct = Datum.sizes keys + Datum.sizes values := by
    rw [← hb]
    have : ∀ (ks vs : List Datum), ks.length = vs.length →
        (Obj.concat (((Datum.values ks).zip (Datum.values vs)).map fun e => (Visit.field keyName e.1).append (Visit.field valueName e.2))).direct =
          Datum.sizes ks + Datum.sizes vs := by
      intro ks
      induction ks with
      | nil => intro vs h; cases vs with
        | nil => simp [Datum.values, Obj.concat, Datum.sizes]
        | cons => simp at h
      | cons k ks ih =>
        intro vs h
        cases vs with
        | nil => simp at h
        | cons v vs =>
          have := ih vs (by simpa using h)
          simp only [Datum.values, List.zip_cons_cons, List.map_cons, Obj.concat, direct_append, direct_field, this]
          simp [Datum.sizes, Datum.size]; omega
    exact this keys values hl
  have hcell : ∀ r ∈ L.flatMap (fun p => (heap p).own []), r.path ≠ [self.key, dataName] := by
    intro r hr
    obtain ⟨p, hp', hr⟩ := List.mem_flatMap.1 hr
    exact hsep p hp' r hr
  have hsize : sizeAt R [self.key, dataName] = ptrBytes := by
    have : sizeAt R [self.key, dataName] = _ := (hp.map _).sum_nat
    rw [this]
    change sizeAt _ _ = _
    rw [sizeAt_append, sizeAt_zero hcell, hown, sizeAt_cons, sizeAt_cons, sizeAt_own_self]
    simp
  have hch : Datum.sizes keys + Datum.sizes values ≤ childrenAt R [self.key, dataName] := by
    have : childrenAt R [self.key, dataName] = _ := (hp.map _).sum_nat
    rw [this]
    change _ ≤ childrenAt _ _
    rw [childrenAt_append, hown, childrenAt_cons, childrenAt_cons, childrenAt_own, hdir]
    omega
  refine ⟨by simp, ⟨⟨[self.key, dataName], ptrBytes, false⟩, hp.mem_iff.2 (by rw [hown]; simp), rfl⟩, ?_, by rw [hsize]; omega⟩
  rw [← Bool.not_eq_true]
  intro hu
  simp only [uniqueAt, List.any_eq_true, Bool.and_eq_true, decide_eq_true_eq] at hu
  obtain ⟨r, hr, he, hu⟩ := hu
  rcases List.mem_append.1 (hp.mem_iff.1 hr) with hr | hr
  · rw [hown] at hr
    simp only [List.mem_cons] at hr
    rcases hr with rfl | rfl | hr
    · simp at hu
    · simp at hu
    · obtain ⟨k, s, h⟩ := own_path _ _ r hr
      rw [he] at h
      have := congrArg List.length h
      simp at this
  · exact hcell r hr he

/-- C33, warnings.  The same for a set at the root of an object graph: if the elements total more than a pointer, there is a warning for its
`data` node (unless reachable shared memory is recorded at the same stack). -/
theorem C33_warning_set [Target] (heap : Heap) (self : Ty) (table : Nat) (items : List Datum)
    (hbig : ptrBytes < Datum.sizes items)
    (L : List Ptr) (hn : L.Nodup) (hL : ∀ p, p ∈ L ↔ Reachable heap [(Datum.set self table items).value.visit] p) (fuel : Nat)
    (hf : L.length ≤ fuel) (hsep : ∀ p ∈ L, ∀ r ∈ (heap p).own [], r.path ≠ [self.key, dataName]) (ord : HashOrder TreeId) :
    ∃ out, ∃ ws : List Path, run ord (visits heap fuel [(Datum.set self table items).value.visit]) = .ok out ∧
      out.warnings = ws.flatMap (renderWarning (records (visits heap fuel [(Datum.set self table items).value.visit]))) ∧
      [self.key, dataName] ∈ ws := by
  obtain ⟨out, ws, e, hw, _, hm, _⟩ := C16_conservation_exact _ (visits_noLeaks heap fuel [(Datum.set self table items).value.visit]) ord
  refine ⟨out, ws, e, hw, (hm _).2 ?_⟩
  have hp := (C08_counted_once_iff_reachable heap _ L hn hL fuel hf).2
  generalize hR : records (visits heap fuel [(Datum.set self table items).value.visit]) = R at *
  simp only [List.flatMap_cons, List.flatMap_nil, List.append_nil] at hp
  generalize hb : Obj.concat ((Datum.values items).map fun e => Visit.field keyName e) = body
  have hown : (Datum.set self table items).value.visit.own [] =
      ⟨[self.key], self.size, false⟩ :: ⟨[self.key, dataName], ptrBytes, false⟩ :: body.own [self.key, dataName] := by
    simp only [Datum.value, Impl.set, Impl.sized, Visit.enterSelfSized, Visit.enter, Visit.genericSetFields, Visit.fieldWith, hb, Obj.own]
    simp
  have hdir : body.direct = Datum.sizes items := by
    rw [← hb]
    have : ∀ l : List Datum, (Obj.concat ((Datum.values l).map fun e => Visit.field keyName e)).direct = Datum.sizes l := by
        intro l
        induction l with
        | nil => simp [Datum.values, Obj.concat, Datum.sizes]
        | cons k ks ih => simp only [Datum.values, List.map_cons, Obj.concat, direct_append, direct_field, ih]; simp [Datum.sizes, Datum.size]
    exact this _
  have hcell : ∀ r ∈ L.flatMap (fun p => (heap p).own []), r.path ≠ [self.key, dataName] := by
    intro r hr
    obtain ⟨p, hp', hr⟩ := List.mem_flatMap.1 hr
    exact hsep p hp' r hr
  have hsize : sizeAt R [self.key, dataName] = ptrBytes := by
    have : sizeAt R [self.key, dataName] = _ := (hp.map _).sum_nat
    rw [this]
    change sizeAt _ _ = _
    rw [sizeAt_append, sizeAt_zero hcell, hown, sizeAt_cons, sizeAt_cons, sizeAt_own_self]
    simp
  have hch : Datum.sizes items ≤ childrenAt R [self.key, dataName] := by
    have : childrenAt R [self.key, dataName] = _ := (hp.map _).sum_nat
    rw [this]
    change _ ≤ childrenAt _ _
    rw [childrenAt_append, hown, childrenAt_cons, childrenAt_cons, childrenAt_own, hdir]
    omega
  refine ⟨by simp, ⟨⟨[self.key, dataName], ptrBytes, false⟩, hp.mem_iff.2 (by rw [hown]; simp), rfl⟩, ?_, by rw [hsize]; omega⟩
  rw [← Bool.not_eq_true]
  intro hu
  simp only [uniqueAt, List.any_eq_true, Bool.and_eq_true, decide_eq_true_eq] at hu
  obtain ⟨r, hr, he, hu⟩ := hu
  rcases List.mem_append.1 (hp.mem_iff.1 hr) with hr | hr
  · rw [hown] at hr
    simp only [List.mem_cons] at hr
    rcases hr with rfl | rfl | hr
    · simp at hu
    · simp at hu
    · obtain ⟨k, s, h⟩ := own_path _ _ r hr
      rw [he] at h
      have := congrArg List.length h
      simp at this
  · exact hcell r hr he

/-! ### Spare capacity -/

/-- A value that is not opaque declares its size, once. -/
theorem direct_size [Target] {d : Datum} (h : d.WF) (ho : d.isOpaque = false) : d.value.visit.direct = d.size := by
  cases d with
  | hollow => simp [Datum.isOpaque] at ho
  | array self T items =>
    obtain ⟨ht, hs, hb, _⟩ := h
    simp only [Datum.value, Impl.array, Impl.sized, Impl.sliceVisit, direct_enter, Datum.size, values_length]
    rw [Usize.mul_eq (by omega), hs]
  | _ => simp only [Datum.value, Impl.plain, Impl.str, Impl.osStr, Impl.box, Impl.result, Impl.option, Impl.vec, Impl.vecDeque, Impl.string,
              Impl.pathBuf, Impl.tuple, Impl.manuallyDrop, Impl.cell, Impl.onceCell, Impl.map, Impl.set, Impl.arc, Impl.weak, Impl.either,
              Impl.smallVec, Impl.slab, Impl.compactString, Impl.sized, Visit.simpleSized, Visit.enterSelfSized, Visit.enterSelf, direct_enter,
              direct_simple, Datum.size, Impl.slice, Impl.sliceVisit, Impl.hashTable, Impl.indexSet, Impl.indexMap, Impl.dashMap, Impl.dashSet, Impl.bigInt,
              Impl.bump, Impl.jsonMap, Impl.jsonValue, Impl.futuresShared, Impl.headerSlice, Impl.headerWithLength]

/-- What `visit_slice`/`visit_iter` record directly is the size of the elements. -/
theorem iter_direct [Target] {T : Ty} {items : List Datum} (hw : ∀ d ∈ items, d.WF) (ht : Datum.AllOf T items) (hb : T.size * items.length < Usize.modulus)
    (ho : T.needsDrop = true → ∀ d ∈ items, d.isOpaque = false) : (Visit.iter T (Datum.values items)).direct = items.length * T.size := by
  unfold Visit.iter
  split
  · simp [Usize.mul_eq hb, Nat.mul_comm]
  next hc =>
    have hn : T.needsDrop = true := by
      cases h : T.needsDrop <;> simp [h] at hc ⊢
    replace ho := ho hn
    clear hb hc hn
    induction items with
    | nil => simp [Visit.each, Datum.values, Obj.concat]
    | cons d l ih =>
      have h1 := ih (fun x hx => hw x (by simp [hx])) (fun x hx => ht x (by simp [hx])) (fun x hx => ho x (by simp [hx]))
      have h2 := direct_size (hw d (by simp)) (ho d (by simp))
      have h3 := (ht d (by simp)).2
      simp only [Visit.each, Datum.values, List.map_cons, Obj.concat, direct_append] at *
      rw [h1, h2, h3, List.length_cons, Nat.succ_mul]; omega

/-- Records of `visitor.enter_unique(name, size); <inside>; visit_simple(unused_capacity, spare)` in a value. -/
theorem own_buffer (self : Ty) (name : Key) (n : Nat) (e e' : Ending) (inside : Obj) (spare : Nat) :
    (Visit.enterSelfSized self e (Visit.enterUnique name n e' (inside.append (Visit.simple unusedCapacityName spare)))).own [] =
      ⟨[self.key], self.size, false⟩ :: ⟨[self.key, name], n, true⟩ :: inside.own [self.key, name] ++
        [⟨[self.key, name, unusedCapacityName], spare, false⟩] := by
  simp [Visit.enterSelfSized, Visit.enter, Visit.enterUnique, Visit.simple, Obj.own]

/-- C34 for `Vec`: nothing is recorded for the buffer if nothing is allocated; otherwise, directly below the pointer, `len * size` bytes for
the elements and `(capacity - len) * size` of unused capacity, together `capacity * size`. -/
theorem C34_vec [Target] (self T : Ty) (items : List Datum) (capacity : Nat) (h : (Datum.vec self T items capacity).WF)
    (ho : T.needsDrop = true → ∀ d ∈ items, d.isOpaque = false) :
    ((capacity = 0 ∨ T.size = 0) → (Datum.vec self T items capacity).value.visit.own [] = [⟨[self.key], self.size, false⟩]) ∧
    (capacity ≠ 0 → T.size ≠ 0 → ∃ used, (Datum.vec self T items capacity).value.visit.own [] =
        ⟨[self.key], self.size, false⟩ :: ⟨[self.key, ptrName], ptrBytes, true⟩ :: used ++
          [⟨[self.key, ptrName, unusedCapacityName], (capacity - items.length) * T.size, false⟩] ∧
      childrenAt used [self.key, ptrName] = items.length * T.size ∧
      items.length * T.size + (capacity - items.length) * T.size = capacity * T.size) := by
  obtain ⟨ht, hl, hc, hb, hw⟩ := h
  constructor
  · intro hz
    have : (capacity != 0 && T.size != 0) = false := by rcases hz with hz | hz <;> simp [hz]
    simp only [Datum.value, Impl.vec, this, Impl.sized, Visit.enterSelfSized, Visit.enter, Obj.own]
    simp [Obj.own]
  · intro h1 h2
    have : (capacity != 0 && T.size != 0) = true := by simp [h1, h2]
    have hle := mul_le_cap (a := T.size) hl
    have hs := cap_split (size := T.size) hl
    refine ⟨(Visit.slice T (Datum.values items)).own [self.key, ptrName], ?_, ?_, ?_⟩
    · simp only [Datum.value, Impl.vec, this, if_true, Impl.sized, values_length]
      rw [Usize.sub_eq hl hc, Usize.mul_eq (by omega), own_buffer]
    · rw [childrenAt_own, Visit.slice, iter_direct ((WFAll_iff _).1 hw) ht (by omega) ho]
    · rw [Nat.mul_comm items.length]; exact hs

/-- C34 for `VecDeque`. -/
theorem C34_vecDeque [Target] (self T : Ty) (front back : List Datum) (capacity : Nat) (h : (Datum.vecDeque self T front back capacity).WF)
    (ho : T.needsDrop = true → ∀ d ∈ front ++ back, d.isOpaque = false) :
    ((capacity = 0 ∨ T.size = 0) → (Datum.vecDeque self T front back capacity).value.visit.own [] = [⟨[self.key], self.size, false⟩]) ∧
    (capacity ≠ 0 → T.size ≠ 0 → ∃ used, (Datum.vecDeque self T front back capacity).value.visit.own [] =
        ⟨[self.key], self.size, false⟩ :: ⟨[self.key, ptrName], ptrBytes, true⟩ :: used ++
          [⟨[self.key, ptrName, unusedCapacityName], (capacity - (front.length + back.length)) * T.size, false⟩] ∧
      childrenAt used [self.key, ptrName] = (front.length + back.length) * T.size ∧
      (front.length + back.length) * T.size + (capacity - (front.length + back.length)) * T.size = capacity * T.size) := by
  obtain ⟨ht, ht', hl, hc, hb, hw, hw'⟩ := h
  constructor
  · intro hz
    have : (capacity != 0 && T.size != 0) = false := by rcases hz with hz | hz <;> simp [hz]
    simp only [Datum.value, Impl.vecDeque, this, Impl.sized, Visit.enterSelfSized, Visit.enter, Obj.own]
    simp [Obj.own]
  · intro h1 h2
    have : (capacity != 0 && T.size != 0) = true := by simp [h1, h2]
    have hle := mul_le_cap (a := T.size) hl
    have hs := cap_split (size := T.size) hl
    rw [Nat.mul_add] at hle
    refine ⟨((Visit.slice T (Datum.values front)).append (Visit.slice T (Datum.values back))).own [self.key, ptrName], ?_, ?_, ?_⟩
    · simp only [Datum.value, Impl.vecDeque, this, if_true, Impl.sized, values_length]
      rw [Usize.sub_eq hl hc, Usize.mul_eq (by omega), own_buffer]
    · rw [childrenAt_own, direct_append, Visit.slice, Visit.slice,
        iter_direct ((WFAll_iff _).1 hw) ht (by omega) (fun hn d hd => ho hn d (by simp [hd])),
        iter_direct ((WFAll_iff _).1 hw') ht' (by omega) (fun hn d hd => ho hn d (by simp [hd])), Nat.add_mul]
    · rw [Nat.mul_comm (front.length + back.length)]; exact hs

/-- C34 for `Slab` (in units of `T`, not of the slab's entries). -/
theorem C34_slab [Target] (self T : Ty) (entry : Nat) (items : List Datum) (capacity : Nat) (h : (Datum.slab self T entry items capacity).WF)
    (ho : T.needsDrop = true → ∀ d ∈ items, d.isOpaque = false) :
    ((capacity = 0 ∨ T.size = 0) → (Datum.slab self T entry items capacity).value.visit.own [] = [⟨[self.key], self.size, false⟩]) ∧
    (capacity ≠ 0 → T.size ≠ 0 → ∃ used, (Datum.slab self T entry items capacity).value.visit.own [] =
        ⟨[self.key], self.size, false⟩ :: ⟨[self.key, ptrName], ptrBytes, true⟩ :: used ++
          [⟨[self.key, ptrName, unusedCapacityName], (capacity - items.length) * T.size, false⟩] ∧
      childrenAt used [self.key, ptrName] = items.length * T.size ∧
      items.length * T.size + (capacity - items.length) * T.size = capacity * T.size) := by
  obtain ⟨ht, hl, hc, he, hb, hw⟩ := h
  have hce : capacity * T.size ≤ capacity * entry := Nat.mul_le_mul_left _ he
  constructor
  · intro hz
    have : (capacity != 0 && T.size != 0) = false := by rcases hz with hz | hz <;> simp [hz]
    simp only [Datum.value, Impl.slab, this, Impl.sized, Visit.enterSelfSized, Visit.enter, Obj.own]
    simp [Obj.own]
  · intro h1 h2
    have : (capacity != 0 && T.size != 0) = true := by simp [h1, h2]
    have hle := mul_le_cap (a := T.size) hl
    have hs := cap_split (size := T.size) hl
    refine ⟨(Visit.iter T (Datum.values items)).own [self.key, ptrName], ?_, ?_, ?_⟩
    · simp only [Datum.value, Impl.slab, this, if_true, Impl.sized, values_length]
      rw [Usize.sub_eq hl hc, Usize.mul_eq (by omega), own_buffer]
    · rw [childrenAt_own, iter_direct ((WFAll_iff _).1 hw) ht (by omega) ho]
    · rw [Nat.mul_comm items.length]; exact hs

/-- C34 for `String`: the `capacity` node has `capacity` bytes, in it `len` bytes of `u8` and the rest unused. -/
theorem C34_string [Target] (self : Ty) (len capacity : Nat) (h : len ≤ capacity) (hc : capacity < Usize.modulus) :
    (Datum.string self len capacity).value.visit.own [] =
      [⟨[self.key], self.size, false⟩, ⟨[self.key, ptrName], ptrBytes, true⟩, ⟨[self.key, ptrName, capacityName], capacity, false⟩,
        ⟨[self.key, ptrName, capacityName, Impl.u8.key], len, false⟩,
        ⟨[self.key, ptrName, capacityName, unusedCapacityName], capacity - len, false⟩] := by
  have e1 := Usize.mul_eq (a := 1) (b := capacity) (by omega)
  have e2 := Usize.mul_eq (a := 1) (b := len) (by omega)
  have e3 := Usize.mul_eq (a := 1) (b := capacity - len) (by omega)
  simp [Datum.value, Impl.string, Impl.sized, Visit.enterSelfSized, Visit.enter, Visit.enterUnique, Visit.vecLikeBody, Visit.fieldWith, Visit.slice,
    Visit.iter, Impl.u8, Visit.simple, Obj.own, Obj.append, Usize.sub_eq h hc, e1, e2, e3]

/-- C34 for `PathBuf` and heap-allocated `CompactString`. -/
theorem C34_path [Target] (self : Ty) (len capacity : Nat) (h : len ≤ capacity) (hc : capacity < Usize.modulus) :
    (Datum.pathBuf self len capacity).value.visit.own [] = (if capacity = 0 then [⟨[self.key], self.size, false⟩] else
      [⟨[self.key], self.size, false⟩, ⟨[self.key, ptrName], ptrBytes, true⟩, ⟨[self.key, ptrName, Key.new (ascii "path")], len, false⟩,
        ⟨[self.key, ptrName, unusedCapacityName], capacity - len, false⟩]) ∧
    (Datum.compactString self true len capacity).value.visit.own [] =
      [⟨[self.key], self.size, false⟩, ⟨[self.key, ptrName], ptrBytes, true⟩, ⟨[self.key, ptrName, Key.new (ascii "str")], len, false⟩,
        ⟨[self.key, ptrName, unusedCapacityName], capacity - len, false⟩] ∧
    (Datum.compactString self false len capacity).value.visit.own [] = [⟨[self.key], self.size, false⟩] := by
  refine ⟨?_, ?_, ?_⟩
  · by_cases h0 : capacity = 0
    · simp [Datum.value, Impl.pathBuf, h0, Impl.sized, Visit.enterSelfSized, Visit.enter, Obj.own]
    · simp [Datum.value, Impl.pathBuf, h0, Impl.sized, Visit.enterSelfSized, Visit.enter, Visit.enterUnique, Visit.simple, Obj.own, Obj.append,
        Usize.sub_eq h hc]
  · simp [Datum.value, Impl.compactString, Impl.sized, Visit.enterSelfSized, Visit.enter, Visit.enterUnique, Visit.simple, Obj.own, Obj.append,
        Usize.sub_eq h hc]
  · simp [Datum.value, Impl.compactString, Impl.sized, Visit.enterSelfSized, Visit.enter, Obj.own]

theorem fields_direct [Target] (k : Key) (l : List Datum) : (Obj.concat ((Datum.values l).map fun v => Visit.field k v)).direct = Datum.sizes l := by
  induction l with
  | nil => simp [Datum.values, Obj.concat, Datum.sizes]
  | cons d l ih => simp only [Datum.values, List.map_cons, Obj.concat, direct_append, direct_field, ih]; simp [Datum.sizes, Datum.size]

theorem pairs_direct [Target] (a b : Key) : ∀ (ks vs : List Datum), ks.length = vs.length →
    (Obj.concat (((Datum.values ks).zip (Datum.values vs)).map fun e => (Visit.field a e.1).append (Visit.field b e.2))).direct =
      Datum.sizes ks + Datum.sizes vs := by
  intro ks
  induction ks with
  | nil => intro vs h; cases vs with
    | nil => simp [Datum.values, Obj.concat, Datum.sizes]
    | cons => simp at h
  | cons k ks ih =>
    intro vs h
    cases vs with
    | nil => simp at h
    | cons v vs =>
      have := ih vs (by simpa using h)
      simp only [Datum.values, List.zip_cons_cons, List.map_cons, Obj.concat, direct_append, direct_field, this]
      simp [Datum.sizes, Datum.size]; omega

/-- C34 for `IndexSet` (`capacity * size` in total) and `IndexMap` (the entries are counted as `size_of::<K>() + size_of::<V>()`, the spare
ones as `size_of::<(K, V)>()`, so with padding in `(K, V)` the total is less than `capacity * size_of::<(K, V)>()`).  The records of the raw
table, `raw`, are below another key. -/
theorem C34_indexmap [Target] (self T KV K V : Ty) (capacity : Nat) (hc : capacity < Usize.modulus) :
    (∀ items : List Datum, Datum.AllOf T items → items.length ≤ capacity → capacity * T.size < Usize.modulus →
      ∃ used raw, (Impl.indexSet self T (Datum.values items) capacity).visit.own [] =
        ⟨[self.key], self.size, false⟩ :: ⟨[self.key, dataName], ptrBytes, true⟩ :: used ++
          [⟨[self.key, dataName, unusedCapacityName], (capacity - items.length) * T.size, false⟩] ++ raw ∧
        childrenAt used [self.key, dataName] = items.length * T.size ∧ (∀ r ∈ raw, ∃ s, r.path = [self.key, Key.new (ascii "raw_table")] ++ s) ∧
        items.length * T.size + (capacity - items.length) * T.size = capacity * T.size) ∧
    (∀ keys values : List Datum, Datum.AllOf K keys → Datum.AllOf V values → keys.length = values.length → keys.length ≤ capacity →
        capacity * KV.size < Usize.modulus → K.size + V.size ≤ KV.size →
      ∃ used raw, (Impl.indexMap self KV ((Datum.values keys).zip (Datum.values values)) capacity).visit.own [] =
        ⟨[self.key], self.size, false⟩ :: ⟨[self.key, dataName], ptrBytes, true⟩ :: used ++
          [⟨[self.key, dataName, unusedCapacityName], (capacity - keys.length) * KV.size, false⟩] ++ raw ∧
        childrenAt used [self.key, dataName] = keys.length * (K.size + V.size) ∧
        (∀ r ∈ raw, ∃ s, r.path = [self.key, Key.new (ascii "raw_table")] ++ s) ∧
        keys.length * (K.size + V.size) + (capacity - keys.length) * KV.size + keys.length * (KV.size - (K.size + V.size)) = capacity * KV.size) := by
  have hraw : ∀ n, ∀ r ∈ (Impl.addRawTableForLen Impl.usize n).own [self.key], ∃ s, r.path = [self.key, Key.new (ascii "raw_table")] ++ s := by
    intro n r hr
    unfold Impl.addRawTableForLen at hr
    split at hr
    · simp [Visit.enterUnique, Visit.simple, Visit.enter, Obj.own] at hr
      rcases hr with rfl | rfl
      · exact ⟨[], rfl⟩
      · exact ⟨[_], rfl⟩
    · simp [Obj.own] at hr
  constructor
  · intro items ht hl hb
    have hle := mul_le_cap (a := T.size) hl
    have hs := cap_split (size := T.size) hl
    refine ⟨(Obj.concat ((Datum.values items).map fun v => Visit.field (Key.new (ascii "value")) v)).own [self.key, dataName],
      (Impl.addRawTableForLen Impl.usize items.length).own [self.key], ?_, ?_, hraw _, ?_⟩
    · simp only [Impl.indexSet, Impl.sized, values_length]
      rw [Usize.sub_eq hl hc, Usize.mul_eq (by omega)]
      simp [Visit.enterSelfSized, Visit.enter, Visit.enterUnique, Visit.simple, Obj.own, Obj.append, dataName]
    · rw [childrenAt_own, fields_direct, sizes_allOf ht, Nat.mul_comm]
    · rw [Nat.mul_comm items.length]; exact hs
  · intro keys values hk hv hlen hl hb hKV
    have hle := mul_le_cap (a := KV.size) hl
    have hs := cap_split (size := KV.size) hl
    refine ⟨(Obj.concat (((Datum.values keys).zip (Datum.values values)).map fun e =>
        (Visit.field (Key.new (ascii "key")) e.1).append (Visit.field (Key.new (ascii "value")) e.2))).own [self.key, dataName],
      (Impl.addRawTableForLen Impl.usize keys.length).own [self.key], ?_, ?_, hraw _, ?_⟩
    · have hz : ((Datum.values keys).zip (Datum.values values)).length = keys.length := by simp [hlen]
      simp only [Impl.indexMap, Impl.sized, hz]
      rw [Usize.sub_eq hl hc, Usize.mul_eq (by omega)]
      simp [Visit.enterSelfSized, Visit.enter, Visit.enterUnique, Visit.simple, Obj.own, Obj.append, dataName]
    · rw [childrenAt_own, pairs_direct _ _ _ _ hlen, sizes_allOf hk, sizes_allOf hv, ← hlen, Nat.mul_add, Nat.mul_comm K.size, Nat.mul_comm V.size]
    · have : keys.length * (KV.size - (K.size + V.size)) + keys.length * (K.size + V.size) = keys.length * KV.size := by
        rw [← Nat.mul_add]; congr 1; omega
      rw [Nat.mul_comm KV.size] at hs
      omega

/-! ### No warnings -/

/-- C48. Roots made of the supported types with layouts as Rust guarantees them, in a heap whose cells are visited consistently, in any
order, with shared pointers and cycles: there are no warnings. -/
theorem C48_no_warnings [Target] (heap : Heap) (hc : ∀ p, (heap p).Consistent) (roots : List Datum) (h : ∀ d ∈ roots, d.WF ∧ d.Fits) (fuel : Nat)
    (ord : HashOrder TreeId) :
    ∃ out, run ord (visits heap fuel (roots.map fun d => d.value.visit)) = .ok out ∧ out.warnings = [] := by
  refine C19_consistent_no_warnings _ (visits_noLeaks _ _ _) ?_ ord
  intro x hx
  simp only [visits, List.map_map, List.mem_map] at hx
  obtain ⟨d, hd, rfl⟩ := hx
  exact visit_consistent hc fuel (datum_fit d (h d hd).1 (h d hd).2).2

/-- C48, the cells: the contents of `Arc`, `Rc`, `triomphe::Arc`, `ThinArc` and `futures::Shared` are consistent if the
allocation has room for the value. -/
theorem C48_cells [Target] (d : Datum) (h : d.WF) (hf : d.Fits) (size : Nat) (hs : d.size ≤ size) (repr : Ty) :
    (Impl.arcInner size d.value).Consistent ∧ (Impl.rcInner size d.value).Consistent ∧ (Impl.triompheInner size d.value).Consistent ∧
    (Impl.thinArcInner repr size d.value).Consistent ∧ d.value.visit.Consistent := by
  have := datum_fit d h hf
  have h1 : d.value.sizeOfVal ≤ size := hs
  have h2 : d.value.visit.direct ≤ size := Nat.le_trans this.1 h1
  simp [Impl.arcInner, Impl.rcInner, Impl.triompheInner, Impl.thinArcInner, this.2, this.1, h1, h2]

open Derive in
/-- How a field fits: the field is skipped, or its visit fits in the field. -/
def FieldFits (call : List Tok → Value → Obj) (x : FieldInfo) : Prop :=
  x.attrs.skip = true ∨ match x.attrs.visit with
    | some f => (call f x.value).direct ≤ x.decl.size ∧ (call f x.value).Consistent
    | none => x.value.Fit

open Derive in
/-- The size a field is entered with. -/
def fieldSize (x : FieldInfo) : Nat :=
  if x.attrs.skip then 0 else match x.attrs.visit with
    | some _ => x.decl.size
    | none => x.value.sizeOfVal

open Derive in
theorem visitFields_fit (call : List Tok → Value → Obj) {infos : List FieldInfo} (h : ∀ x ∈ infos, FieldFits call x) :
    (visitFields call infos).Consistent ∧ (visitFields call infos).direct = (infos.map fieldSize).sum := by
  induction infos with
  | nil => simp [visitFields, Obj.concat]
  | cons x l ih =>
    have := ih fun y hy => h y (by simp [hy])
    have hx := h x (by simp)
    simp only [visitFields, List.map_cons, Obj.concat, consistent_append, direct_append, List.sum_cons] at *
    rw [this.2]
    simp only [FieldFits, FieldInfo.visit, fieldSize] at *
    by_cases hs : x.attrs.skip = true
    · simp [hs, this.1]
    · simp only [hs, false_or, if_false, Bool.false_eq_true] at *
      cases hv : x.attrs.visit with
      | none => simp only [hv, Value.Fit] at *; simp [Obj.direct, Obj.Consistent, hx.1, hx.2, this.1]
      | some f => simp only [hv] at *; simp [Obj.direct, Obj.Consistent, hx.1, hx.2, this.1]

open Derive in
/-- C39. Derived visits of structs: whatever is skipped, if the visits of the other fields fit in the fields and the fields in the struct, the visit
of the struct fits, and a builder that visits it (and nothing inconsistent behind shared pointers) gives no warning. -/
theorem C39_struct (P : PathParser) (lex : Str → Bool) (call : List Tok → Value → Obj) (self : Ty) (size : Nat) (i : Nat) (input : Input)
    (fs : Fields) (infos : List FieldInfo) (a : Attrs) (hd : input.data = .struct fs) (ha : extractAttrs P input.attrs = some a)
    (hs : a.skip = false) (hb : ∀ s, a.bound = some s → lex s = true) (h : fs.Described P infos) (hn : fs.NamesOk)
    (hf : ∀ x ∈ infos, FieldFits call x) (hsize : (infos.map fieldSize).sum ≤ size)
    (heap : Heap) (hc : ∀ p, (heap p).Consistent) (fuel : Nat) (ord : HashOrder TreeId) :
    ∃ e o out, deriveAllocativeImpl P lex input = some e ∧
      e.visit call self size input.data ⟨i, infos.map FieldInfo.value⟩ = some o ∧ (Value.mk self size o).Fit ∧
      run ord (visits heap fuel [o]) = .ok out ∧ out.warnings = [] := by
  obtain ⟨e, e1, e2⟩ := C38_struct P lex call self size i input fs infos a hd ha hs hb h hn
  obtain ⟨c1, c2⟩ := visitFields_fit call hf
  have hfit : (Value.mk self size (.inline (Key.new self.name) size .exit (visitFields call infos) .nil)).Fit := by
    simp only [Value.Fit, Obj.direct, Obj.Consistent]
    exact ⟨by omega, by omega, c1, trivial⟩
  obtain ⟨out, r1, r2⟩ := C19_consistent_no_warnings (visits heap fuel [Obj.inline (Key.new self.name) size .exit (visitFields call infos) .nil])
    (visits_noLeaks _ _ _) (by
      intro x hx
      simp only [visits, List.map_cons, List.map_nil, List.mem_cons, List.not_mem_nil, or_false] at hx
      subst hx
      exact visit_consistent hc fuel hfit.2) ord
  exact ⟨e, _, out, e1, e2, hfit, r1, r2⟩

open Derive in
/-- C39. Derived visits of enums, in a variant with fields. -/
theorem C39_enum (P : PathParser) (lex : Str → Bool) (call : List Tok → Value → Obj) (self : Ty) (i : Nat) (input : Input)
    (variants : List Variant) (var : Variant) (infos : List FieldInfo) (a va : Attrs)
    (hd : input.data = .enum variants) (ha : extractAttrs P input.attrs = some a) (hs : a.skip = false)
    (hb : ∀ s, a.bound = some s → lex s = true) (hvn : (variants.map Variant.name).Nodup) (hok : ∀ v ∈ variants, v.AttrsOk P)
    (hi : variants[i]? = some var) (hva : extractAttrs P var.attrs = some va) (hvs : va.skip = false) (hu : var.fields ≠ .unit)
    (h : var.fields.Described P infos) (hn : var.fields.NamesOk)
    (hf : ∀ x ∈ infos, FieldFits call x) (hsize : (infos.map fieldSize).sum ≤ self.size)
    (heap : Heap) (hc : ∀ p, (heap p).Consistent) (fuel : Nat) (ord : HashOrder TreeId) :
    ∃ e o out, deriveAllocativeImpl P lex input = some e ∧
      e.visit call self self.size input.data ⟨i, infos.map FieldInfo.value⟩ = some o ∧ (Impl.sized self o).Fit ∧
      run ord (visits heap fuel [o]) = .ok out ∧ out.warnings = [] := by
  obtain ⟨e, e1, e2⟩ := C38_enum_variant P lex call self self.size i input variants var infos a va hd ha hs hb hvn hok hi hva hvs hu h hn
  obtain ⟨c1, c2⟩ := visitFields_fit call hf
  have hfit : (Impl.sized self (.inline (Key.new self.name) self.size .exit
      (.inline (Key.new var.name) self.size .exit (visitFields call infos) .nil) .nil)).Fit := by
    simp only [Value.Fit, Impl.sized, Obj.direct, Obj.Consistent]
    exact ⟨by omega, by omega, ⟨by omega, c1, trivial⟩, trivial⟩
  obtain ⟨out, r1, r2⟩ := C19_consistent_no_warnings (visits heap fuel [Obj.inline (Key.new self.name) self.size .exit
      (.inline (Key.new var.name) self.size .exit (visitFields call infos) .nil) .nil])
    (visits_noLeaks _ _ _) (by
      intro x hx
      simp only [visits, List.map_cons, List.map_nil, List.mem_cons, List.not_mem_nil, or_false] at hx
      subst hx
      exact visit_consistent hc fuel hfit.2) ord
  exact ⟨e, _, out, e1, e2, hfit, r1, r2⟩

/-! ### Concrete cases -/

namespace DataExamples

attribute [local instance] Target.x64

def tU8 : Ty := ⟨ascii "u8", 1, false⟩
def tString : Ty := ⟨ascii "alloc::string::String", 24, true⟩
def tVec : Ty := ⟨ascii "alloc::vec::Vec<alloc::string::String>", 24, true⟩
def tBox : Ty := ⟨ascii "alloc::boxed::Box<u8>", 8, true⟩
def tMd : Ty := ⟨ascii "core::mem::manually_drop::ManuallyDrop<alloc::boxed::Box<u8>>", 8, false⟩
def tMap : Ty := ⟨ascii "HashMap<u8, alloc::string::String>", 48, true⟩
def tErr : Ty := ⟨ascii "anyhow::Error", 8, true⟩

/-- `vec!["ab".to_owned()]` with capacity 4. -/
def v : Datum := .vec tVec tString [.string tString 2 3] 4

theorem v_wf : v.WF := by simp [v, Datum.WF, Datum.AllOf, Datum.value, Impl.string, Impl.sized, Datum.size, Datum.WFAll, tString]
theorem v_standard : v.Standard := by simp [v, Datum.Standard, Datum.ElementsOk, tString, Datum.isOpaque, Datum.StandardAll]
theorem v_fits : v.Fits := by simp [v, Datum.Fits, tVec, Datum.FitsAll, tString]

example (content : Ptr → Prog) : SizeOf.sizeOfUniqueAllocatedData (v.value.visit.visitWith content) = .ok (some 99) :=
  C32_exact v v_wf v_standard content

/-- `HashMap { 1: "ab" }` with a table of 148 bytes: 3 bytes are reported instead of 151, with a warning in the flame graph. -/
example (content : Ptr → Prog) :
    SizeOf.sizeOfUniqueAllocatedData ((Datum.map tMap 148 [.plain tU8] [.string tString 2 3]).value.visit.visitWith content) = .ok (some 3) ∧
    (Datum.map tMap 148 [.plain tU8] [.string tString 2 3]).heapBytes = 151 :=
  ⟨(C33_tables_invisible tMap 148 content).1 _ _ rfl (by simp [Datum.WF, Datum.Standard]), rfl⟩

example (ord : HashOrder TreeId) : ∃ out, ∃ ws : List Path,
    run ord (visits (fun _ => .nil) 0 [(Datum.map tMap 148 [.plain tU8] [.string tString 2 3]).value.visit]) = .ok out ∧
    out.warnings = ws.flatMap (renderWarning (records (visits (fun _ => .nil) 0 [(Datum.map tMap 148 [.plain tU8] [.string tString 2 3]).value.visit]))) ∧ [tMap.key, dataName] ∈ ws :=
  C33_warning (fun _ => .nil) tMap 148 [.plain tU8] [.string tString 2 3] rfl (by decide) [] (by simp)
    (by
      intro p
      refine ⟨by simp, fun h => absurd h ?_⟩
      intro h
      induction h with
      | root ho hp =>
        simp only [List.mem_singleton] at ho
        subst ho
        exact absurd hp (by simp [Datum.value, Datum.values, Impl.map, Impl.sized, Visit.enterSelfSized, Visit.enter, Visit.genericMapFields, Visit.fieldWith,
          Visit.field, Obj.ptrs, Obj.concat, Obj.append, Impl.plain, Visit.simpleSized, Impl.string, Visit.enterUnique, Visit.vecLikeBody, Visit.slice,
          Visit.iter, Impl.u8, Visit.simple])
      | step _ hp => simp [Obj.ptrs] at hp) 0 (by simp) (by simp) ord

/-- The same for `HashSet { "ab" }`. -/
example (ord : HashOrder TreeId) : ∃ out, ∃ ws : List Path,
    run ord (visits (fun _ => .nil) 0 [(Datum.set tMap 148 [.string tString 2 3]).value.visit]) = .ok out ∧
    out.warnings = ws.flatMap (renderWarning (records (visits (fun _ => .nil) 0 [(Datum.set tMap 148 [.string tString 2 3]).value.visit]))) ∧ [tMap.key, dataName] ∈ ws :=
  C33_warning_set (fun _ => .nil) tMap 148 [.string tString 2 3] (by decide) [] (by simp)
    (by
      intro p
      refine ⟨by simp, fun h => absurd h ?_⟩
      intro h
      induction h with
      | root ho hp =>
        simp only [List.mem_singleton] at ho
        subst ho
        exact absurd hp (by simp [Datum.value, Datum.values, Impl.set, Impl.sized, Visit.enterSelfSized, Visit.enter, Visit.genericSetFields, Visit.fieldWith,
          Visit.field, Obj.ptrs, Obj.concat, Obj.append, Impl.plain, Visit.simpleSized, Impl.string, Visit.enterUnique, Visit.vecLikeBody, Visit.slice,
          Visit.iter, Impl.u8, Visit.simple])
      | step _ hp => simp [Obj.ptrs] at hp) 0 (by simp) (by simp) ord

/-- Undercounts: `Vec<ManuallyDrop<Box<u8>>>` and `Vec<anyhow::Error>`. -/
example (content : Ptr → Prog) :
    SizeOf.sizeOfUniqueAllocatedData ((Datum.vec tVec tMd [.manuallyDrop tMd (.box tBox 8 (.plain tU8))] 1).value.visit.visitWith content) = .ok (some 8) ∧
    (Datum.vec tVec tMd [.manuallyDrop tMd (.box tBox 8 (.plain tU8))] 1).heapBytes = 9 ∧
    SizeOf.sizeOfUniqueAllocatedData ((Datum.vec tVec tErr [.hollow tErr 32] 1).value.visit.visitWith content) = .ok (some 0) ∧
    (Datum.vec tVec tErr [.hollow tErr 32] 1).heapBytes = 40 := ⟨rfl, rfl, rfl, rfl⟩

/-- No warnings for that vector together with a cyclic `Arc`. -/
example (ord : HashOrder TreeId) : ∃ out, run ord (visits (fun _ => Impl.arcInner 32 (Datum.arc tBox 8 0).value) 3
    ([v, .arc tBox 8 0].map fun d => d.value.visit)) = .ok out ∧ out.warnings = [] :=
  C48_no_warnings _ (fun _ => (C48_cells (.arc tBox 8 0) trivial (by simp [Datum.Fits, tBox]) 32 (by decide) tU8).1) [v, .arc tBox 8 0]
    (by
      intro d hd
      simp only [List.mem_cons, List.not_mem_nil, or_false] at hd
      rcases hd with rfl | rfl
      · exact ⟨v_wf, v_fits⟩
      · exact ⟨trivial, by simp [Datum.Fits, tBox]⟩) 3 ord

open Derive DeriveExamples in
/-- The struct of `DeriveExamples`, with a custom visit that does nothing. -/
example (ord : HashOrder TreeId) : ∃ e o out, deriveAllocativeImpl P (fun _ => true) ⟨[], [], .struct fields, ascii "S", []⟩ = some e ∧
    e.visit (fun _ _ => .nil) ⟨ascii "S", 12, false⟩ 12 (.struct fields) ⟨0, [u32, u32, u32]⟩ = some o ∧
    (Value.mk ⟨ascii "S", 12, false⟩ 12 o).Fit ∧ run ord (visits (fun _ => .nil) 0 [o]) = .ok out ∧ out.warnings = [] :=
  C39_struct P (fun _ => true) (fun _ _ => .nil) ⟨ascii "S", 12, false⟩ 12 0 ⟨[], [], .struct fields, ascii "S", []⟩ fields infos {} rfl rfl rfl (by simp)
    described namesOk (by
      intro x hx
      simp only [infos, List.mem_cons, List.not_mem_nil, or_false] at hx
      rcases hx with rfl | rfl | rfl <;> simp [FieldFits, Value.Fit, u32, Visit.simpleSized, Visit.enterSelfSized, Visit.enter, Obj.direct, Obj.Consistent])
    (by decide) (fun _ => .nil) (fun _ => trivial) 0 ord

end DataExamples

/-! The theorems of this file with a concrete case of their hypotheses. -/
namespace DataExamples

attribute [local instance] Target.x64

example (content : Ptr → Prog) := C32_accounting v v_wf content
example (content : Ptr → Prog) := C49_never_overcounts v v_wf content
/-- The table of a `HashMap` is what is missed. -/
example (content : Ptr → Prog) : ∃ n, SizeOf.sizeOfUniqueAllocatedData ((Datum.map tMap 148 [.plain tU8] [.string tString 2 3]).value.visit.visitWith content) = .ok (some n) ∧ n + 148 = 151 :=
  C32_accounting (.map tMap 148 [.plain tU8] [.string tString 2 3]) (by simp [Datum.WF, Datum.WFAll]) content
example := C34_vec tVec tString [.string tString 2 3] 4 v_wf (fun _ d hd => by rw [List.mem_singleton.1 hd]; rfl)
example := C34_vecDeque tVec tString [.string tString 2 3] [.string tString 0 9] 4
  (by simp [Datum.WF, Datum.AllOf, Datum.value, Impl.string, Impl.sized, Datum.size, Datum.WFAll, tString])
  (fun _ d hd => by simp only [List.cons_append, List.nil_append, List.mem_cons, List.not_mem_nil, or_false] at hd; rcases hd with rfl | rfl <;> rfl)
example := C34_slab tVec tString 32 [.string tString 2 3] 4
  (by simp [Datum.WF, Datum.AllOf, Datum.value, Impl.string, Impl.sized, Datum.size, Datum.WFAll, tString])
  (fun _ d hd => by rw [List.mem_singleton.1 hd]; rfl)
example := C34_string tString 2 3 (by decide) (by decide)
example := C34_path tString 2 3 (by decide) (by decide)
example := (C34_indexmap tMap tString ⟨[], 32, true⟩ tU8 tString 4 (by decide)).2 [.plain tU8] [.string tString 2 3]
  (by simp [Datum.AllOf, Datum.value, Datum.size, Impl.plain, Impl.sized]) (by simp [Datum.AllOf, Datum.value, Datum.size, Impl.string, Impl.sized]) rfl (by decide) (by decide) (by decide)

open Derive DeriveExamples in
example (ord : HashOrder TreeId) := C39_enum P (fun _ => true) (fun _ _ => .nil) ⟨ascii "E", 16, false⟩ 1 ⟨[], [], .enum variants, ascii "E", []⟩ variants
  ⟨ascii "B", [], fields⟩ infos {} {} rfl rfl rfl (by simp) (by decide) variantsOk rfl rfl rfl (by simp [fields]) described namesOk (by
    intro x hx
    simp only [infos, List.mem_cons, List.not_mem_nil, or_false] at hx
    rcases hx with rfl | rfl | rfl <;> simp [FieldFits, Value.Fit, u32, Visit.simpleSized, Visit.enterSelfSized, Visit.enter, Obj.direct, Obj.Consistent])
  (by decide) (fun _ => .nil) (fun _ => trivial) 0 ord

end DataExamples

end Allocative
