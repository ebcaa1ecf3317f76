import Verif.Spec.Datum
import Verif.Lemmas.Table
import Verif.Spec.Object
import Verif.Spec.Totals
import Verif.Spec.SizeOf
import Verif.Lemmas.Calls
set_option linter.unusedSimpArgs false
/-
Lemmas about visits of Rust values.
-/
namespace Allocative

/-! ### Machine arithmetic without overflow -/

theorem Usize.mul_eq [Target] {a b : Nat} (h : a * b < Usize.modulus) : Usize.mul a b = a * b := Nat.mod_eq_of_lt h
theorem Usize.sub_eq [Target] {a b : Nat} (h : b ≤ a) (ha : a < Usize.modulus) : Usize.sub a b = a - b := by
  have : Usize.sub a b = ((a - b) + Usize.modulus) % Usize.modulus := by unfold Usize.sub; congr 1; omega
  rw [this, Nat.add_mod_right]; exact Nat.mod_eq_of_lt (by omega)
theorem Usize.add_eq [Target] {a b : Nat} (h : a + b < Usize.modulus) : Usize.add a b = a + b := Nat.mod_eq_of_lt h

/-! ### What `size_of_unique_allocated_data` sums -/

/-- Sum of the sizes of the inline calls made directly on a unique visitor; the flag says whether the object itself is visited with one. -/
def Obj.heap : Obj → Bool → Nat
  | .nil, _ => 0
  | .inline _ n _ inside rest, u => (if u then n else 0) + inside.heap false + rest.heap u
  | .unique _ _ _ inside rest, u => inside.heap true + rest.heap u
  | .shared _ _ _ _ rest, u => rest.heap u

theorem Ending.closes (e : Ending) : e.fate = .exit ∨ e.fate = .drop := by cases e <;> simp [Ending.fate]

theorem so_finish (kind : NodeKind) (hk : kind ≠ .shared) (e : Ending) (s : SizeOf.State) :
    SizeOf.visitorImpl.finishChild kind e.fate .returned s = .ok s := by
  cases e <;> cases kind <;> first | rfl | exact absurd rfl hk

theorem exec_heap (content : Ptr → Prog) (o : Obj) : ∀ (kind : NodeKind) (s : Nat),
    exec SizeOf.visitorImpl (o.visitWith content) kind s = .ok (s + o.heap (kind = .unique), .returned) := by
  induction o with
  | nil => intro kind s; rfl
  | inline k n e inside rest ih1 ih2 =>
    intro kind s
    simp only [Obj.visitWith, exec]
    have h0 : SizeOf.visitorImpl.enterInlineImpl s k n kind = .ok (s + if kind = .unique then n else 0) := by
      cases kind <;> simp [SizeOf.visitorImpl]
    rw [h0]
    simp only [ih1, so_finish .inline (by simp), ih2, Obj.heap]
    by_cases hk : kind = .unique <;> simp [hk, Nat.add_assoc]
  | unique k n e inside rest ih1 ih2 =>
    intro kind s
    simp only [Obj.visitWith, exec]
    have h0 : SizeOf.visitorImpl.enterUniqueImpl s k n kind = .ok s := rfl
    rw [h0]
    simp only [ih1, so_finish .unique (by simp), ih2, Obj.heap]
    simp [Nat.add_assoc]
  | shared k n p e rest ih =>
    intro kind s
    simp only [Obj.visitWith, exec]
    have h0 : SizeOf.visitorImpl.enterSharedImpl s k n p kind = .ok (false, s) := rfl
    rw [h0]
    simp only [ih, Obj.heap]

theorem sizeOf_heap (content : Ptr → Prog) (o : Obj) :
    SizeOf.sizeOfUniqueAllocatedData (o.visitWith content) = .ok (some (o.heap false)) := by
  simp only [SizeOf.sizeOfUniqueAllocatedData, exec_heap]
  have : ∀ n : Nat, SizeOf.visitorImpl.finishChild .root .exit .returned n = .ok n := fun _ => rfl
  simp [this]

@[simp] theorem heap_append (a b : Obj) (u : Bool) : (a.append b).heap u = a.heap u + b.heap u := by
  induction a with
  | nil => simp [Obj.append, Obj.heap]
  | inline k n e i r _ ih => simp only [Obj.append, Obj.heap, ih]; omega
  | unique k n e i r _ ih => simp only [Obj.append, Obj.heap, ih]; omega
  | shared k n p e r ih => simp only [Obj.append, Obj.heap, ih]

@[simp] theorem heap_nil (u : Bool) : Obj.nil.heap u = 0 := rfl
@[simp] theorem heap_enter (k n e) (o : Obj) (u : Bool) : (Visit.enter k n e o).heap u = (if u then n else 0) + o.heap false := by
  simp [Visit.enter, Obj.heap]
@[simp] theorem heap_enterUnique (k n e) (o : Obj) (u : Bool) : (Visit.enterUnique k n e o).heap u = o.heap true := by
  simp [Visit.enterUnique, Obj.heap]
@[simp] theorem heap_simple (k n) (u : Bool) : (Visit.simple k n).heap u = if u then n else 0 := by simp [Visit.simple]
@[simp] theorem heap_field (k) (v : Value) (u : Bool) : (Visit.field k v).heap u = (if u then v.sizeOfVal else 0) + v.visit.heap false := by
  simp [Visit.field, Visit.fieldWith]

/-! ### Values -/

theorem values_eq [Target] (l : List Datum) : Datum.values l = l.map Datum.value := by
  induction l with
  | nil => rfl
  | cons d l ih => simp [Datum.values, ih]

@[simp] theorem values_length [Target] (l : List Datum) : (Datum.values l).length = l.length := by simp [values_eq]

@[simp] theorem WFAll_iff [Target] (l : List Datum) : Datum.WFAll l ↔ ∀ d ∈ l, d.WF := by
  induction l with
  | nil => simp [Datum.WFAll]
  | cons d l ih => simp [Datum.WFAll, ih]
@[simp] theorem StandardAll_iff [Target] (l : List Datum) : Datum.StandardAll l ↔ ∀ d ∈ l, d.Standard := by
  induction l with
  | nil => simp [Datum.StandardAll]
  | cons d l ih => simp [Datum.StandardAll, ih]
@[simp] theorem FitsAll_iff [Target] (l : List Datum) : Datum.FitsAll l ↔ ∀ d ∈ l, d.Fits := by
  induction l with
  | nil => simp [Datum.FitsAll]
  | cons d l ih => simp [Datum.FitsAll, ih]

theorem sizes_allOf [Target] {T : Ty} {l : List Datum} (h : Datum.AllOf T l) : Datum.sizes l = T.size * l.length := by
  induction l with
  | nil => simp [Datum.sizes]
  | cons d l ih =>
    have h1 := (h d (by simp)).2
    have h2 := ih fun x hx => h x (by simp [hx])
    simp only [Datum.sizes, List.map_cons, List.sum_cons, List.length_cons] at *
    rw [h1, h2, Nat.mul_add]; omega

/-- Main statement for a value. -/
def Accounted [Target] (d : Datum) : Prop :=
  ∀ u, d.value.visit.heap u + d.missed + (if u then d.hidden else 0) = (if u then d.size else 0) + d.heapBytes

/-- From the body of a value that enters itself. -/
theorem accounted_self [Target] {d : Datum} {k n e} {body : Obj} (hv : d.value.visit = Visit.enter k n e body) (hn : d.size = n)
    (ho : d.isOpaque = false) (h : body.heap false + d.missed = d.heapBytes) : Accounted d := by
  intro u
  rw [hv, heap_enter, hn]
  simp only [Datum.hidden, ho]
  cases u <;> simp <;> omega

theorem accounted_each [Target] {items : List Datum} (h : ∀ d ∈ items, Accounted d) (u : Bool) :
    (Visit.each (Datum.values items)).heap u + Datum.missedAll u items = (if u then Datum.sizes items else 0) + Datum.heapBytesAll items := by
  induction items with
  | nil => simp [Visit.each, Datum.values, Obj.concat, Datum.missedAll, Datum.sizes, Datum.heapBytesAll]
  | cons d l ih =>
    have h1 := h d (by simp) u
    have h2 := ih fun x hx => h x (by simp [hx])
    simp only [Visit.each, Datum.values, List.map_cons, Obj.concat, heap_append, Datum.missedAll, Datum.sizes, List.sum_cons,
      Datum.heapBytesAll] at *
    cases u <;> simp at * <;> omega

/-- Fields visited with `visit_field` under one key. -/
theorem accounted_fields [Target] {items : List Datum} (h : ∀ d ∈ items, Accounted d) (k : Key) (u : Bool) :
    (Obj.concat ((Datum.values items).map fun v => Visit.field k v)).heap u + Datum.missedAll false items =
      (if u then Datum.sizes items else 0) + Datum.heapBytesAll items := by
  induction items with
  | nil => simp [Datum.values, Obj.concat, Datum.missedAll, Datum.sizes, Datum.heapBytesAll]
  | cons d l ih =>
    have h1 := h d (by simp) false
    have h2 := ih fun x hx => h x (by simp [hx])
    simp only [Datum.values, List.map_cons, Obj.concat, heap_append, heap_field, Datum.missedAll, Datum.sizes, List.sum_cons,
      Datum.heapBytesAll, Datum.size] at *
    cases u <;> simp at * <;> omega

theorem accounted_tuple [Target] {items : List Datum} (h : ∀ d ∈ items, Accounted d) (i : Nat) :
    (Obj.concat ((tupleLabels i (Datum.values items)).map fun f => Visit.field (Key.new f.1) f.2)).heap false + Datum.missedAll false items =
      Datum.heapBytesAll items := by
  induction items generalizing i with
  | nil => simp [Datum.values, tupleLabels, Obj.concat, Datum.missedAll, Datum.heapBytesAll]
  | cons d l ih =>
    have h1 := h d (by simp) false
    have h2 := ih (fun x hx => h x (by simp [hx])) (i + 1)
    simp only [Datum.values, tupleLabels, List.map_cons, Obj.concat, heap_append, heap_field, Datum.missedAll, Datum.heapBytesAll] at *
    simp at *; omega

theorem accounted_map [Target] {keys values : List Datum} (h1 : ∀ d ∈ keys, Accounted d) (h2 : ∀ d ∈ values, Accounted d)
    (hl : keys.length = values.length) (a b : Key) :
    (Obj.concat (((Datum.values keys).zip (Datum.values values)).map fun e => (Visit.field a e.1).append (Visit.field b e.2))).heap false +
      (Datum.missedAll false keys + Datum.missedAll false values) = Datum.heapBytesAll keys + Datum.heapBytesAll values := by
  induction keys generalizing values with
  | nil =>
    cases values with
    | nil => simp [Datum.values, Obj.concat, Datum.missedAll, Datum.heapBytesAll]
    | cons => simp at hl
  | cons k ks ih =>
    cases values with
    | nil => simp at hl
    | cons v vs =>
      have e1 := h1 k (by simp) false
      have e2 := h2 v (by simp) false
      have e3 := ih (values := vs) (fun x hx => h1 x (by simp [hx])) (fun x hx => h2 x (by simp [hx])) (by simpa using hl)
      simp only [Datum.values, List.zip_cons_cons, List.map_cons, Obj.concat, heap_append, heap_field, Datum.missedAll, Datum.heapBytesAll] at *
      simp at *; omega

theorem accounted_derived [Target] {items : List Datum} (h : ∀ d ∈ items, Accounted d) {labels : List (Str × Bool)} (hl : labels.length = items.length) :
    (Visit.derivedFields labels (Datum.values items)).heap false + Datum.missedFields labels items = Datum.heapBytesAll items := by
  induction items generalizing labels with
  | nil => cases labels <;> simp [Datum.values, Visit.derivedFields, Datum.missedFields, Datum.heapBytesAll] at *
  | cons d l ih =>
    cases labels with
    | nil => simp at hl
    | cons lb ls =>
      obtain ⟨lbl, sk⟩ := lb
      have h1 := h d (by simp) false
      have h2 := ih (fun x hx => h x (by simp [hx])) (labels := ls) (by simpa using hl)
      simp only [Datum.values, Visit.derivedFields, heap_append, Datum.missedFields, Datum.heapBytesAll] at *
      cases sk <;> simp at * <;> omega

/-- `visit_slice`/`visit_iter` behind a unique pointer. -/
theorem accounted_iter [Target] {T : Ty} {items : List Datum} (h : ∀ d ∈ items, Accounted d) (ht : Datum.AllOf T items) (hb : T.size * items.length < Usize.modulus) :
    (Visit.iter T (Datum.values items)).heap true +
      (if T.needsDrop = true ∧ T.size ≠ 0 then Datum.missedAll true items else Datum.heapBytesAll items) =
      T.size * items.length + Datum.heapBytesAll items := by
  unfold Visit.iter
  by_cases hc : T.needsDrop = true ∧ T.size ≠ 0
  · have : (!T.needsDrop || T.size == 0) = false := by simp [hc.1, hc.2]
    rw [this, if_pos hc]
    have := accounted_each h true
    simp only [if_true, sizes_allOf ht] at this
    simpa using this
  · have : (!T.needsDrop || T.size == 0) = true := by
      cases hn : T.needsDrop <;> simp [hn] at hc ⊢; exact hc
    rw [this, if_neg hc]
    simp [Usize.mul_eq hb]

/-- `visit_iter` not behind a unique pointer. -/
theorem accounted_iter_inline [Target] {T : Ty} {items : List Datum} (h : ∀ d ∈ items, Accounted d) :
    (Visit.iter T (Datum.values items)).heap false +
      (if T.needsDrop = true ∧ T.size ≠ 0 then Datum.missedAll false items else Datum.heapBytesAll items) = Datum.heapBytesAll items := by
  unfold Visit.iter
  by_cases hc : T.needsDrop = true ∧ T.size ≠ 0
  · have : (!T.needsDrop || T.size == 0) = false := by simp [hc.1, hc.2]
    rw [this, if_pos hc]
    have := accounted_each h false
    simpa using this
  · have : (!T.needsDrop || T.size == 0) = true := by
      cases hn : T.needsDrop <;> simp [hn] at hc ⊢; exact hc
    rw [this, if_neg hc]
    simp

/-- Keys and values behind a unique pointer. -/
theorem accounted_map_unique [Target] {keys values : List Datum} (h1 : ∀ d ∈ keys, Accounted d) (h2 : ∀ d ∈ values, Accounted d)
    (hl : keys.length = values.length) (a b : Key) :
    (Obj.concat (((Datum.values keys).zip (Datum.values values)).map fun e => (Visit.field a e.1).append (Visit.field b e.2))).heap true +
      (Datum.missedAll false keys + Datum.missedAll false values) =
      Datum.sizes keys + Datum.sizes values + (Datum.heapBytesAll keys + Datum.heapBytesAll values) := by
  induction keys generalizing values with
  | nil =>
    cases values with
    | nil => simp [Datum.values, Obj.concat, Datum.missedAll, Datum.heapBytesAll, Datum.sizes]
    | cons => simp at hl
  | cons k ks ih =>
    cases values with
    | nil => simp at hl
    | cons v vs =>
      have e1 := h1 k (by simp) false
      have e2 := h2 v (by simp) false
      have e3 := ih (values := vs) (fun x hx => h1 x (by simp [hx])) (fun x hx => h2 x (by simp [hx])) (by simpa using hl)
      simp only [Datum.values, List.zip_cons_cons, List.map_cons, Obj.concat, heap_append, heap_field, Datum.missedAll, Datum.heapBytesAll,
        Datum.sizes, List.sum_cons, Datum.size] at *
      simp at *; omega

theorem heap_rawTable [Target] (len : Nat) (h : tableBytes ptrBytes len < Usize.modulus) (u : Bool) :
    (Impl.addRawTableForLen Impl.usize len).heap u = tableBytes ptrBytes len := by
  unfold Impl.addRawTableForLen
  by_cases h0 : len = 0
  · simp [h0, tableBytes]
  · have : (len != 0) = true := by simp [h0]
    simp only [this, if_true, heap_enterUnique, heap_simple]
    exact rawTable_eq Impl.usize len h

theorem foldl_add [Target] {chunks : List Nat} : ∀ {a : Nat}, a + chunks.sum < Usize.modulus → chunks.foldl Usize.add a = a + chunks.sum := by
  induction chunks with
  | nil => intro a _; rfl
  | cons c l ih =>
    intro a h
    simp only [List.sum_cons, List.foldl_cons] at *
    rw [Usize.add_eq (by omega), ih (by omega)]
    omega

theorem mul_le_cap {a b c : Nat} (h : b ≤ c) : a * b ≤ c * a := by
  rw [Nat.mul_comm c a]; exact Nat.mul_le_mul_left a h

theorem cap_split {len cap size : Nat} (h : len ≤ cap) : size * len + (cap - len) * size = cap * size := by
  rw [Nat.mul_comm (cap - len), ← Nat.mul_add, Nat.mul_comm cap]; congr 1; omega

theorem cap_split2 {a b cap size : Nat} (h : a + b ≤ cap) : size * a + size * b + (cap - (a + b)) * size = cap * size := by
  rw [← Nat.mul_add]; exact cap_split h

mutual
theorem accounted [Target] : (d : Datum) → d.WF → Accounted d
  | .plain self, _ => accounted_self (d := .plain self) rfl rfl rfl rfl
  | .hollow self owned, _ => by
    intro u
    simp [Datum.value, Impl.empty, Impl.sized, Datum.missed, Datum.hidden, Datum.isOpaque, Datum.heapBytes]
    cases u <;> simp
    omega
  | .str self len, _ => accounted_self (d := .str self len) rfl rfl rfl rfl
  | .osStr self len, _ => accounted_self (d := .osStr self len) rfl rfl rfl rfl
  | .box self ptrSize v, h => accounted_self (d := .box self ptrSize v) rfl rfl rfl (by
      have := accounted v h true
      simp only [heap_enterUnique, Datum.missed, Datum.heapBytes] at *
      simp at this; omega)
  | .ok self v, h => accounted_self (d := .ok self v) rfl rfl rfl (by
      have := accounted v h false
      simp [Datum.missed, Datum.heapBytes] at *; exact this)
  | .err self v, h => accounted_self (d := .err self v) rfl rfl rfl (by
      have := accounted v h false
      simp [Datum.missed, Datum.heapBytes] at *; exact this)
  | .none self, _ => accounted_self (d := .none self) rfl rfl rfl rfl
  | .some self v, h => accounted_self (d := .some self v) rfl rfl rfl (by
      have := accounted v h false
      simp [Datum.missed, Datum.heapBytes] at *; exact this)
  | .left self v, h => accounted_self (d := .left self v) rfl rfl rfl (by
      have := accounted v h false
      simp [Datum.missed, Datum.heapBytes] at *; exact this)
  | .right self v, h => accounted_self (d := .right self v) rfl rfl rfl (by
      have := accounted v h false
      simp [Datum.missed, Datum.heapBytes] at *; exact this)
  | .vec self T items capacity, h => by
    obtain ⟨ht, hl, hc, hb, hw⟩ := h
    refine accounted_self (d := .vec self T items capacity) rfl rfl rfl ?_
    have hle := mul_le_cap (a := T.size) hl
    have := accounted_iter (accountedAll items hw) ht (by omega)
    have hs := cap_split (size := T.size) hl
    simp only [Datum.missed, Datum.heapBytes]
    by_cases hz : (capacity != 0 && T.size != 0) = true
    · simp only [hz, if_true, heap_enterUnique, heap_append, heap_simple, Visit.slice, values_length]
      rw [Usize.sub_eq hl hc, Usize.mul_eq (by omega)]
      omega
    · simp only [hz]
      by_cases h0 : T.size = 0
      · simp [h0]
      · have h0' : capacity = 0 := by simpa [h0] using hz
        have : items = [] := List.length_eq_zero_iff.1 (by omega)
        subst this
        simp [h0', Datum.missedAll, Datum.heapBytesAll]
  | .vecDeque self T front back capacity, h => by
    obtain ⟨ht, ht', hl, hc, hb, hw, hw'⟩ := h
    refine accounted_self (d := .vecDeque self T front back capacity) rfl rfl rfl ?_
    have hle := mul_le_cap (a := T.size) hl
    rw [Nat.mul_add] at hle
    have := accounted_iter (accountedAll front hw) ht (by omega)
    have := accounted_iter (accountedAll back hw') ht' (by omega)
    have hs := cap_split2 (size := T.size) hl
    simp only [Datum.missed, Datum.heapBytes]
    by_cases hz : (capacity != 0 && T.size != 0) = true
    · simp only [hz, if_true, heap_enterUnique, heap_append, heap_simple, Visit.slice, values_length]
      rw [Usize.sub_eq hl hc, Usize.mul_eq (by omega)]
      by_cases hcond : T.needsDrop = true ∧ T.size ≠ 0
      · rw [if_pos hcond] at *; omega
      · rw [if_neg hcond] at *; omega
    · simp only [hz]
      by_cases h0 : T.size = 0
      · simp [h0]
      · have h0' : capacity = 0 := by simpa [h0] using hz
        have : front = [] := List.length_eq_zero_iff.1 (by omega)
        subst this
        have : back = [] := List.length_eq_zero_iff.1 (by simp at hl; omega)
        subst this
        simp [h0', Datum.missedAll, Datum.heapBytesAll]
  | .string self len capacity, h => by
    obtain ⟨hl, hc⟩ := h
    refine accounted_self (d := .string self len capacity) rfl rfl rfl ?_
    simp only [heap_enterUnique, Visit.vecLikeBody, Visit.fieldWith, heap_enter, heap_append, Visit.slice, Visit.iter, Impl.u8, Datum.missed,
      Datum.heapBytes]
    simp [Usize.mul_eq (a := 1) (b := capacity) (by omega)]
  | .pathBuf self len capacity, h => by
    obtain ⟨hl, hc⟩ := h
    refine accounted_self (d := .pathBuf self len capacity) rfl rfl rfl ?_
    simp only [Datum.missed, Datum.heapBytes]
    by_cases hz : (capacity != 0) = true
    · simp only [hz, if_true, heap_enterUnique, heap_append, heap_simple]
      rw [Usize.sub_eq hl hc]; omega
    · simp at hz; simp [hz]
  | .compactString self heapAllocated len capacity, h => by
    obtain ⟨hl, hc⟩ := h
    refine accounted_self (d := .compactString self heapAllocated len capacity) rfl rfl rfl ?_
    simp only [Datum.missed, Datum.heapBytes]
    cases heapAllocated
    · simp
    · simp only [if_true, heap_enterUnique, heap_append, heap_simple]
      rw [Usize.sub_eq hl hc]; omega
  | .slice self T items, h => accounted_self (d := .slice self T items) rfl (by simp [Datum.size, Datum.value, Impl.slice]) rfl (by
      simpa [Datum.missed, Datum.heapBytes] using accounted_fields (accountedAll items h.2.2) dataName false)
  | .array self T items, h => by
    obtain ⟨ht, hs, hb, hw⟩ := h
    refine accounted_self (d := .array self T items) rfl ?_ rfl ?_
    · simp only [Datum.size, Datum.value, Impl.array, Impl.sized, values_length]
      rw [Usize.mul_eq (by omega)]; exact hs
    · simpa [Datum.missed, Datum.heapBytes] using accounted_fields (accountedAll items hw) dataName false
  | .tuple self fields, h => accounted_self (d := .tuple self fields) rfl rfl rfl (by
      simpa [Datum.missed, Datum.heapBytes] using accounted_tuple (accountedAll fields h) 0)
  | .manuallyDrop self v, h => accounted_self (d := .manuallyDrop self v) rfl rfl rfl (by
      have := accounted v h false
      simp [Datum.missed, Datum.heapBytes] at *; exact this)
  | .cell self accessible v, h => by
    refine accounted_self (d := .cell self accessible v) rfl rfl rfl ?_
    have := accounted v h false
    cases accessible
    · simp [Datum.missed, Datum.heapBytes]
    · simp [Datum.missed, Datum.heapBytes] at *; exact this
  | .cellEmpty self, _ => accounted_self (d := .cellEmpty self) rfl rfl rfl rfl
  | .onceCell self v, h => accounted_self (d := .onceCell self v) rfl rfl rfl (by
      have := accounted v h false
      simp [Datum.missed, Datum.heapBytes] at *; exact this)
  | .map self table keys values, h => by
    obtain ⟨hl, hk, hv⟩ := h
    refine accounted_self (d := .map self table keys values) rfl rfl rfl ?_
    have := accounted_map (accountedAll keys hk) (accountedAll values hv) hl keyName valueName
    simp only [Visit.genericMapFields, Visit.fieldWith, heap_enter, Datum.missed, Datum.heapBytes]
    simp; omega
  | .set self table items, h => by
    refine accounted_self (d := .set self table items) rfl rfl rfl ?_
    have := accounted_fields (accountedAll items h) keyName false
    simp only [Visit.genericSetFields, Visit.fieldWith, heap_enter, Datum.missed, Datum.heapBytes]
    simp at *; omega
  | .smallVecInline self T items, h => accounted_self (d := .smallVecInline self T items) rfl rfl rfl (by
      simpa [Datum.missed, Datum.heapBytes] using accounted_fields (accountedAll items h.2) dataName false)
  | .smallVecSpilled self T items capacity, h => by
    obtain ⟨ht, hl, hw⟩ := h
    refine accounted_self (d := .smallVecSpilled self T items capacity) rfl rfl rfl ?_
    have := accounted_fields (accountedAll items hw) dataName true
    have hs := cap_split (size := T.size) hl
    simp only [sizes_allOf ht, if_true] at this
    simp only [if_true, heap_enterUnique, Datum.missed, Datum.heapBytes]
    omega
  | .slab self T entry items capacity, h => by
    obtain ⟨ht, hl, hc, he, hb, hw⟩ := h
    refine accounted_self (d := .slab self T entry items capacity) rfl rfl rfl ?_
    have hle := mul_le_cap (a := T.size) hl
    have hce : capacity * T.size ≤ capacity * entry := Nat.mul_le_mul_left _ he
    have := accounted_iter (accountedAll items hw) ht (by omega)
    have hs := cap_split (size := T.size) hl
    have hm : capacity * (entry - T.size) + capacity * T.size = capacity * entry := by rw [← Nat.mul_add]; congr 1; omega
    simp only [Datum.missed, Datum.heapBytes]
    by_cases hz : (capacity != 0 && T.size != 0) = true
    · simp only [hz, if_true, heap_enterUnique, heap_append, heap_simple, Visit.slice, values_length]
      rw [Usize.sub_eq hl hc, Usize.mul_eq (by omega)]
      omega
    · simp only [hz]
      by_cases h0 : T.size = 0
      · simp [h0]
      · have h0' : capacity = 0 := by simpa [h0] using hz
        have : items = [] := List.length_eq_zero_iff.1 (by omega)
        subst this
        simp [h0', Datum.missedAll, Datum.heapBytesAll]
  | .arc self ptrSize ptr, _ => accounted_self (d := .arc self ptrSize ptr) rfl rfl rfl rfl
  | .weakDangling self, _ => accounted_self (d := .weakDangling self) rfl rfl rfl rfl
  | .weak self strong ptrSize ptr, _ => accounted_self (d := .weak self strong ptrSize ptr) rfl rfl rfl (by
      simp [Impl.arc, Impl.sized, Visit.enterSelfSized, Obj.heap, Datum.missed, Datum.heapBytes])
  | .struct self size labels fields, h => accounted_self (d := .struct self size labels fields) rfl rfl rfl (by
      simpa [Datum.missed, Datum.heapBytes] using accounted_derived (accountedAll fields h.2) h.1)
  | .enum self variant labels fields, h => accounted_self (d := .enum self variant labels fields) rfl rfl rfl (by
      simpa [Datum.missed, Datum.heapBytes] using accounted_derived (accountedAll fields h.2) h.1)
  | .onceCellEmpty self, _ => accounted_self (d := .onceCellEmpty self) rfl rfl rfl rfl
  | .hashTable self T items capacity table, h => by
    obtain ⟨ht, hl, hb, hc, hw⟩ := h
    refine accounted_self (d := .hashTable self T items capacity table) rfl rfl rfl ?_
    have := accounted_iter_inline (T := T) (accountedAll items hw)
    simp only [heap_enterUnique, heap_enter, if_true, Datum.missed, Datum.heapBytes, rawTable_eq T capacity (by omega)]
    omega
  | .indexSet self T items capacity bucket table, h => by
    obtain ⟨ht, hl, hc, he, hb, htb, htc, hw⟩ := h
    refine accounted_self (d := .indexSet self T items capacity bucket table) rfl rfl rfl ?_
    have hle := mul_le_cap (a := T.size) hl
    have hce : capacity * T.size ≤ capacity * bucket := Nat.mul_le_mul_left _ he
    have hs := cap_split (size := T.size) hl
    have hm : capacity * (bucket - T.size) + capacity * T.size = capacity * bucket := by rw [← Nat.mul_add]; congr 1; omega
    have := accounted_fields (accountedAll items hw) (Key.new (ascii "value")) true
    simp only [sizes_allOf ht, if_true] at this
    simp only [heap_append, heap_enterUnique, heap_simple, if_true, Datum.missed, Datum.heapBytes, values_length, heap_rawTable _ (Nat.lt_of_le_of_lt htb htc)]
    rw [Usize.sub_eq hl hc, Usize.mul_eq (by omega)]
    omega
  | .indexMap self K V KV keys values capacity bucket table, h => by
    obtain ⟨hk, hv, hlen, hl, hc, hkv, he, hb, htb, htc, hwk, hwv⟩ := h
    refine accounted_self (d := .indexMap self K V KV keys values capacity bucket table) rfl rfl rfl ?_
    have hce : capacity * KV.size ≤ capacity * bucket := Nat.mul_le_mul_left _ he
    have hs := cap_split (size := bucket) hl
    rw [Nat.mul_comm bucket] at hs
    have hle := mul_le_cap (a := KV.size) hl
    have hs' := cap_split (size := KV.size) hl
    have h1 : keys.length * (bucket - (K.size + V.size)) + keys.length * (K.size + V.size) = keys.length * bucket := by
      rw [← Nat.mul_add]; congr 1; omega
    have h2 : (capacity - keys.length) * (bucket - KV.size) + (capacity - keys.length) * KV.size = (capacity - keys.length) * bucket := by
      rw [← Nat.mul_add]; congr 1; omega
    have := accounted_map_unique (accountedAll keys hwk) (accountedAll values hwv) hlen (Key.new (ascii "key")) (Key.new (ascii "value"))
    rw [sizes_allOf hk, sizes_allOf hv, ← hlen] at this
    have hz : ((Datum.values keys).zip (Datum.values values)).length = keys.length := by simp [hlen]
    have h3 : keys.length * (K.size + V.size) = K.size * keys.length + V.size * keys.length := by rw [Nat.mul_comm, Nat.add_mul]
    simp only [heap_append, heap_enterUnique, heap_simple, if_true, Datum.missed, Datum.heapBytes, hz, heap_rawTable _ (Nat.lt_of_le_of_lt htb htc)]
    rw [Usize.sub_eq hl hc, Usize.mul_eq (by omega)]
    omega
  | .dashMap self K V KV capacity keys values capacityLater len table, h => by
    obtain ⟨hk, hv, hlen, hkv, hb, hc, hu, hwk, hwv⟩ := h
    refine accounted_self (d := .dashMap self K V KV capacity keys values capacityLater len table) rfl rfl rfl ?_
    have := accounted_map (accountedAll keys hwk) (accountedAll values hwv) hlen keyName valueName
    simp only [heap_append, heap_enterUnique, heap_enter, heap_simple, if_true, Datum.missed, Datum.heapBytes]
    rw [Usize.mul_eq (a := capacity) (by omega)]
    simp; omega
  | .dashSet self T capacity items capacityLater len table, h => by
    obtain ⟨ht, hb, hc, hu, hw⟩ := h
    refine accounted_self (d := .dashSet self T capacity items capacityLater len table) rfl rfl rfl ?_
    have := accounted_fields (accountedAll items hw) dataName false
    simp only [heap_append, heap_enterUnique, heap_enter, heap_simple, if_true, Datum.missed, Datum.heapBytes]
    rw [Usize.mul_eq (a := capacity) (by omega)]
    simp at *; omega
  | .bigInt self digits heap, h => by
    obtain ⟨h1, h2⟩ := h
    refine accounted_self (d := .bigInt self digits heap) rfl rfl rfl ?_
    simp only [heap_enterUnique, heap_simple, if_true, Datum.missed, Datum.heapBytes]
    rw [Usize.mul_eq (by omega)]; omega
  | .bump self allocated chunks heap, h => by
    obtain ⟨h1, h2, h3⟩ := h
    refine accounted_self (d := .bump self allocated chunks heap) rfl rfl rfl ?_
    simp only [heap_enterUnique, heap_append, heap_simple, if_true, Datum.missed, Datum.heapBytes]
    rw [foldl_add (by omega), Nat.zero_add, Usize.sub_eq h1 (by omega)]; omega
  | .jsonMap self table keys values, h => by
    obtain ⟨hl, hs, hk, hv⟩ := h
    refine accounted_self (d := .jsonMap self table keys values) rfl rfl rfl ?_
    have := accounted_map_unique (accountedAll keys hk) (accountedAll values hv) hl (Key.new (ascii "key")) (Key.new (ascii "value"))
    simp only [heap_enterUnique, Datum.missed, Datum.heapBytes]
    omega
  | .jsonLeaf self, _ => accounted_self (d := .jsonLeaf self) rfl rfl rfl rfl
  | .json self variant v, h => accounted_self (d := .json self variant v) rfl rfl rfl (by
      have := accounted v h false
      simp [Datum.missed, Datum.heapBytes] at *; exact this)
  | .futuresPending self, _ => accounted_self (d := .futuresPending self) rfl rfl rfl rfl
  | .futuresShared self ptr, _ => accounted_self (d := .futuresShared self ptr) rfl rfl rfl rfl
  | .headerSlice self sizeOfVal header tail, h => accounted_self (d := .headerSlice self sizeOfVal header tail) rfl rfl rfl (by
      have h1 := accounted header h.1 false
      have h2 := accounted tail h.2 false
      simp [Datum.missed, Datum.heapBytes] at *; omega)
  | .headerWithLength self header len, h => accounted_self (d := .headerWithLength self header len) rfl rfl rfl (by
      have h1 := accounted header h.1 false
      have h2 := accounted len h.2 false
      simp [Datum.missed, Datum.heapBytes] at *; omega)
  | .unit self size owned, _ => accounted_self (d := .unit self size owned) rfl rfl rfl (by simp [Datum.missed, Datum.heapBytes])
theorem accountedAll [Target] : (l : List Datum) → Datum.WFAll l → ∀ d ∈ l, Accounted d
  | [], _ => by simp
  | d :: l, h => by
    intro x hx
    rcases List.mem_cons.1 hx with hx | hx
    · rw [hx]; exact accounted d h.1
    · exact accountedAll l h.2 x hx
end

end Allocative
