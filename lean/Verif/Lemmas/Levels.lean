import Verif.Spec.Memory
import Verif.Lemmas.Report
set_option linter.unusedSimpArgs false
/-
Records at the same depth are about disjoint memory: for every depth, the sizes declared there sum to at most the memory of the value.
-/
namespace Allocative

/-- Sum of the sizes declared at stacks of length `n`. -/
def levelAt (recs : List Rec) (n : Nat) : Nat := (recs.map fun r => if r.path.length = n then r.size else 0).sum

@[simp] theorem levelAt_nil (n : Nat) : levelAt [] n = 0 := rfl
theorem levelAt_cons (r : Rec) (rs : List Rec) (n : Nat) : levelAt (r :: rs) n = (if r.path.length = n then r.size else 0) + levelAt rs n := by
  simp [levelAt]
theorem levelAt_append (a b : List Rec) (n : Nat) : levelAt (a ++ b) n = levelAt a n + levelAt b n := by
  simp [levelAt, List.sum_append]

/-- Below depth `c` nothing, and at most `M` at every depth. -/
def Lev (c M : Nat) (recs : List Rec) : Prop := ∀ n, levelAt recs n ≤ M ∧ (n ≤ c → levelAt recs n = 0)

theorem Lev.nil {c M : Nat} : Lev c M [] := fun n => by simp
theorem Lev.mono {c A B : Nat} {a : List Rec} (h : Lev c A a) (hab : A ≤ B) : Lev c B a := fun n => ⟨Nat.le_trans (h n).1 hab, (h n).2⟩
theorem Lev.cons {c M : Nat} {r : Rec} {rs : List Rec} (hr : r.path.length = c + 1) (hs : r.size ≤ M) (h : Lev (c + 1) M rs) : Lev c M (r :: rs) := by
  intro n
  have := h n
  rw [levelAt_cons, hr]
  constructor
  · split
    · rename_i e; rw [this.2 (by omega)]; omega
    · omega
  · intro hn
    rw [if_neg (by omega), this.2 (by omega)]
theorem Lev.append {c A B M : Nat} {a b : List Rec} (h : Lev c A a) (h' : Lev c B b) (hm : A + B ≤ M) : Lev c M (a ++ b) := by
  intro n
  have := h n
  have := h' n
  rw [levelAt_append]
  exact ⟨by omega, by intro hn; omega⟩

theorem Lev.leaf {c M : Nat} {r : Rec} (hr : r.path.length = c + 1) (hs : r.size ≤ M) : Lev c M [r] := .cons hr hs .nil

@[simp] theorem inl_path (p n) : (inl p n).path = p := rfl
@[simp] theorem inl_size (p n) : (inl p n).size = n := rfl
@[simp] theorem uniq_path (p n) : (uniq p n).path = p := rfl
@[simp] theorem uniq_size (p n) : (uniq p n).size = n := rfl

/-- What is to be shown for a value: the sizes at each depth sum to at most its memory. -/
def Level [Target] (d : Datum) : Prop := ∀ cur : Path, Lev cur.length d.footprint (d.report cur)

theorem Level.at [Target] {d : Datum} (h : Level d) {cur : Path} {c M : Nat} (hc : cur.length = c) (hM : d.size + d.heapBytes ≤ M) : Lev c M (d.report cur) := by
  subst hc; exact (h cur).mono hM

theorem heapBytesAll_cons [Target] (d : Datum) (l : List Datum) : Datum.heapBytesAll (d :: l) = d.heapBytes + Datum.heapBytesAll l := rfl
theorem sizes_cons [Target] (d : Datum) (l : List Datum) : Datum.sizes (d :: l) = d.size + Datum.sizes l := by simp [Datum.sizes]

theorem level_each [Target] {items : List Datum} (h : ∀ d ∈ items, Level d) {cur : Path} {c M : Nat} (hc : cur.length = c)
    (hM : Datum.sizes items + Datum.heapBytesAll items ≤ M) : Lev c M ((Datum.parts items).flatMap fun x => x.report cur) := by
  induction items generalizing M with
  | nil => exact .nil
  | cons d l ih =>
    rw [sizes_cons, heapBytesAll_cons] at hM
    simp only [Datum.parts, List.flatMap_cons]
    exact ((h d (by simp)).at hc (Nat.le_refl _)).append (ih (fun x hx => h x (by simp [hx])) (Nat.le_refl _)) (by omega)

theorem level_elements [Target] {T : Ty} {items : List Datum} (h : ∀ d ∈ items, Level d) (ht : Datum.AllOf T items) {cur : Path} {c M : Nat} (hc : cur.length = c)
    (hM : T.size * items.length + Datum.heapBytesAll items ≤ M) : Lev c M (reportElements T (Datum.parts items) cur) := by
  unfold reportElements
  split
  · exact level_each h hc (by rw [sizes_allOf ht]; exact hM)
  · exact .leaf (by simp [hc]) (by simp; omega)

theorem level_field [Target] {d : Datum} (h : Level d) (k : Key) {cur : Path} {c M : Nat} (hc : cur.length = c) (hM : d.size + d.heapBytes ≤ M) :
    Lev c M (reportField k ⟨d.size, d.report⟩ cur) :=
  .cons (by simp [hc]) (by simp; omega) (h.at (by simp [hc]) hM)

theorem level_fields [Target] {items : List Datum} (h : ∀ d ∈ items, Level d) (k : Key) {cur : Path} {c M : Nat} (hc : cur.length = c)
    (hM : Datum.sizes items + Datum.heapBytesAll items ≤ M) : Lev c M (reportFields k (Datum.parts items) cur) := by
  unfold reportFields
  induction items generalizing M with
  | nil => exact .nil
  | cons d l ih =>
    rw [sizes_cons, heapBytesAll_cons] at hM
    simp only [Datum.parts, List.flatMap_cons]
    exact (level_field (h d (by simp)) k hc (Nat.le_refl _)).append (ih (fun x hx => h x (by simp [hx])) (Nat.le_refl _)) (by omega)

theorem level_tuple [Target] {items : List Datum} (h : ∀ d ∈ items, Level d) (i : Nat) {cur : Path} {c M : Nat} (hc : cur.length = c)
    (hM : Datum.sizes items + Datum.heapBytesAll items ≤ M) : Lev c M (reportTuple i (Datum.parts items) cur) := by
  induction items generalizing M i with
  | nil => exact .nil
  | cons d l ih =>
    rw [sizes_cons, heapBytesAll_cons] at hM
    simp only [Datum.parts, reportTuple]
    exact (level_field (h d (by simp)) _ hc (Nat.le_refl _)).append (ih (fun x hx => h x (by simp [hx])) (i + 1) (Nat.le_refl _)) (by omega)

theorem level_pairs [Target] {keys values : List Datum} (h : ∀ d ∈ keys, Level d) (h' : ∀ d ∈ values, Level d) {cur : Path} {c M : Nat}
    (hc : cur.length = c) (hM : Datum.sizes keys + Datum.sizes values + (Datum.heapBytesAll keys + Datum.heapBytesAll values) ≤ M) :
    Lev c M (reportPairs (Datum.parts keys) (Datum.parts values) cur) := by
  unfold reportPairs
  induction keys generalizing M values with
  | nil => exact .nil
  | cons d l ih =>
    cases values with
    | nil => simp only [Datum.parts, List.zip_nil_right, List.flatMap_nil]; exact .nil
    | cons v vs =>
      rw [sizes_cons, heapBytesAll_cons, sizes_cons, heapBytesAll_cons] at hM
      simp only [Datum.parts, List.zip_cons_cons, List.flatMap_cons]
      exact ((level_field (h d (by simp)) _ hc (Nat.le_refl _)).append (level_field (h' v (by simp)) _ hc (Nat.le_refl _)) (Nat.le_refl _)).append
        (ih (fun x hx => h x (by simp [hx])) (fun x hx => h' x (by simp [hx])) (Nat.le_refl _)) (by omega)

theorem level_derived [Target] {items : List Datum} (h : ∀ d ∈ items, Level d) (labels : List (Str × Bool)) {cur : Path} {c M : Nat}
    (hc : cur.length = c) (hM : Datum.sizes items + Datum.heapBytesAll items ≤ M) : Lev c M (reportDerived labels (Datum.parts items) cur) := by
  unfold reportDerived
  induction items generalizing M labels with
  | nil => simp only [Datum.parts, List.zip_nil_right, List.flatMap_nil]; exact .nil
  | cons d l ih =>
    cases labels with
    | nil => exact .nil
    | cons lb ls =>
      rw [sizes_cons, heapBytesAll_cons] at hM
      simp only [Datum.parts, List.zip_cons_cons, List.flatMap_cons]
      have h1 : Lev c (d.size + d.heapBytes) (if lb.2 = true then [] else reportField (Key.new lb.1) ⟨d.size, d.report⟩ cur) := by
        split
        · exact .nil
        · exact level_field (h d (by simp)) _ hc (Nat.le_refl _)
      exact h1.append (ih (fun x hx => h x (by simp [hx])) ls (Nat.le_refl _)) (by omega)

theorem level_indices [Target] (len : Nat) {cur : Path} {c M : Nat} (hc : cur.length = c) (h8 : ptrBytes ≤ M) (hM : tableBytes ptrBytes len ≤ M) :
    Lev c M (reportIndices len cur) := by
  unfold reportIndices
  split
  · exact .nil
  · exact .cons (by simp [hc]) (by simpa using h8) (.leaf (by simp [hc]) (by simpa using hM))

theorem Datum.footprint_eq [Target] (d : Datum) : d.footprint = d.size + d.heapBytes := rfl

/-- One record for the value itself. -/
theorem level_self [Target] {d : Datum} {self : Ty} {size : Nat} (h : ∀ cur, d.report cur = [inl (cur ++ [ty self]) size]) (hs : size ≤ d.footprint) : Level d := by
  intro cur
  rw [h]
  exact .leaf (by simp) hs

/-- A value below one label. -/
theorem level_one [Target] {d v : Datum} {self : Ty} {k : Key}
    (h : ∀ cur, d.report cur = inl (cur ++ [ty self]) self.size :: inl (cur ++ [ty self, k]) v.size :: v.report (cur ++ [ty self, k]))
    (hs : d.size = self.size) (hh : d.heapBytes = v.heapBytes) (hf : v.size ≤ self.size) (hv : Level v) : Level d := by
  intro cur
  rw [h, Datum.footprint_eq, hs, hh]
  exact .cons (by simp) (by simp) (.cons (by simp) (by simp; omega) (hv.at (by simp) (by omega)))

mutual
theorem level [Target] : (d : Datum) → d.WF → d.InMemory → Level d
  | .plain self, _, _ => level_self (fun _ => rfl) (Nat.le_add_right _ _)
  | .hollow self owned, _, _ => fun _ => .nil
  | .str self len, _, _ => fun cur => .leaf (by simp) (Nat.le_add_right _ _)
  | .osStr self len, _, _ => fun cur => .leaf (by simp) (Nat.le_add_right _ _)
  | .box self ptrSize v, h, hf => fun cur => by
    have h1 := hf.1
    have := level v h hf.2
    simp only [Datum.report, Datum.footprint_eq, show (Datum.box self ptrSize v).size = self.size from rfl,
      show (Datum.box self ptrSize v).heapBytes = v.size + v.heapBytes from rfl]
    exact .cons (by simp) (by simp) (.cons (by simp) (by simp; omega) (this.at (by simp) (by omega)))
  | .ok self v, h, hf => level_one (fun _ => rfl) rfl rfl hf.1 (level v h hf.2)
  | .err self v, h, hf => level_one (fun _ => rfl) rfl rfl hf.1 (level v h hf.2)
  | .none self, _, _ => level_self (fun _ => rfl) (Nat.le_add_right _ _)
  | .some self v, h, hf => level_one (fun _ => rfl) rfl rfl hf.1 (level v h hf.2)
  | .left self v, h, hf => level_one (fun _ => rfl) rfl rfl hf.1 (level v h hf.2)
  | .right self v, h, hf => level_one (fun _ => rfl) rfl rfl hf.1 (level v h hf.2)
  | .vec self T items capacity, h, hf => fun cur => by
    obtain ⟨ht, hl, hc, hb, hw⟩ := h
    have h1 := hf.1
    have hs := cap_split (size := T.size) hl
    simp only [Datum.report, Datum.footprint_eq, show (Datum.vec self T items capacity).size = self.size from rfl,
      show (Datum.vec self T items capacity).heapBytes = capacity * T.size + Datum.heapBytesAll items from rfl]
    refine .cons (by simp) (by simp) ?_
    split
    · exact .nil
    · exact .cons (by simp) (by simp; omega)
        ((level_elements (levelAll items hw hf.2) ht (by simp) (Nat.le_refl _)).append (.leaf (by simp) (Nat.le_refl _)) (by simp; omega))
  | .vecDeque self T front back capacity, h, hf => fun cur => by
    obtain ⟨ht, ht', hl, hc, hb, hw, hw'⟩ := h
    have h1 := hf.1
    have hs := cap_split2 (size := T.size) hl
    simp only [Datum.report, Datum.footprint_eq, show (Datum.vecDeque self T front back capacity).size = self.size from rfl,
      show (Datum.vecDeque self T front back capacity).heapBytes = capacity * T.size + (Datum.heapBytesAll front + Datum.heapBytesAll back) from rfl]
    refine .cons (by simp) (by simp) ?_
    split
    · exact .nil
    · exact .cons (by simp) (by simp; omega)
        (((level_elements (levelAll front hw hf.2.1) ht (by simp) (Nat.le_refl _)).append
          (level_elements (levelAll back hw' hf.2.2) ht' (by simp) (Nat.le_refl _)) (Nat.le_refl _)).append (.leaf (by simp) (Nat.le_refl _)) (by simp; omega))
  | .string self len capacity, h, hf => fun cur => by
    obtain ⟨hl, hc⟩ := h
    have hf : ptrBytes ≤ self.size := hf
    simp only [Datum.report, Datum.footprint_eq, show (Datum.string self len capacity).size = self.size from rfl,
      show (Datum.string self len capacity).heapBytes = capacity from rfl]
    exact .cons (by simp) (by simp) (.cons (by simp) (by simp; omega) (.cons (by simp) (by simp)
      (.append (a := [_]) (.leaf (M := len) (by simp) (by simp)) (.leaf (M := capacity - len) (by simp) (by simp)) (by omega))))
  | .pathBuf self len capacity, h, hf => fun cur => by
    obtain ⟨hl, hc⟩ := h
    have hf : ptrBytes ≤ self.size := hf
    simp only [Datum.report, Datum.footprint_eq, show (Datum.pathBuf self len capacity).size = self.size from rfl,
      show (Datum.pathBuf self len capacity).heapBytes = capacity from rfl]
    refine .cons (by simp) (by simp) ?_
    split
    · exact .nil
    · exact .cons (by simp) (by simp; omega)
        (.append (a := [_]) (.leaf (M := len) (by simp) (by simp)) (.leaf (M := capacity - len) (by simp) (by simp)) (by omega))
  | .compactString self heapAllocated len capacity, h, hf => fun cur => by
    obtain ⟨hl, hc⟩ := h
    have hf : ptrBytes ≤ self.size := hf
    simp only [Datum.report, Datum.footprint_eq, show (Datum.compactString self heapAllocated len capacity).size = self.size from rfl,
      show (Datum.compactString self heapAllocated len capacity).heapBytes = if heapAllocated then capacity else 0 from rfl]
    refine .cons (by simp) (by simp) ?_
    cases heapAllocated
    · exact .nil
    · simp only [if_true]
      exact .cons (by simp) (by simp; omega)
        (.append (a := [_]) (.leaf (M := len) (by simp) (by simp)) (.leaf (M := capacity - len) (by simp) (by simp)) (by omega))
  | .slice self T items, h, hf => fun cur => by
    have hs := sizes_allOf h.1
    have hz : (Datum.slice self T items).size = T.size * items.length := by
      simp only [Datum.size, Datum.value, Impl.slice, values_length]; exact Usize.mul_eq h.2.1
    simp only [Datum.report, Datum.footprint_eq, hz, show (Datum.slice self T items).heapBytes = Datum.heapBytesAll items from rfl]
    exact .cons (by simp) (by simp) (level_fields (levelAll items h.2.2 hf) _ (by simp) (by omega))
  | .array self T items, h, hf => fun cur => by
    obtain ⟨ht, hs', hb, hw⟩ := h
    have hs := sizes_allOf ht
    simp only [Datum.report, Datum.footprint_eq, show (Datum.array self T items).size = self.size from rfl,
      show (Datum.array self T items).heapBytes = Datum.heapBytesAll items from rfl]
    exact .cons (by simp) (by simp; omega) (level_fields (levelAll items hw hf) _ (by simp) (by omega))
  | .tuple self fields, h, hf => fun cur => by
    have h1 := hf.1
    simp only [Datum.report, Datum.footprint_eq, show (Datum.tuple self fields).size = self.size from rfl,
      show (Datum.tuple self fields).heapBytes = Datum.heapBytesAll fields from rfl]
    exact .cons (by simp) (by simp) (level_tuple (levelAll fields h hf.2) _ (by simp) (by omega))
  | .manuallyDrop self v, h, hf => fun cur => by
    have := level v h hf
    simp only [Datum.report, Datum.footprint_eq, show (Datum.manuallyDrop self v).size = v.size from rfl,
      show (Datum.manuallyDrop self v).heapBytes = v.heapBytes from rfl]
    exact .cons (by simp) (by simp) (.cons (by simp) (by simp) (this.at (by simp) (by omega)))
  | .cell self accessible v, h, hf => fun cur => by
    have h1 := hf.1
    have := level v h hf.2
    simp only [Datum.report, Datum.footprint_eq, show (Datum.cell self accessible v).size = self.size from rfl,
      show (Datum.cell self accessible v).heapBytes = v.heapBytes from rfl]
    refine .cons (by simp) (by simp) ?_
    split
    · exact .cons (by simp) (by simp; omega) (this.at (by simp) (by omega))
    · exact .nil
  | .cellEmpty self, _, _ => level_self (fun _ => rfl) (Nat.le_add_right _ _)
  | .onceCell self v, h, hf => fun cur => by
    have h1 := hf.1
    have := level v h hf.2
    simp only [Datum.report, Datum.footprint_eq, show (Datum.onceCell self v).size = self.size from rfl,
      show (Datum.onceCell self v).heapBytes = v.heapBytes from rfl]
    exact .cons (by simp) (by simp) (this.at (by simp) (by omega))
  | .onceCellEmpty self, _, _ => level_self (fun _ => rfl) (Nat.le_add_right _ _)
  | .map self table keys values, h, hf => fun cur => by
    obtain ⟨f1, f2, f3, f4⟩ := hf
    simp only [Datum.report, Datum.footprint_eq, show (Datum.map self table keys values).size = self.size from rfl,
      show (Datum.map self table keys values).heapBytes = table + (Datum.heapBytesAll keys + Datum.heapBytesAll values) from rfl]
    exact .cons (by simp) (by simp) (.cons (by simp) (by simp; omega)
      (level_pairs (levelAll keys h.2.1 f3) (levelAll values h.2.2 f4) (by simp) (by omega)))
  | .set self table items, h, hf => fun cur => by
    obtain ⟨f1, f2, f3⟩ := hf
    simp only [Datum.report, Datum.footprint_eq, show (Datum.set self table items).size = self.size from rfl,
      show (Datum.set self table items).heapBytes = table + Datum.heapBytesAll items from rfl]
    exact .cons (by simp) (by simp) (.cons (by simp) (by simp; omega) (level_fields (levelAll items h f3) _ (by simp) (by omega)))
  | .smallVecInline self T items, h, hf => fun cur => by
    have h1 := hf.1
    simp only [Datum.report, Datum.footprint_eq, show (Datum.smallVecInline self T items).size = self.size from rfl,
      show (Datum.smallVecInline self T items).heapBytes = Datum.heapBytesAll items from rfl]
    exact .cons (by simp) (by simp) (level_fields (levelAll items h.2 hf.2) _ (by simp) (by omega))
  | .smallVecSpilled self T items capacity, h, hf => fun cur => by
    obtain ⟨ht, hl, hw⟩ := h
    have h1 := hf.1
    have hs := sizes_allOf ht
    have hle := mul_le_cap (a := T.size) hl
    simp only [Datum.report, Datum.footprint_eq, show (Datum.smallVecSpilled self T items capacity).size = self.size from rfl,
      show (Datum.smallVecSpilled self T items capacity).heapBytes = capacity * T.size + Datum.heapBytesAll items from rfl]
    exact .cons (by simp) (by simp) (.cons (by simp) (by simp; omega) (level_fields (levelAll items hw hf.2) _ (by simp) (by omega)))
  | .slab self T entry items capacity, h, hf => fun cur => by
    obtain ⟨ht, hl, hc, hen, hb, hw⟩ := h
    have h1 := hf.1
    have hs := cap_split (size := T.size) hl
    have hce : capacity * T.size ≤ capacity * entry := Nat.mul_le_mul_left _ hen
    simp only [Datum.report, Datum.footprint_eq, show (Datum.slab self T entry items capacity).size = self.size from rfl,
      show (Datum.slab self T entry items capacity).heapBytes = capacity * entry + Datum.heapBytesAll items from rfl]
    refine .cons (by simp) (by simp) ?_
    split
    · exact .nil
    · exact .cons (by simp) (by simp; omega)
        ((level_elements (levelAll items hw hf.2) ht (by simp) (Nat.le_refl _)).append (.leaf (by simp) (Nat.le_refl _)) (by simp; omega))
  | .arc self ptrSize ptr, _, hf => fun cur => by
    have hf : ptrSize ≤ self.size := hf
    simp only [Datum.report, Datum.footprint_eq, show (Datum.arc self ptrSize ptr).size = self.size from rfl]
    exact .cons (by simp) (by simp) (.leaf (by simp) (by simp; omega))
  | .weakDangling self, _, _ => level_self (fun _ => rfl) (Nat.le_add_right _ _)
  | .weak self strong ptrSize ptr, _, hf => fun cur => by
    obtain ⟨f1, f2⟩ := hf
    simp only [Datum.report, Datum.footprint_eq, show (Datum.weak self strong ptrSize ptr).size = self.size from rfl]
    exact .cons (by simp) (by simp) (.cons (by simp) (by simp; omega) (.leaf (by simp) (by simp; omega)))
  | .hashTable self T items capacity table, h, hf => fun cur => by
    obtain ⟨ht, hl, hb, hc, hw⟩ := h
    have h1 := hf.1
    have h3 := tableBytes_ge (size := T.size) hl
    simp only [Datum.report, Datum.footprint_eq, show (Datum.hashTable self T items capacity table).size = self.size from rfl,
      show (Datum.hashTable self T items capacity table).heapBytes = table + Datum.heapBytesAll items from rfl]
    exact .cons (by simp) (by simp) (.cons (by simp) (by simp; omega) (.cons (by simp) (by simp; omega)
      (level_elements (levelAll items hw hf.2) ht (by simp) (by omega))))
  | .indexSet self T items capacity bucket table, h, hf => fun cur => by
    obtain ⟨ht, hl, hc, hen, hb, htb, htc, hw⟩ := h
    have h1 := hf.1
    have hs := cap_split (size := T.size) hl
    have hz := sizes_allOf ht
    have hce : capacity * T.size ≤ capacity * bucket := Nat.mul_le_mul_left _ hen
    have htb : tableBytes ptrBytes items.length ≤ table := htb
    simp only [Datum.report, Datum.footprint_eq, show (Datum.indexSet self T items capacity bucket table).size = self.size from rfl,
      show (Datum.indexSet self T items capacity bucket table).heapBytes = capacity * bucket + table + Datum.heapBytesAll items from rfl]
    refine .cons (by simp) (by simp) ?_
    refine .append (A := ptrBytes + capacity * bucket + Datum.heapBytesAll items) (B := ptrBytes + table) ?_ (level_indices _ (by simp) (by omega) (by omega)) (by omega)
    exact .cons (by simp) (by simp; omega) ((level_fields (levelAll items hw hf.2) _ (by simp) (Nat.le_refl _)).append (.leaf (by simp) (Nat.le_refl _)) (by simp; omega))
  | .indexMap self K V KV keys values capacity bucket table, h, hf => fun cur => by
    obtain ⟨hk, hv, hlen, hl, hc, hkv, hen, hb, htb, htc, hwk, hwv⟩ := h
    have h1 := hf.1
    have hs := cap_split (size := KV.size) hl
    have hz := sizes_allOf hk
    have hz' := sizes_allOf hv
    have hce : capacity * KV.size ≤ capacity * bucket := Nat.mul_le_mul_left _ hen
    have hkv' : K.size * keys.length + V.size * keys.length ≤ KV.size * keys.length := by rw [← Nat.add_mul]; exact Nat.mul_le_mul_right _ hkv
    rw [← hlen] at hz'
    have htb : tableBytes ptrBytes keys.length ≤ table := htb
    simp only [Datum.report, Datum.footprint_eq, show (Datum.indexMap self K V KV keys values capacity bucket table).size = self.size from rfl,
      show (Datum.indexMap self K V KV keys values capacity bucket table).heapBytes =
        capacity * bucket + table + (Datum.heapBytesAll keys + Datum.heapBytesAll values) from rfl]
    refine .cons (by simp) (by simp) ?_
    refine .append (A := ptrBytes + capacity * bucket + (Datum.heapBytesAll keys + Datum.heapBytesAll values)) (B := ptrBytes + table) ?_
      (level_indices _ (by simp) (by omega) (by omega)) (by omega)
    exact .cons (by simp) (by simp; omega)
      ((level_pairs (levelAll keys hwk hf.2.1) (levelAll values hwv hf.2.2) (by simp) (Nat.le_refl _)).append (.leaf (by simp) (Nat.le_refl _)) (by simp; omega))
  | .dashMap self K V KV capacity keys values capacityLater len table, h, hf => fun cur => by
    obtain ⟨hk, hv, hlen, hkv, hb, hc, hu, hwk, hwv⟩ := h
    obtain ⟨h1, h2, h3, h4⟩ := hf
    have hz := sizes_allOf hk
    have hz' := sizes_allOf hv
    rw [← hlen] at hz'
    have hkv' : K.size * keys.length + V.size * keys.length ≤ keys.length * KV.size := by
      rw [← Nat.add_mul, Nat.mul_comm keys.length]; exact Nat.mul_le_mul_right _ hkv
    rw [Nat.add_mul] at h2
    simp only [Datum.report, Datum.footprint_eq, show (Datum.dashMap self K V KV capacity keys values capacityLater len table).size = self.size from rfl,
      show (Datum.dashMap self K V KV capacity keys values capacityLater len table).heapBytes = table + (Datum.heapBytesAll keys + Datum.heapBytesAll values) from rfl]
    exact .cons (by simp) (by simp) (.cons (by simp) (by simp; omega) (.cons (by simp) (by simp; omega)
      ((level_pairs (levelAll keys hwk h3) (levelAll values hwv h4) (by simp) (Nat.le_refl _)).append (.leaf (by simp) (Nat.le_refl _)) (by simp; omega))))
  | .dashSet self T capacity items capacityLater len table, h, hf => fun cur => by
    obtain ⟨ht, hb, hc, hu, hw⟩ := h
    obtain ⟨h1, h2, h3⟩ := hf
    have hz := sizes_allOf ht
    rw [Nat.add_mul, Nat.mul_comm items.length] at h2
    simp only [Datum.report, Datum.footprint_eq, show (Datum.dashSet self T capacity items capacityLater len table).size = self.size from rfl,
      show (Datum.dashSet self T capacity items capacityLater len table).heapBytes = table + Datum.heapBytesAll items from rfl]
    exact .cons (by simp) (by simp) (.cons (by simp) (by simp; omega) (.cons (by simp) (by simp; omega)
      ((level_fields (levelAll items hw h3) _ (by simp) (Nat.le_refl _)).append (.leaf (by simp) (Nat.le_refl _)) (by simp; omega))))
  | .bigInt self digits heap, h, hf => fun cur => by
    have hf : ptrBytes ≤ self.size := hf
    have h1 := h.1
    simp only [Datum.report, Datum.footprint_eq, show (Datum.bigInt self digits heap).size = self.size from rfl,
      show (Datum.bigInt self digits heap).heapBytes = heap from rfl]
    exact .cons (by simp) (by simp) (.cons (by simp) (by simp; omega) (.leaf (by simp) (by simp; omega)))
  | .bump self allocated chunks heap, h, hf => fun cur => by
    have hf : ptrBytes ≤ self.size := hf
    obtain ⟨h1, h2, h3⟩ := h
    simp only [Datum.report, Datum.footprint_eq, show (Datum.bump self allocated chunks heap).size = self.size from rfl,
      show (Datum.bump self allocated chunks heap).heapBytes = heap from rfl]
    exact .cons (by simp) (by simp) (.cons (by simp) (by simp; omega)
      (.append (a := [_]) (.leaf (M := chunks.sum) (by simp) (by simp)) (.leaf (M := allocated - chunks.sum) (by simp) (by simp)) (by omega)))
  | .jsonMap self table keys values, h, hf => fun cur => by
    obtain ⟨f1, f3, f4⟩ := hf
    have h2 := h.2.1
    simp only [Datum.report, Datum.footprint_eq, show (Datum.jsonMap self table keys values).size = self.size from rfl,
      show (Datum.jsonMap self table keys values).heapBytes = table + (Datum.heapBytesAll keys + Datum.heapBytesAll values) from rfl]
    exact .cons (by simp) (by simp) (.cons (by simp) (by simp; omega)
      (level_pairs (levelAll keys h.2.2.1 f3) (levelAll values h.2.2.2 f4) (by simp) (by omega)))
  | .jsonLeaf self, _, _ => level_self (fun _ => rfl) (Nat.le_add_right _ _)
  | .json self variant v, h, hf => level_one (fun _ => rfl) rfl rfl hf.1 (level v h hf.2)
  | .futuresPending self, _, _ => level_self (fun _ => rfl) (Nat.le_add_right _ _)
  | .futuresShared self ptr, _, hf => fun cur => by
    have hf : ptrBytes ≤ self.size := hf
    simp only [Datum.report, Datum.footprint_eq, show (Datum.futuresShared self ptr).size = self.size from rfl]
    exact .cons (by simp) (by simp) (.leaf (by simp) (by simp; omega))
  | .headerSlice self sizeOfVal header tail, h, hf => fun cur => by
    obtain ⟨f1, f2, f3⟩ := hf
    have l1 := level header h.1 f2
    have l2 := level tail h.2 f3
    simp only [Datum.report, Datum.footprint_eq, show (Datum.headerSlice self sizeOfVal header tail).size = sizeOfVal from rfl,
      show (Datum.headerSlice self sizeOfVal header tail).heapBytes = header.heapBytes + tail.heapBytes from rfl]
    refine .cons (by simp) (by simp) ?_
    refine .append (A := header.size + header.heapBytes) (B := tail.size + tail.heapBytes) ?_ ?_ (by omega)
    · exact .cons (by simp) (by simp) (l1.at (by simp) (by omega))
    · exact .cons (by simp) (by simp) (l2.at (by simp) (by omega))
  | .headerWithLength self header len, h, hf => fun cur => by
    obtain ⟨f1, f2, f3⟩ := hf
    have l1 := level header h.1 f2
    have l2 := level len h.2 f3
    simp only [Datum.report, Datum.footprint_eq, show (Datum.headerWithLength self header len).size = self.size from rfl,
      show (Datum.headerWithLength self header len).heapBytes = header.heapBytes + len.heapBytes from rfl]
    refine .cons (by simp) (by simp) ?_
    refine .append (A := header.size + header.heapBytes) (B := len.size + len.heapBytes) ?_ ?_ (by omega)
    · exact .cons (by simp) (by simp) (l1.at (by simp) (by omega))
    · exact .cons (by simp) (by simp) (l2.at (by simp) (by omega))
  | .struct self size labels fields, h, hf => fun cur => by
    have h1 := hf.1
    simp only [Datum.report, Datum.footprint_eq, show (Datum.struct self size labels fields).size = size from rfl,
      show (Datum.struct self size labels fields).heapBytes = Datum.heapBytesAll fields from rfl]
    exact .cons (by simp) (by simp) (level_derived (levelAll fields h.2 hf.2) _ (by simp) (by omega))
  | .enum self variant labels fields, h, hf => fun cur => by
    have h1 := hf.1
    simp only [Datum.report, Datum.footprint_eq, show (Datum.enum self variant labels fields).size = self.size from rfl,
      show (Datum.enum self variant labels fields).heapBytes = Datum.heapBytesAll fields from rfl]
    exact .cons (by simp) (by simp) (.cons (by simp) (by simp) (level_derived (levelAll fields h.2 hf.2) _ (by simp) (by omega)))
  | .unit self size owned, _, _ => level_self (fun _ => rfl) (Nat.le_add_right _ _)
theorem levelAll [Target] : (l : List Datum) → Datum.WFAll l → Datum.InMemoryAll l → ∀ d ∈ l, Level d
  | [], _, _ => by simp
  | d :: l, h, hf => by
    intro x hx
    rcases List.mem_cons.1 hx with hx | hx
    · rw [hx]; exact level d h.1 hf.1
    · exact levelAll l h.2 hf.2 x hx
end

end Allocative
