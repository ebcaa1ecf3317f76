import Verif.Props.Gaps
set_option linter.unusedSimpArgs false
/-
C62 for values of every supported type.
-/
namespace Allocative

theorem tuple_direct [Target] (i : Nat) (l : List Datum) : (Obj.concat ((tupleLabels i (Datum.values l)).map fun f => Visit.field (Key.new f.1) f.2)).direct = Datum.sizes l := by
  induction l generalizing i with
  | nil => rfl
  | cons d l ih =>
    have := ih (i + 1)
    simp [Datum.values, tupleLabels, Obj.concat, Datum.sizes, Datum.size] at this ⊢
    omega

theorem rawTable_direct [Target] (len : Nat) : (Impl.addRawTableForLen Impl.usize len).direct = if len = 0 then 0 else ptrBytes := by
  unfold Impl.addRawTableForLen
  by_cases h : len = 0
  · simp [h]
  · simp [h]

/-- A value is visited as one node with its size, in which nodes of the sizes of its parts are. -/
theorem datum_top [Target] (d : Datum) (h : d.WF) (ho : d.isOpaque = false) : ∃ k e o, d.value.visit = .inline k d.size e o .nil ∧ o.direct = d.subdivided := by
  cases d with
  | hollow => simp [Datum.isOpaque] at ho
  | slice self T items =>
    exact ⟨_, _, _, rfl, fields_direct _ _⟩
  | array self T items =>
    refine ⟨T.key, .exit, _, ?_, fields_direct dataName items⟩
    obtain ⟨-, h1, h2, -⟩ := h
    have hl : (Datum.values items).length = items.length := by induction items with | nil => rfl | cons d l ih => simp_all [Datum.values]
    have hm : Usize.mul T.size (Datum.values items).length = self.size := by
      rw [hl, h1]; exact Nat.mod_eq_of_lt (by rw [← h1]; exact h2)
    simp only [Datum.value, Impl.array, Impl.sized, Impl.sliceVisit, Datum.size, Visit.enter, hm]
  | tuple self fields => exact ⟨_, _, _, rfl, tuple_direct _ _⟩
  | smallVecInline self T items => exact ⟨_, _, _, rfl, fields_direct _ _⟩
  | struct self size labels fields => exact ⟨_, _, _, rfl, direct_derived _ _⟩
  | cell self accessible v => cases accessible <;> exact ⟨_, _, _, rfl, by simp [Datum.subdivided, Datum.size]⟩
  | onceCell self v =>
    refine ⟨_, _, _, rfl, ?_⟩
    simp only [Datum.subdivided]
    cases hv : v.isOpaque with
    | true => cases v <;> simp [Datum.isOpaque, Datum.value, Impl.empty, Impl.sized] at hv ⊢
    | false => simpa using direct_size (d := v) h hv
  | vec self T items capacity =>
    refine ⟨_, _, _, rfl, ?_⟩
    simp only [Datum.subdivided]
    by_cases h0 : capacity = 0 <;> by_cases h1 : T.size = 0 <;> simp [h0, h1]
  | vecDeque self T front back capacity =>
    refine ⟨_, _, _, rfl, ?_⟩
    simp only [Datum.subdivided]
    by_cases h0 : capacity = 0 <;> by_cases h1 : T.size = 0 <;> simp [h0, h1]
  | slab self T entry items capacity =>
    refine ⟨_, _, _, rfl, ?_⟩
    simp only [Datum.subdivided]
    by_cases h0 : capacity = 0 <;> by_cases h1 : T.size = 0 <;> simp [h0, h1]
  | pathBuf self len capacity =>
    refine ⟨_, _, _, rfl, ?_⟩
    simp only [Datum.subdivided]
    by_cases h0 : capacity = 0 <;> simp [h0]
  | compactString self heapAllocated len capacity =>
    refine ⟨_, _, _, rfl, ?_⟩
    cases heapAllocated <;> simp [Datum.subdivided]
  | indexSet self T items capacity bucket table =>
    refine ⟨_, _, _, rfl, ?_⟩
    cases items <;> simp [Datum.subdivided, rawTable_direct, Datum.values, Nat.two_mul]
  | indexMap self K V KV keys values capacity bucket table =>
    refine ⟨_, _, _, rfl, ?_⟩
    cases keys <;> cases values <;> simp [Datum.subdivided, rawTable_direct, Datum.values, Datum.WF, Nat.two_mul] at h ⊢
  | weak self strong ptrSize ptr => exact ⟨_, _, _, rfl, by simp [Datum.subdivided, Impl.arc, Impl.sized, Visit.enterSelfSized]⟩
  | _ => exact ⟨_, _, _, rfl, by simp [Datum.subdivided, Datum.size, Obj.direct, Visit.genericMapFields, Visit.genericSetFields, Visit.fieldWith]⟩

/-- C62. The line of a value, of whatever type, wherever it is visited: it is entered with its size, and the bytes that are in none of its parts are its size without
`subdivided`. -/
theorem C62_value [Target] (d : Datum) (h : d.WF) (ho : d.isOpaque = false) (cur : Path) (later : List Rec) (hn : Next cur later) :
    ∃ label inside, d.report cur = inl (cur ++ [label]) d.size :: inside ∧ gap (inl (cur ++ [label]) d.size) (inside ++ later) = d.size - d.subdivided := by
  obtain ⟨k, e, o, hv, hd⟩ := datum_top d h ho
  have hr := reported d h cur
  rw [hv] at hr
  simp only [Obj.own, List.append_nil] at hr
  refine ⟨k, o.own (cur ++ [k]), hr.symm, ?_⟩
  have := madeInside_own o k d.size false cur .nil later hn
  simp only [Obj.own, List.nil_append] at this
  simp only [gap, inl, this, childrenAt_own, hd]
  simp

/-! What the lines of some values show. -/
namespace PartsExamples

attribute [local instance] Target.x64
open GapsExamples

def optional (v : Datum) : Datum := .some ⟨ascii "Option<u32>", 8, false⟩ v
/-- Some: the discriminant and its padding.  None: everything. -/
example : (optional (.plain tU32)).size - (optional (.plain tU32)).subdivided = 4 := by decide
example : (Datum.none ⟨ascii "Option<u32>", 8, false⟩).size - (Datum.none ⟨ascii "Option<u32>", 8, false⟩).subdivided = 8 := by decide
/-- A tuple: padding. -/
def pair : Datum := .tuple ⟨ascii "(u8, u32)", 8, false⟩ [.plain tU8, .plain tU32]
example : pair.size - pair.subdivided = 3 := by decide
/-- A vector: length and capacity; one without an allocation: all three words. -/
def vector : Datum := .vec ⟨ascii "Vec<u32>", 24, true⟩ tU32 [.plain tU32] 4
example : vector.size - vector.subdivided = 16 := by decide
example : (Datum.vec ⟨ascii "Vec<u32>", 24, true⟩ tU32 [] 0).size - (Datum.vec ⟨ascii "Vec<u32>", 24, true⟩ tU32 [] 0).subdivided = 24 := by decide
/-- An array: nothing. -/
def fixed : Datum := .array ⟨ascii "[u32; 2]", 8, false⟩ tU32 [.plain tU32, .plain tU32]
example : fixed.size - fixed.subdivided = 0 := by decide

example := C62_value (optional (.plain tU32)) trivial rfl [lbl "root"] (pair.report [lbl "root"]) (by intro x hx; cases hx; decide)
example := C62_value pair (by simp [pair, Datum.WF, Datum.WFAll]) rfl [lbl "root"] (pair.report [lbl "root"]) (by intro x hx; cases hx; decide)
example := C62_value vector (by simp [vector, Datum.WF, Datum.WFAll, Datum.AllOf, Datum.size, Datum.value, Impl.plain, Impl.sized, tU32]) rfl [lbl "root"] [] (by intro x hx; cases hx)
example := C62_value fixed (by simp [fixed, Datum.WF, Datum.WFAll, Datum.AllOf, Datum.size, Datum.value, Impl.plain, Impl.sized, tU32]) rfl [] (vector.report [])
  (by intro x hx; cases hx; decide)

end PartsExamples

end Allocative
