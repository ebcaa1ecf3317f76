import Verif.Lemmas.Gaps
import Verif.Props.Names
set_option linter.unusedSimpArgs false
/-
C62: the lines of a profile show gaps.
-/
namespace Allocative

/-- C62. Some values and the shared allocations reachable from them, of types with proper names; `bytes p` is the real size of the allocation at `p`.  Then every record of the
report has room for what is directly inside it; there are no warnings; and the output has for each stack, in order, one line with the sum, over all records with this stack,
of the bytes that are in none of the records directly inside (if it is not zero). -/
theorem C62_lines [Target] {ρ : Str → Role} (hρ : Reserved ρ) (allocs : Ptr → Alloc) (roots : List Datum) (hr : ∀ d ∈ roots, d.WF ∧ d.Fits ∧ d.Named ρ) (L : List Ptr)
    (hnd : L.Nodup) (hL : ∀ p, p ∈ L ↔ ReachableCell (fun p => (allocs p).cell) roots p) (bytes : Ptr → Nat)
    (ha : ∀ p ∈ L, (allocs p).value.WF ∧ (allocs p).value.Fits ∧ (allocs p).cell.Named ρ ∧ (allocs p).Exact ∧ (allocs p).Occupies (bytes p) ∧ bytes p ≤ Layout.isizeMax)
    (fuel : Nat) (hf : L.length ≤ fuel) (ord : HashOrder TreeId) (ord' : HashOrder (List Str)) :
    ∃ (recs : List Rec) (lines : List (Path × Nat)) (total : Nat),
      recs = roots.flatMap (fun d => d.report []) ++ L.flatMap (fun p => (allocs p).cell.report) ∧ Roomy recs ∧
      observe ord ord' (visits (fun p => (allocs p).cell.visit) fuel (roots.map fun d => d.value.visit)) = .ok ⟨lines.flatMap renderLine, total, []⟩ ∧
      lines.Pairwise (fun a b => pathLt a.1.names b.1.names) ∧ ∀ p n, (p, n) ∈ lines ↔ n = gapsAt recs p ∧ n ≠ 0 := by
  have hc : ∀ p ∈ L, ((allocs p).cell).datum.WF := fun p hp => by
    obtain ⟨h1, h2, -, h3, h4, h5⟩ := ha p hp
    rw [(Alloc.cell_heap h3 h4 h5 h1).2.2]; exact h1
  obtain ⟨recs, lines, ws, hrecs, eobs, hs, hl, -, hws⟩ := C52_text (fun p => (allocs p).cell) roots (fun d hd => (hr d hd).1) L hnd hL hc fuel hf ord ord'
  obtain ⟨out, e, hw, -⟩ := C59_named_accounting hρ allocs roots hr L hnd hL bytes ha fuel hf ord
  have hmix := unmixed_names hρ roots (fun p => (allocs p).cell) L (fun d hd => (hr d hd).2.2) (fun p hp => (ha p hp).2.2.1) recs hrecs
  have e1 : roots.flatMap (fun d => d.report []) = (roots.map fun d => d.value.visit).flatMap fun o => o.own [] := by
    rw [List.flatMap_map]
    exact flatMap_congr' fun d hd => ((C52_records d (hr d hd).1 []).1).symm
  have e2 : L.flatMap (fun p => (allocs p).cell.report) = (L.map fun p => (allocs p).cell.visit).flatMap fun o => o.own [] := by
    rw [List.flatMap_map]
    exact flatMap_congr' fun p hp => ((C52_cells _ (hc p hp)).1).symm
  have hflat : recs = ((roots.map fun d => d.value.visit) ++ L.map fun p => (allocs p).cell.visit).flatMap fun o => o.own [] := by
    rw [hrecs, e1, e2, List.flatMap_append]
  obtain ⟨-, hroomy, hgap⟩ := gaps_all ((roots.map fun d => d.value.visit) ++ L.map fun p => (allocs p).cell.visit) (by
    intro o ho
    rcases List.mem_append.1 ho with ho | ho
    · obtain ⟨d, hd, rfl⟩ := List.mem_map.1 ho
      exact (datum_fit d (hr d hd).1 (hr d hd).2.1).2
    · obtain ⟨q, hq, rfl⟩ := List.mem_map.1 ho
      obtain ⟨h1, h2, -, h3, h4, h5⟩ := ha q hq
      exact Alloc.cell_consistent h3 h4 h5 h1 h2)
  rw [← hflat] at hroomy hgap
  have hzero := gapsAt_entered recs
  have hroot : gapsAt recs [] = 0 := by
    rcases Nat.eq_zero_or_pos (gapsAt recs []) with h | h
    · exact h
    · obtain ⟨r, hr, hp⟩ := hzero [] (by omega)
      rw [hflat] at hr
      obtain ⟨o, -, ho⟩ := List.mem_flatMap.1 hr
      exact absurd hp (own_below o [] r ho).2
  have hself : ∀ p, selfSpec recs p = gapsAt recs p := by
    intro p
    by_cases hp : p = []
    · subst hp; rw [hroot]; simp [selfSpec]
    · exact hgap p hp hmix
  have hw0 : ws.flatMap (renderWarning recs) = [] := by
    simp only [observe, e, Except.ok.injEq, Obs.mk.injEq] at eobs
    rw [← eobs.2.2, hw]
  rw [hw0] at eobs
  refine ⟨recs, lines, _, hrecs, hroomy, eobs, hs, fun p n => ?_⟩
  rw [hl, hself]
  constructor
  · rintro ⟨-, h1, h2⟩; exact ⟨h1, h2⟩
  · rintro ⟨h1, h2⟩; exact ⟨hzero p (by omega), h1, h2⟩

theorem direct_derived [Target] (labels : List (Str × Bool)) (fields : List Datum) : (Visit.derivedFields labels (Datum.values fields)).direct = visibleSize labels fields := by
  induction labels generalizing fields with
  | nil => cases fields <;> rfl
  | cons l ls ih =>
    cases fields with
    | nil => rfl
    | cons d ds =>
      have := ih ds
      obtain ⟨l, s⟩ := l
      cases s <;> simp [Visit.derivedFields, Datum.values, visibleSize, Obj.direct, Visit.field, Visit.fieldWith, Visit.enter, Datum.size] at this ⊢
      · omega
      · exact this

/-- C62. Padding of a derived struct: the record of the struct itself has the bytes of the struct that are in no field (of those not marked `skip`), wherever it is visited. -/
theorem C62_struct [Target] (self : Ty) (size : Nat) (labels : List (Str × Bool)) (fields : List Datum) (h : (Datum.struct self size labels fields).WF) (cur : Path) (later : List Rec)
    (hn : Next cur later) :
    ∃ inside, (Datum.struct self size labels fields).report cur = inl (cur ++ [ty self]) size :: inside ∧
      gap (inl (cur ++ [ty self]) size) (inside ++ later) = size - visibleSize labels fields := by
  refine ⟨_, rfl, ?_⟩
  have e := reported _ h cur
  have := madeInside_own (Visit.derivedFields labels (Datum.values fields)) (ty self) size false cur .nil later hn
  simp only [Datum.value, Visit.enterSelf, Visit.enter, Obj.own, List.append_nil, Datum.report, List.cons.injEq] at e
  simp only [Obj.own, List.nil_append] at this
  rw [← e.2]
  simp only [gap, inl]
  have hk : self.key = ty self := rfl
  rw [hk, this, childrenAt_own, direct_derived]
  simp

/-- C62. Enums: the record of the variant has the bytes that are in no field: discriminant, padding and what only other variants use. -/
theorem C62_enum [Target] (self : Ty) (variant : Str) (labels : List (Str × Bool)) (fields : List Datum) (h : (Datum.enum self variant labels fields).WF) (cur : Path)
    (later : List Rec) (hn : Next cur later) :
    ∃ inside, (Datum.enum self variant labels fields).report cur =
        inl (cur ++ [ty self]) self.size :: inl (cur ++ [ty self, Key.new variant]) self.size :: inside ∧
      gap (inl (cur ++ [ty self]) self.size) (inl (cur ++ [ty self, Key.new variant]) self.size :: inside ++ later) = 0 ∧
      gap (inl (cur ++ [ty self, Key.new variant]) self.size) (inside ++ later) = self.size - visibleSize labels fields := by
  refine ⟨_, rfl, ?_⟩
  have e := reported _ h cur
  have h1 := madeInside_own (.inline (Key.new variant) self.size .exit (Visit.derivedFields labels (Datum.values fields)) .nil) (ty self) self.size false cur .nil later hn
  have h2 := madeInside_own (Visit.derivedFields labels (Datum.values fields)) (Key.new variant) self.size false (cur ++ [ty self]) .nil later
    (by simpa [Obj.own] using next_down (ty self) (o := .nil) hn)
  have hk : self.key = ty self := rfl
  have hcat : cur ++ [ty self, Key.new variant] = cur ++ [ty self] ++ [Key.new variant] := by simp
  simp only [Datum.value, Impl.sized, Visit.enterSelf, Visit.enter, Obj.own, List.append_nil, Datum.report, List.cons.injEq, hk, hcat] at e
  simp only [Obj.own, List.nil_append, List.append_nil] at h1 h2
  rw [hcat, ← e.2.2]
  simp only [gap, inl]
  rw [h1, h2, childrenAt_own, direct_derived]
  refine ⟨?_, by simp⟩
  have := childrenAt_own (.inline (Key.new variant) self.size .exit (Visit.derivedFields labels (Datum.values fields)) .nil) (cur ++ [ty self])
  simp only [Obj.own, List.append_nil, Obj.direct] at this
  simp only [Bool.false_eq_true, if_false, this]
  omega

/-! ### A concrete case -/

namespace GapsExamples

attribute [local instance] Target.x64
open DataExamples FootprintExamples NamesExamples

def tU8 : Ty := ⟨ascii "u8", 1, false⟩
def tU32 : Ty := ⟨ascii "u32", 4, false⟩
def tPadded : Ty := ⟨ascii "demo::Padded", 8, false⟩

/-- `struct Padded { a: u8, b: u32 }` -/
def padded : Datum := .struct tPadded 8 [(ascii "a", false), (ascii "b", false)] [.plain tU8, .plain tU32]

theorem padded_ok : padded.WF ∧ padded.Fits ∧ padded.Named roleOfName := by
  refine ⟨?_, ?_, ?_⟩
  · simp [padded, Datum.WF, Datum.WFAll]
  · simp [padded, Datum.Fits, Datum.FitsAll, Datum.sizes, Datum.size, Datum.value, Impl.plain, Impl.sized, tU8, tU32]
  · simp only [padded, Datum.Named, Datum.NamedAll, Ty.Named, tU8, tU32, tPadded, and_true]
    set_option maxRecDepth 100000 in decide

/-- Three bytes of padding each. -/
example : padded.size - visibleSize [(ascii "a", false), (ascii "b", false)] [.plain tU8, .plain tU32] = 3 := by decide

set_option maxRecDepth 100000 in
/-- Two such values, visited with one builder: the line of the struct has 6 bytes. -/
example (ord : HashOrder TreeId) (ord' : HashOrder (List Str)) : ∃ (lines : List (Path × Nat)) (total : Nat),
    observe ord ord' (visits (fun p => (allocs p).cell.visit) 0 [padded.value.visit, padded.value.visit]) = .ok ⟨lines.flatMap renderLine, total, []⟩ ∧
      ([ty tPadded], 6) ∈ lines ∧ ([ty tPadded, lbl "b", ty tU32], 8) ∈ lines ∧ ∀ n, ([ty tPadded, lbl "b"], n) ∉ lines := by
  obtain ⟨recs, lines, total, e, -, h, -, hl⟩ := C62_lines reserved allocs [padded, padded] (by
      intro d hd; simp only [List.mem_cons, List.not_mem_nil, or_false, or_self] at hd; subst hd; exact padded_ok) [] (by simp) (by
      intro p
      refine ⟨fun h => (nomatch h), fun h => ?_⟩
      exfalso
      induction h with
      | root hd hp =>
        simp only [List.mem_cons, List.not_mem_nil, or_false, or_self] at hd
        subst hd
        revert hp
        simp [padded, Datum.pointers, pointersDerived, Datum.pointersEach]
      | step _ _ ih => exact ih) (fun _ => 0) (by simp) 0 (by simp) ord ord'
  subst e
  refine ⟨lines, total, h, (hl _ _).2 ⟨by decide, by decide⟩, (hl _ _).2 ⟨by decide, by decide⟩, fun n hn => ?_⟩
  have := (hl _ _).1 hn
  revert this
  rintro ⟨rfl, h⟩
  exact h (by decide)

end GapsExamples

/-! The theorems of this file with a concrete case of their hypotheses: a struct, and an enum with the same fields, between other values. -/
namespace GapsExamples

attribute [local instance] Target.x64
open DataExamples FootprintExamples NamesExamples

example := C62_struct tPadded 8 [(ascii "a", false), (ascii "b", false)] [.plain tU8, .plain tU32] padded_ok.1 [lbl "root"] (v.report [lbl "root"])
  (by intro x hx; cases hx; decide)
example := C62_enum tPadded (ascii "A") [(ascii "a", false), (ascii "b", true)] [.plain tU8, .plain tU32] (by simp [Datum.WF, Datum.WFAll]) [lbl "root"] (padded.report [lbl "root"])
  (by intro x hx; cases hx; decide)

end GapsExamples

end Allocative
