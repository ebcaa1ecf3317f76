import Verif.Lemmas.Names
import Verif.Props.Footprint
set_option linter.unusedSimpArgs false
/-
C59 for values whose types are named the way Rust names them: no stack is then entered both as unique and as inline, so that the total is exact without further conditions.
-/
namespace Allocative

/-- C59. Types with proper names never produce a stack that is entered both as unique and as inline: whatever the values, whatever they share. -/
theorem C59_unmixed [Target] {ρ : Str → Role} (hρ : Reserved ρ) (cells : Ptr → Cell) (roots : List Datum) (hr : ∀ d ∈ roots, d.WF ∧ d.Named ρ) (L : List Ptr) (hnd : L.Nodup)
    (hL : ∀ p, p ∈ L ↔ ReachableCell cells roots p) (hc : ∀ p ∈ L, (cells p).datum.WF ∧ (cells p).Named ρ) (fuel : Nat) (hf : L.length ≤ fuel)
    (recs : List Rec) (h : recs = records (visits (fun p => (cells p).visit) fuel (roots.map fun d => d.value.visit))) :
    ∀ r ∈ recs, ∀ r' ∈ recs, r.path = r'.path → r.unique = r'.unique := by
  subst h
  have hc' : ∀ p, ReachableCell cells roots p → (cells p).datum.WF := fun p hp => (hc p ((hL p).2 hp)).1
  have hp := (C08_counted_once_iff_reachable (fun p => (cells p).visit) (roots.map fun d => d.value.visit) L hnd
    (fun p => (hL p).trans (reachable_iff (fun d hd => (hr d hd).1) hc' p).symm) fuel hf).2
  have h1 : (roots.map fun d => d.value.visit).flatMap (fun o => o.own []) = roots.flatMap fun d => d.report [] := by
    rw [List.flatMap_map]
    exact flatMap_congr' fun d hd => (C52_records d (hr d hd).1 []).1
  have h2 : L.flatMap (fun p => (cells p).visit.own []) = L.flatMap fun p => (cells p).report :=
    flatMap_congr' fun p hp => (C52_cells _ (hc p hp).1).1
  intro r hr1 r' hr2
  rw [h1, h2] at hp
  exact unmixed_names hρ roots cells L (fun d hd => (hr d hd).2) (fun p hp => (hc p hp).2) _ rfl r (hp.mem_iff.1 hr1) r' (hp.mem_iff.1 hr2)

/-- C59. The accounting of `C59_accounting`, for values and shared allocations whose types have proper names. -/
theorem C59_named_accounting [Target] {ρ : Str → Role} (hρ : Reserved ρ) (allocs : Ptr → Alloc) (roots : List Datum) (hr : ∀ d ∈ roots, d.WF ∧ d.Fits ∧ d.Named ρ) (L : List Ptr)
    (hnd : L.Nodup) (hL : ∀ p, p ∈ L ↔ ReachableCell (fun p => (allocs p).cell) roots p) (bytes : Ptr → Nat)
    (ha : ∀ p ∈ L, (allocs p).value.WF ∧ (allocs p).value.Fits ∧ (allocs p).cell.Named ρ ∧ (allocs p).Exact ∧ (allocs p).Occupies (bytes p) ∧ bytes p ≤ Layout.isizeMax)
    (fuel : Nat) (hf : L.length ≤ fuel) (ord : HashOrder TreeId) :
    ∃ out, run ord (visits (fun p => (allocs p).cell.visit) fuel (roots.map fun d => d.value.visit)) = .ok out ∧ out.warnings = [] ∧
      (∀ p ∈ L, ∃ l, (allocs p).layout = some l ∧ l.size = bytes p) ∧
      out.flamegraph.totalSize + ((roots.map Datum.unseen).sum + (L.map fun p => (allocs p).unseen).sum) =
        (roots.map Datum.footprint).sum + (L.map fun p => bytes p + (allocs p).value.heapBytes).sum :=
  C59_accounting allocs roots (fun d hd => ⟨(hr d hd).1, (hr d hd).2.1⟩) L hnd hL bytes
    (fun p hp => by obtain ⟨h1, h2, -, h5, h6, h7⟩ := ha p hp; exact ⟨h1, h2, h5, h6, h7⟩)
    (unmixed_names hρ roots (fun p => (allocs p).cell) L (fun d hd => (hr d hd).2.2) (fun p hp => (ha p hp).2.2.1)) fuel hf ord

/-- C59. For values of types with proper names, in which none of the exceptions of C32 occurs, `total_size()` is exactly the memory occupied. -/
theorem C59_named_footprint [Target] {ρ : Str → Role} (hρ : Reserved ρ) (allocs : Ptr → Alloc) (roots : List Datum)
    (hr : ∀ d ∈ roots, d.WF ∧ d.Fits ∧ d.Standard ∧ d.isOpaque = false ∧ d.Named ρ) (L : List Ptr)
    (hnd : L.Nodup) (hL : ∀ p, p ∈ L ↔ ReachableCell (fun p => (allocs p).cell) roots p) (bytes : Ptr → Nat)
    (ha : ∀ p ∈ L, (allocs p).value.WF ∧ (allocs p).value.Fits ∧ (allocs p).value.Standard ∧ (allocs p).value.isOpaque = false ∧ (allocs p).cell.Named ρ ∧
      (allocs p).Exact ∧ (allocs p).Occupies (bytes p) ∧ bytes p ≤ Layout.isizeMax)
    (fuel : Nat) (hf : L.length ≤ fuel) (ord : HashOrder TreeId) :
    ∃ out, run ord (visits (fun p => (allocs p).cell.visit) fuel (roots.map fun d => d.value.visit)) = .ok out ∧ out.warnings = [] ∧
      out.flamegraph.totalSize = (roots.map Datum.footprint).sum + (L.map fun p => bytes p + (allocs p).value.heapBytes).sum :=
  C59_footprint allocs roots (fun d hd => ⟨(hr d hd).1, (hr d hd).2.1, (hr d hd).2.2.1, (hr d hd).2.2.2.1⟩) L hnd hL bytes
    (fun p hp => by obtain ⟨h1, h2, h3, h4, -, h5, h6, h7⟩ := ha p hp; exact ⟨h1, h2, h3, h4, h5, h6, h7⟩)
    (unmixed_names hρ roots (fun p => (allocs p).cell) L (fun d hd => (hr d hd).2.2.2.2) (fun p hp => (ha p hp).2.2.2.2.1)) fuel hf ord

/-- C25, for values built from the supported types: the total of the profile of a value is `size_of_unique` of it, plus the allocations it shares (each once, with what is owned
by the values in them).  Values whose visit is empty are excluded: `size_of_unique` counts them, a profile does not. -/
theorem C25_shared [Target] {ρ : Str → Role} (hρ : Reserved ρ) (allocs : Ptr → Alloc) (d : Datum) (hw : d.WF) (hd : d.Fits) (hn : d.Named ρ) (ho : d.isOpaque = false) (L : List Ptr)
    (hnd : L.Nodup) (hL : ∀ p, p ∈ L ↔ ReachableCell (fun p => (allocs p).cell) [d] p) (bytes : Ptr → Nat)
    (ha : ∀ p ∈ L, (allocs p).value.WF ∧ (allocs p).value.Fits ∧ (allocs p).cell.Named ρ ∧ (allocs p).Exact ∧ (allocs p).Occupies (bytes p) ∧ bytes p ≤ Layout.isizeMax)
    (fuel : Nat) (hf : L.length ≤ fuel) (ord : HashOrder TreeId) (content : Ptr → Prog) :
    ∃ out n, run ord (visits (fun p => (allocs p).cell.visit) fuel [d.value.visit]) = .ok out ∧ out.warnings = [] ∧
      SizeOf.sizeOfUnique d.size (d.value.visit.visitWith content) = .ok (some n) ∧
      out.flamegraph.totalSize + (L.map fun p => (allocs p).unseen).sum = n + (L.map fun p => bytes p + (allocs p).value.heapBytes).sum := by
  obtain ⟨out, e, hws, -, ht⟩ := C59_named_accounting hρ allocs [d] (by simp [hw, hd, hn]) L hnd hL bytes ha fuel hf ord
  obtain ⟨m, em, hm⟩ := C32_accounting d hw content
  refine ⟨out, d.size + m, e, hws, by simp only [SizeOf.sizeOfUnique, em, Option.map_some], ?_⟩
  simp only [List.map_cons, List.map_nil, List.sum_cons, List.sum_nil, Nat.add_zero, Datum.unseen, Datum.hidden, ho, Datum.footprint] at ht
  simp at ht
  omega

/-- C25, for values built from the supported types, without shared pointers: the total of the profile is `size_of_unique`. -/
theorem C25_values [Target] {ρ : Str → Role} (hρ : Reserved ρ) (allocs : Ptr → Alloc) (d : Datum) (hw : d.WF) (hd : d.Fits) (hn : d.Named ρ) (ho : d.isOpaque = false)
    (hp : d.pointers = []) (fuel : Nat) (ord : HashOrder TreeId) (content : Ptr → Prog) :
    ∃ out, run ord (visits (fun p => (allocs p).cell.visit) fuel [d.value.visit]) = .ok out ∧ out.warnings = [] ∧
      SizeOf.sizeOfUnique d.size (d.value.visit.visitWith content) = .ok (some out.flamegraph.totalSize) := by
  have hL : ∀ p, p ∈ ([] : List Ptr) ↔ ReachableCell (fun p => (allocs p).cell) [d] p := by
    intro p
    refine ⟨fun h => (nomatch h), fun h => ?_⟩
    exfalso
    induction h with
    | root hd hp' => simp only [List.mem_singleton] at hd; subst hd; rw [hp] at hp'; cases hp'
    | step _ _ ih => exact ih
  obtain ⟨out, n, e, hws, es, ht⟩ := C25_shared hρ allocs d hw hd hn ho [] .nil hL (fun _ => 0) (by simp) fuel (Nat.zero_le _) ord content
  refine ⟨out, e, hws, ?_⟩
  simp only [List.map_nil, List.sum_nil, Nat.add_zero] at ht
  rw [es, ht]

/-! ### Concrete cases -/

namespace NamesExamples

attribute [local instance] Target.x64
open DataExamples FootprintExamples

set_option maxRecDepth 100000 in
/-- The names of std and of the supported crates are proper. -/
theorem reserved : Reserved roleOfName := by unfold Reserved; decide

theorem node_named (next len capacity : Nat) : (node next len capacity).Named roleOfName := by
  simp only [node, Datum.Named, Datum.NamedAll, Ty.Named, tNode, tArcNode, tString, and_true]
  set_option maxRecDepth 100000 in decide

/-- The cycle of two nodes, with a node and a boxed pointer as roots, has proper names. -/
theorem named : (∀ d ∈ roots, d.Named roleOfName) ∧ ∀ p, (allocs p).cell.Named roleOfName := by
  constructor
  · intro d hd
    simp only [roots, List.mem_cons, List.not_mem_nil, or_false] at hd
    rcases hd with rfl | rfl
    · exact node_named ..
    · simp only [Datum.Named, Datum.NamedAll, Ty.Named, tArcNode, tBoxArc, and_true]
      set_option maxRecDepth 100000 in decide
  · intro p
    have : allocs p = .arc 8 (node 9 1 2) ∨ allocs p = .arc 8 (node 7 0 0) := by unfold allocs; split <;> simp
    rcases this with h | h <;> rw [h] <;> exact node_named ..

/-- All hypotheses hold (compare the example below `C59_never_less`). -/
example (ord : HashOrder TreeId) :
    ∃ out, run ord (visits (fun p => (allocs p).cell.visit) 2 (roots.map fun d => d.value.visit)) = .ok out ∧ out.warnings = [] ∧
      out.flamegraph.totalSize = (32 + 5) + (8 + 8) + (48 + 2) + (48 + 0) :=
  C59_named_footprint reserved allocs roots (by
      intro d hd
      have hn := named.1 d hd
      simp only [roots, List.mem_cons, List.not_mem_nil, or_false] at hd
      rcases hd with rfl | rfl
      · obtain ⟨h1, h2, h3, h4⟩ := node_ok 7 3 5 (by omega) (by omega)
        exact ⟨h1, h2, h3, h4, hn⟩
      · refine ⟨?_, ?_, ?_, ?_, hn⟩ <;> simp [Datum.WF, Datum.Fits, Datum.Standard, Datum.isOpaque, tBoxArc, tArcNode]) [7, 9] (by simp) reach (fun _ => 48) (by
      have e : ∀ a b c, (node a b c).size = 32 := fun a b c => rfl
      have ex : ∀ a b c, (Alloc.arc 8 (node a b c)).Exact := fun a b c => ⟨⟨3, by omega, rfl⟩, by rw [e]; decide⟩
      have oc : ∀ a b c, (Alloc.arc 8 (node a b c)).Occupies 48 := fun a b c => ⟨_, _, by rw [e]; exact arcBytes, rfl⟩
      intro p hp
      have hn := named.2 p
      have : allocs p = .arc 8 (node 9 1 2) ∨ allocs p = .arc 8 (node 7 0 0) := by unfold allocs; split <;> simp
      rcases this with h | h <;> rw [h] at hn ⊢
      · obtain ⟨h1, h2, h3, h4⟩ := node_ok 9 1 2 (by omega) (by omega)
        exact ⟨h1, h2, h3, h4, hn, ex _ _ _, oc _ _ _, by decide⟩
      · obtain ⟨h1, h2, h3, h4⟩ := node_ok 7 0 0 (by omega) (by omega)
        exact ⟨h1, h2, h3, h4, hn, ex _ _ _, oc _ _ _, by decide⟩) 2 (by simp) ord

set_option maxRecDepth 100000 in
/-- A `Vec<String>` with one string: 24 bytes, 4 * 24 bytes of buffer, 3 of text. -/
example (ord : HashOrder TreeId) : ∃ out, run ord (visits (fun p => (allocs p).cell.visit) 0 [v.value.visit]) = .ok out ∧ out.warnings = [] ∧
      SizeOf.sizeOfUnique 24 (v.value.visit.visitWith fun _ => .panic) = .ok (some out.flamegraph.totalSize) ∧ out.flamegraph.totalSize = 24 + 4 * 24 + 3 := by
  obtain ⟨out, e, hw, hs⟩ := C25_values reserved allocs v v_wf v_fits (by
    simp only [v, Datum.Named, Datum.NamedAll, Ty.Named, tVec, tString, and_true]
    decide) rfl rfl 0 ord fun _ => .panic
  refine ⟨out, e, hw, hs, ?_⟩
  have : SizeOf.sizeOfUnique v.size (v.value.visit.visitWith fun _ => .panic) = .ok (some (24 + 4 * 24 + 3)) := rfl
  rw [this] at hs
  simpa using hs.symm

/-- Why slices of hash tables are excluded: an array of tables (whose elements are below its label `data`) and a table, visited at the same place, mix. -/
example : ∃ d d' : Datum, d.WF ∧ d'.WF ∧ ∃ r ∈ d.report [], ∃ r' ∈ d'.report [], r.path = r'.path ∧ r.unique ≠ r'.unique := by
  let t : Ty := ⟨ascii "hashbrown::table::HashTable<u8>", 32, true⟩
  let u : Ty := ⟨ascii "u8", 1, false⟩
  let d : Datum := .hashTable t u [] 0 0
  refine ⟨.array ⟨ascii "[hashbrown::table::HashTable<u8>; 1]", 32, true⟩ t [d], d, ?_, ?_, ⟨[ty t, lbl "data"], 32, false⟩, ?_, ⟨[ty t, lbl "data"], 8, true⟩, ?_, rfl, by simp⟩
  · simp [d, t, u, Datum.WF, Datum.WFAll, Datum.AllOf, tableBytes, Datum.size, Datum.value, Impl.hashTable, Impl.sized]
  · simp [d, t, u, Datum.WF, Datum.WFAll, Datum.AllOf, tableBytes]
  · decide
  · decide

end NamesExamples

/-! The theorems of this file with a concrete case of their hypotheses. -/
namespace NamesExamples

attribute [local instance] Target.x64
open DataExamples FootprintExamples

theorem allocs_named (p : Ptr) : (allocs p).value.WF ∧ (allocs p).value.Fits ∧ (allocs p).cell.Named roleOfName ∧ (allocs p).Exact ∧ (allocs p).Occupies 48 ∧ 48 ≤ Layout.isizeMax :=
  ⟨(allocs_ok p).1, (allocs_ok p).2.1, named.2 p, (allocs_ok p).2.2⟩

/-- From one node alone the same allocations can be reached. -/
theorem node_reach (p : Ptr) : p ∈ [7, 9] ↔ ReachableCell (fun p => (allocs p).cell) [node 7 3 5] p := by
  rw [reach]
  constructor
  · intro h
    induction h with
    | root hd hp =>
      simp only [roots, List.mem_cons, List.not_mem_nil, or_false] at hd
      rcases hd with rfl | rfl
      · exact .root (d := node 7 3 5) (by simp) hp
      · exact .root (d := node 7 3 5) (by simp) (by simpa [Datum.pointers, node, pointersDerived, Datum.pointersEach] using hp)
    | step _ hp ih => exact .step ih hp
  · intro h
    induction h with
    | root hd hp => exact .root (d := node 7 3 5) (by simp [roots]) (by rw [List.mem_singleton.1 hd] at hp; exact hp)
    | step _ hp ih => exact .step ih hp

example := C59_unmixed reserved (fun p => (allocs p).cell) roots (fun d hd => ⟨(roots_ok d hd).1, named.1 d hd⟩) [7, 9] (by simp) reach
  (fun p _ => ⟨by have := (allocs_ok p).1; have h : allocs p = .arc 8 (node 9 1 2) ∨ allocs p = .arc 8 (node 7 0 0) := by unfold allocs; split <;> simp
                  rcases h with h | h <;> rw [h] at this ⊢ <;> exact this, named.2 p⟩) 2 (by simp) _ rfl
example (ord : HashOrder TreeId) := C59_named_accounting reserved allocs roots (fun d hd => ⟨(roots_ok d hd).1, (roots_ok d hd).2, named.1 d hd⟩) [7, 9] (by simp) reach (fun _ => 48)
  (fun p _ => allocs_named p) 2 (by simp) ord
example (ord : HashOrder TreeId) (content : Ptr → Prog) := C25_shared reserved allocs (node 7 3 5) (node_ok 7 3 5 (by omega) (by omega)).1 (node_ok 7 3 5 (by omega) (by omega)).2.1 (node_named ..) rfl
  [7, 9] (by simp) node_reach (fun _ => 48) (fun p _ => allocs_named p) 2 (by simp) ord content

end NamesExamples

end Allocative
