import Verif.Props.Report
import Verif.Props.Registry
set_option linter.unusedSimpArgs false
/-
C54: what a profile of all registered roots shows, whatever other threads do meanwhile.
-/
namespace Allocative
open Registry

theorem Registry.Steps.append {body : Root → List Instr → Prop} {c tr c' tr' c''} (h : Steps body c tr c') (h' : Steps body c' tr' c'') :
    Steps body c (tr ++ tr') c'' := by
  induction h' with
  | refl => simpa using h
  | snoc _ hs ih => rw [← List.append_assoc]; exact .snoc ih hs

theorem Registry.mem_of_entries {t : Tid} {T : List (Tid × Root)} {r : Root} (h : r ∈ entriesOf t T) : r ∈ T.map Prod.snd := by
  obtain ⟨x, hx, rfl⟩ := List.mem_map.1 h
  exact List.mem_map.2 ⟨x, (List.mem_filter.1 hx).1, rfl⟩

theorem Registry.entries_of_mem {T : List (Tid × Root)} {r : Root} (h : r ∈ T.map Prod.snd) : ∃ t, r ∈ entriesOf t T := by
  obtain ⟨x, hx, rfl⟩ := List.mem_map.1 h
  exact ⟨x.1, List.mem_map.2 ⟨x, List.mem_filter.2 ⟨hx, by simp⟩, rfl⟩⟩

/-- The part of C54 about what is in the snapshot of the registry. -/
theorem Registry.snapshot_of {body : Root → List Instr → Prop} {programs : Tid → List Instr} {before between : List Registry.Event} {c1 c2 c3 c4 : State}
    {t : Tid} {L : List Root}
    (h0 : Steps body (initial programs) before c1) (hcall : Step body c1 [.call t .roots] c2)
    (hbetween : Steps body c2 between c3) (hothers : ∀ e ∈ between, e.tid ≠ t) (hret : Step body c3 [.ret t .roots L] c4) :
    (c1.roots <+: L ∧ L <+: c4.roots) ∧
    (∀ u, ∀ r ∈ returnedBy u before, r ∈ L) ∧ ∀ r ∈ L, ∃ u, r ∈ calledBy u (before ++ [.call t .roots] ++ between) := by
  obtain ⟨s1, s2, _⟩ := C29_snapshot hcall hbetween hothers hret
  refine ⟨⟨s1, s2⟩, fun u r hr => ?_, fun r hr => ?_⟩
  · obtain ⟨T, e, hT⟩ := C29_registry programs before c1 h0
    exact s1.subset (e ▸ mem_of_entries ((hT u).1.subset hr))
  · have hall := ((h0.append (.snoc (.refl _) hcall)).append hbetween).snoc hret
    obtain ⟨T, e, hT⟩ := C29_registry programs _ c4 hall
    obtain ⟨u, hu⟩ := entries_of_mem (e ▸ s2.subset hr)
    refine ⟨u, ?_⟩
    have := (hT u).2.1.subset hu
    simpa [calledBy, List.filterMap_append] using this

/-- C54. Any threads register roots in any interleaving; one of them, `t`, calls `visit_global_roots` on a new builder (`L` is what it goes through; it has the registered
roots as often as they were registered, in order of registration).  Every root whose registration had returned before the call is in `L`; everything in
`L` was registered by a call that had begun before the snapshot was taken; and the output is the specified report of `L` and all shared allocations reachable
from it, each once. -/
theorem C54_global_roots [Target] (body : Root → List Instr → Prop) (programs : Tid → List Instr) (before between : List Registry.Event) (c1 c2 c3 c4 : State)
    (t : Tid) (L : List Root)
    (h0 : Steps body (initial programs) before c1) (hcall : Step body c1 [.call t .roots] c2)
    (hbetween : Steps body c2 between c3) (hothers : ∀ e ∈ between, e.tid ≠ t) (hret : Step body c3 [.ret t .roots L] c4)
    (value : Root → Datum) (hv : ∀ r ∈ L, (value r).WF)
    (cells : Ptr → Cell) (P : List Ptr) (hn : P.Nodup) (hP : ∀ p, p ∈ P ↔ ReachableCell cells (L.map value) p)
    (hc : ∀ p ∈ P, (cells p).datum.WF) (fuel : Nat) (hf : P.length ≤ fuel) (ord : HashOrder TreeId) (ord' : HashOrder (List Str)) :
    (c1.roots <+: L ∧ L <+: c4.roots) ∧
    (∀ u, ∀ r ∈ returnedBy u before, r ∈ L) ∧ (∀ r ∈ L, ∃ u, r ∈ calledBy u (before ++ [.call t .roots] ++ between)) ∧
    ∃ (recs : List Rec) (lines : List (Path × Nat)) (ws : List Path),
      recs = L.flatMap (fun r => (value r).report []) ++ P.flatMap (fun p => (cells p).report) ∧
      observe ord ord' (visits (fun p => (cells p).visit) fuel (L.map fun r => (value r).value.visit)) =
        .ok ⟨lines.flatMap renderLine, attributed recs + (ws.map fun p => childrenAt recs p - sizeAt recs p).sum, ws.flatMap (renderWarning recs)⟩ ∧
      lines.Pairwise (fun a b => pathLt a.1.names b.1.names) ∧
      (∀ p n, (p, n) ∈ lines ↔ entered recs p ∧ n = selfSpec recs p ∧ n ≠ 0) ∧
      ws.Pairwise (fun a b => pathLt a.names b.names) ∧ ∀ p, p ∈ ws ↔ overfull recs p := by
  obtain ⟨a1, a2, a3⟩ := snapshot_of h0 hcall hbetween hothers hret
  refine ⟨a1, a2, a3, ?_⟩
  · obtain ⟨recs, lines, ws, h1, h2⟩ := C52_text cells (L.map value) (by
      intro d hd
      obtain ⟨r, hr, rfl⟩ := List.mem_map.1 hd
      exact hv r hr) P hn hP hc fuel hf ord ord'
    refine ⟨recs, lines, ws, ?_, ?_⟩
    · rw [h1, List.flatMap_map]
    · rw [List.map_map] at h2
      exact h2

/-! ### A concrete case -/

namespace GlobalRootsExamples

/-- Thread 1 registers root 5, thread 0 profiles; thread 2 registers root 6 while thread 0 waits for the lock. -/
def programs : Tid → List Instr
  | 0 => [.call .roots]
  | 1 => [.call (.register 5)]
  | 2 => [.call (.register 6)]
  | _ => []

def body : Root → List Instr → Prop := fun _ b => b = []

example : ∃ before between c1 c2 c3 c4, Steps body (initial programs) before c1 ∧ Step body c1 [.call 0 .roots] c2 ∧
    Steps body c2 between c3 ∧ (∀ e ∈ between, e.tid ≠ 0) ∧ Step body c3 [.ret 0 .roots [5, 6]] c4 ∧ returnedBy 1 before = [5] := by
  refine ⟨_, _, _, _, _, _,
    (((Steps.refl _).snoc (.call (t := 1) (o := .register 5) (k := []) rfl)).snoc (.acquire (t := 1) (o := .register 5) (k := []) rfl rfl rfl)
      |>.snoc (.push (t := 1) (r := 5) (k := []) rfl)).snoc (.release (t := 1) (o := .register 5) (l := []) (k := []) rfl),
    .call (t := 0) (o := .roots) (k := []) rfl,
    ((((Steps.refl _).snoc (.call (t := 2) (o := .register 6) (k := []) rfl)).snoc (.acquire (t := 2) (o := .register 6) (k := []) rfl rfl rfl)
      |>.snoc (.push (t := 2) (r := 6) (k := []) rfl)).snoc (.release (t := 2) (o := .register 6) (l := []) (k := []) rfl)
      |>.snoc (.acquire (t := 0) (o := .roots) (k := []) rfl rfl rfl)).snoc (.clone (t := 0) (k := []) rfl),
    ?_, .release (t := 0) (o := .roots) (k := []) rfl, ?_⟩
  · intro e he
    simp at he
    rcases he with rfl | rfl <;> simp [Registry.Event.tid]
  · rfl

end GlobalRootsExamples

/-! The theorem of this file with a concrete case of its hypotheses: that execution, and the data of `ReportExamples` in the roots. -/
namespace GlobalRootsExamples

attribute [local instance] Target.x64
open ReportExamples

/-- Root 5 is an `Arc`, root 6 is `Some` of a `String`. -/
def value (r : Root) : Datum := if r = 5 then .arc tArc 8 7 else .some tOpt (.string DataExamples.tString 2 3)

theorem value_reach (p : Ptr) : p ∈ [7] ↔ ReachableCell cells ([5, 6].map value) p := by
  constructor
  · intro h
    simp only [List.mem_singleton] at h
    subst h
    exact .root (d := .arc tArc 8 7) (by simp [value]) (by simp [Datum.pointers])
  · intro h
    induction h with
    | root hd hp =>
      simp only [value, List.map_cons, List.map_nil, List.mem_cons, List.not_mem_nil, or_false] at hd
      rcases hd with rfl | rfl
      · simpa [Datum.pointers] using hp
      · simp [Datum.pointers] at hp
    | step _ hp _ => simp [cells, Cell.datum, Datum.pointers] at hp

example (ord : HashOrder TreeId) (ord' : HashOrder (List Str)) := C54_global_roots body programs _ _ _ _ _ _ 0 [5, 6]
    ((((Steps.refl _).snoc (.call (t := 1) (o := .register 5) (k := []) rfl)).snoc (.acquire (t := 1) (o := .register 5) (k := []) rfl rfl rfl)
      |>.snoc (.push (t := 1) (r := 5) (k := []) rfl)).snoc (.release (t := 1) (o := .register 5) (l := []) (k := []) rfl))
    (.call (t := 0) (o := .roots) (k := []) rfl)
    (((((Steps.refl _).snoc (.call (t := 2) (o := .register 6) (k := []) rfl)).snoc (.acquire (t := 2) (o := .register 6) (k := []) rfl rfl rfl)
      |>.snoc (.push (t := 2) (r := 6) (k := []) rfl)).snoc (.release (t := 2) (o := .register 6) (l := []) (k := []) rfl)
      |>.snoc (.acquire (t := 0) (o := .roots) (k := []) rfl rfl rfl)).snoc (.clone (t := 0) (k := []) rfl))
    (by
      intro e he
      simp at he
      rcases he with rfl | rfl <;> simp [Registry.Event.tid])
    (.release (t := 0) (o := .roots) (k := []) rfl)
    value (by
      intro r _
      unfold value
      split <;> simp [Datum.WF])
    cells [7] (by simp) value_reach (by simp [cells, Cell.datum, Datum.WF]) 1 (by simp) ord ord'

end GlobalRootsExamples

end Allocative
