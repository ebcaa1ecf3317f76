import Verif.Lemmas.Report
import Verif.Props.Data
set_option linter.unusedSimpArgs false
/-
C52: the report of any values built from the supported types, as text, is the documented one.
-/
namespace Allocative

theorem entered_perm {a b : List Rec} (h : a.Perm b) (p : Path) : entered a p ↔ entered b p := by
  simp only [entered, h.mem_iff]
theorem sizeAt_perm {a b : List Rec} (h : a.Perm b) (p : Path) : sizeAt a p = sizeAt b p := (h.map _).sum_nat
theorem childrenAt_perm {a b : List Rec} (h : a.Perm b) (p : Path) : childrenAt a p = childrenAt b p := (h.map _).sum_nat
theorem uniqueAt_perm {a b : List Rec} (h : a.Perm b) (p : Path) : uniqueAt a p = uniqueAt b p := by
  rw [Bool.eq_iff_iff]; simp only [uniqueAt, List.any_eq_true, h.mem_iff]
theorem attributed_perm {a b : List Rec} (h : a.Perm b) : attributed a = attributed b := by
  unfold attributed
  simp only [uniqueAt_perm h]
  exact (h.map _).sum_nat

theorem flatMap_congr' {α β : Type} {l : List α} {f g : α → List β} (h : ∀ x ∈ l, f x = g x) : l.flatMap f = l.flatMap g := by
  induction l with
  | nil => rfl
  | cons a l ih => simp only [List.flatMap_cons, h a (by simp), ih fun x hx => h x (by simp [hx])]

/-- C52. The visit of a value makes exactly the records of the specification, and finds exactly the shared pointers of the specification. -/
theorem C52_records [Target] (d : Datum) (h : d.WF) (cur : Path) :
    d.value.visit.own cur = d.report cur ∧ d.value.visit.ptrs = d.pointers := ⟨reported d h cur, pointed d h⟩

/-- C52. The same for the contents of shared allocations. -/
theorem C52_cells [Target] (c : Cell) (h : c.datum.WF) : c.visit.own [] = c.report ∧ c.visit.ptrs = c.datum.pointers :=
  ⟨cell_report c h, cell_pointers c h⟩

/-- C52. A builder that visits some roots prints: for each stack entered by the specified records of the roots and of every shared allocation reachable
from them, counted once, one line with its self size, in order, and one warning for each over-full stack. -/
theorem C52_text [Target] (cells : Ptr → Cell) (roots : List Datum) (hr : ∀ d ∈ roots, d.WF) (L : List Ptr) (hn : L.Nodup)
    (hL : ∀ p, p ∈ L ↔ ReachableCell cells roots p) (hc : ∀ p ∈ L, (cells p).datum.WF) (fuel : Nat) (hf : L.length ≤ fuel)
    (ord : HashOrder TreeId) (ord' : HashOrder (List Str)) :
    ∃ (recs : List Rec) (lines : List (Path × Nat)) (ws : List Path),
      recs = roots.flatMap (fun d => d.report []) ++ L.flatMap (fun p => (cells p).report) ∧
      observe ord ord' (visits (fun p => (cells p).visit) fuel (roots.map fun d => d.value.visit)) =
        .ok ⟨lines.flatMap renderLine, attributed recs + (ws.map fun p => childrenAt recs p - sizeAt recs p).sum, ws.flatMap (renderWarning recs)⟩ ∧
      lines.Pairwise (fun a b => pathLt a.1.names b.1.names) ∧
      (∀ p n, (p, n) ∈ lines ↔ entered recs p ∧ n = selfSpec recs p ∧ n ≠ 0) ∧
      ws.Pairwise (fun a b => pathLt a.names b.names) ∧ ∀ p, p ∈ ws ↔ overfull recs p := by
  have hc' : ∀ p, ReachableCell cells roots p → (cells p).datum.WF := fun p hp => hc p ((hL p).2 hp)
  have hp := (C08_counted_once_iff_reachable (fun p => (cells p).visit) (roots.map fun d => d.value.visit) L hn
    (fun p => (hL p).trans (reachable_iff hr hc' p).symm) fuel hf).2
  have hnl := visits_noLeaks (fun p => (cells p).visit) fuel (roots.map fun d => d.value.visit)
  have hk : ProperKeys (visits (fun p => (cells p).visit) fuel (roots.map fun d => d.value.visit)) := by
    intro x hx
    simp only [visits, List.map_map, List.mem_map] at hx
    obtain ⟨d, hd, rfl⟩ := hx
    exact visit_keysAre (fun p => cell_proper (cells p)) fuel _ (proper d)
  generalize visits (fun p => (cells p).visit) fuel (roots.map fun d => d.value.visit) = hist at *
  obtain ⟨out, ws, e, hb, hs, hw, hwn, hm, hso⟩ := run_spec hnl hk ord
  obtain ⟨out', ws', e', hw', hwn', hm', ht⟩ := C16_conservation_exact hist hnl ord
  rw [e] at e'
  cases e'
  obtain ⟨lines, hl, hls, hlm⟩ := C02_text_exact_sorted out.flamegraph hb ord'
  have h1 : (roots.map fun d => d.value.visit).flatMap (fun o => o.own []) = roots.flatMap fun d => d.report [] := by
    rw [List.flatMap_map]
    exact flatMap_congr' fun d hd => reported d (hr d hd) []
  have h2 : L.flatMap (fun p => (cells p).visit.own []) = L.flatMap fun p => (cells p).report :=
    flatMap_congr' fun p hp => cell_report _ (hc p hp)
  rw [h1, h2] at hp
  generalize hR : roots.flatMap (fun d => d.report []) ++ L.flatMap (fun p => (cells p).report) = recs at *
  have hren : renderWarning (records hist) = renderWarning recs := by
    funext p
    simp only [renderWarning, sizeAt_perm hp, childrenAt_perm hp]
  have hself : selfSpec (records hist) = selfSpec recs := by
    funext p
    simp only [selfSpec, remAt, sizeAt_perm hp, childrenAt_perm hp, uniqueAt_perm hp]
  have hov : ∀ p, overfull (records hist) p ↔ overfull recs p := by
    intro p
    simp only [overfull, sizeAt_perm hp, childrenAt_perm hp, uniqueAt_perm hp, entered_perm hp]
  have hsum : (ws'.map fun p => childrenAt (records hist) p - sizeAt (records hist) p).sum = (ws.map fun p => childrenAt recs p - sizeAt recs p).sum := by
    have : ws'.Perm ws := (List.perm_ext_iff_of_nodup hwn' hwn).2 fun p => by rw [hm', hm]
    simp only [sizeAt_perm hp, childrenAt_perm hp]
    exact (this.map _).sum_nat
  refine ⟨recs, lines, ws, rfl, ?_, hls, ?_, hso fun _ h => h, fun p => (hm p).trans (hov p)⟩
  · simp only [observe, e, hl, ht, hw, hren, attributed_perm hp, hsum]
  · intro p n
    rw [hlm, hs p, hself]
    have hne : entered recs p → p ≠ [] := by
      rintro ⟨r, hr', rfl⟩
      rw [← hR] at hr'
      rcases List.mem_append.1 hr' with h | h
      · obtain ⟨d, hd, h⟩ := List.mem_flatMap.1 h
        rw [← reported d (hr d hd) []] at h
        obtain ⟨k, s, h⟩ := own_path _ _ r h
        rw [h]; simp
      · obtain ⟨q, hq, h⟩ := List.mem_flatMap.1 h
        rw [← cell_report _ (hc q hq)] at h
        obtain ⟨k, s, h⟩ := own_path _ _ r h
        rw [h]; simp
    simp only [entered_perm hp]
    constructor
    · rintro ⟨h1, h2, h3⟩
      by_cases he : entered recs p
      · simp only [he, or_true, if_true, Option.some.injEq] at h3
        exact ⟨he, h3.symm, h2⟩
      · simp [he, h1] at h3
    · rintro ⟨h1, h2, h3⟩
      exact ⟨hne h1, h3, by simp [h1, h2]⟩

/-! ### Concrete cases -/

namespace ReportExamples

attribute [local instance] Target.x64
open DataExamples

def tArc : Ty := ⟨ascii "alloc::sync::Arc<alloc::string::String>", 8, true⟩
def tOpt : Ty := ⟨ascii "core::option::Option<alloc::string::String>", 24, true⟩
def tTable : Ty := ⟨ascii "hashbrown::table::HashTable<u8>", 32, true⟩

/-- Two pointers to the same `Arc` of a `String`, and `Some` of a `String`. -/
def roots : List Datum := [.arc tArc 8 7, .arc tArc 8 7, .some tOpt (.string tString 2 3)]
def cells : Ptr → Cell := fun _ => .arc 40 (.string tString 4 4)

theorem reach (p : Ptr) : p ∈ [7] ↔ ReachableCell cells roots p := by
  constructor
  · intro h
    simp only [List.mem_singleton] at h
    subst h
    exact .root (d := .arc tArc 8 7) (by simp [roots]) (by simp [Datum.pointers])
  · intro h
    cases h with
    | root hd hp =>
      simp only [roots, List.mem_cons, List.not_mem_nil, or_false] at hd
      rcases hd with rfl | rfl | rfl <;> simp [Datum.pointers] at hp ⊢ <;> exact hp
    | step hq hp => simp [cells, Cell.datum, Datum.pointers] at hp

example (ord : HashOrder TreeId) (ord' : HashOrder (List Str)) : ∃ (recs : List Rec) (lines : List (Path × Nat)) (ws : List Path),
    recs = roots.flatMap (fun d => d.report []) ++ [7].flatMap (fun p => (cells p).report) ∧
    observe ord ord' (visits (fun p => (cells p).visit) 1 (roots.map fun d => d.value.visit)) =
      .ok ⟨lines.flatMap renderLine, attributed recs + (ws.map fun p => childrenAt recs p - sizeAt recs p).sum, ws.flatMap (renderWarning recs)⟩ ∧
    lines.Pairwise (fun a b => pathLt a.1.names b.1.names) ∧
    (∀ p n, (p, n) ∈ lines ↔ entered recs p ∧ n = selfSpec recs p ∧ n ≠ 0) ∧
    ws.Pairwise (fun a b => pathLt a.names b.names) ∧ ∀ p, p ∈ ws ↔ overfull recs p :=
  C52_text cells roots
    (by
      intro d hd
      simp only [roots, List.mem_cons, List.not_mem_nil, or_false] at hd
      rcases hd with rfl | rfl | rfl <;> simp [Datum.WF])
    [7] (by simp) reach (by simp [cells, Cell.datum, Datum.WF]) 1 (by simp) ord ord'

/-- The specification written out for these roots: `ArcInner` once, with its `String`. -/
example : roots.flatMap (fun d => d.report []) ++ [7].flatMap (fun p => (cells p).report) =
    [inl [ty tArc] 8, inl [ty tArc, lbl "ptr"] 8, inl [ty tArc] 8, inl [ty tArc, lbl "ptr"] 8,
     inl [ty tOpt] 24, inl [ty tOpt, lbl "Some"] 24, inl [ty tOpt, lbl "Some", ty tString] 24,
     uniq [ty tOpt, lbl "Some", ty tString, lbl "ptr"] 8, inl [ty tOpt, lbl "Some", ty tString, lbl "ptr", lbl "capacity"] 3,
     inl [ty tOpt, lbl "Some", ty tString, lbl "ptr", lbl "capacity", ty tU8] 2,
     inl [ty tOpt, lbl "Some", ty tString, lbl "ptr", lbl "capacity", lbl "unused_capacity"] 1,
     inl [lbl "ArcInner"] 40, inl [lbl "ArcInner", ty tString] 24, uniq [lbl "ArcInner", ty tString, lbl "ptr"] 8,
     inl [lbl "ArcInner", ty tString, lbl "ptr", lbl "capacity"] 4, inl [lbl "ArcInner", ty tString, lbl "ptr", lbl "capacity", ty tU8] 4,
     inl [lbl "ArcInner", ty tString, lbl "ptr", lbl "capacity", lbl "unused_capacity"] 0] := rfl

/-- A `HashTable` of three plain elements: 4 slots. -/
example : (Datum.hashTable tTable tU8 [.plain tU8, .plain tU8, .plain tU8] 3 24).WF ∧
    (Datum.hashTable tTable tU8 [.plain tU8, .plain tU8, .plain tU8] 3 24).report [] =
      [inl [ty tTable] 32, uniq [ty tTable, lbl "data"] 8, inl [ty tTable, lbl "data", lbl "capacity"] 8,
       inl [ty tTable, lbl "data", lbl "capacity", ty tU8] 3] := by
  constructor
  · simp [Datum.WF, Datum.AllOf, Datum.WFAll, Datum.value, Datum.size, Impl.plain, Impl.sized, tU8, tableBytes, leastPow2]
  · simp [Datum.report, Datum.parts, reportElements, tU8, tTable, tableBytes, leastPow2]

end ReportExamples

/-! The theorems of this file with a concrete case of their hypotheses. -/
namespace ReportExamples

attribute [local instance] Target.x64
open DataExamples

example := C52_records v v_wf [lbl "root"]
example := C52_cells (.arc 40 v) v_wf

end ReportExamples

end Allocative
