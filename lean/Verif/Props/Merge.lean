import Verif.Spec.Merge
import Verif.Props.Gaps
import Verif.Props.Growth
set_option linter.unusedSimpArgs false
/-
C70: profiles taken with separate builders, added.
-/
namespace Allocative

theorem gapsAt_flatMap {α : Type} (l : List α) (f : α → Obj) (p : Path) :
    Next [] (l.flatMap fun x => (f x).own []) ∧ gapsAt (l.flatMap fun x => (f x).own []) p = (l.map fun x => gapsAt ((f x).own []) p).sum := by
  induction l with
  | nil => exact ⟨next_nil _, rfl⟩
  | cons x l ih =>
    refine ⟨next_own ih.1, ?_⟩
    have h1 := gapsAt_own (f x) [] p _ ih.1
    have h2 := gapsAt_own (f x) [] p [] (next_nil _)
    simp only [List.append_nil, gapsAt, Nat.add_zero] at h2
    rw [List.flatMap_cons, h1, ih.2, List.map_cons, List.sum_cons, h2]

/-- The profile of one group. -/
theorem Profilable.profile [Target] {ρ : Str → Role} (hρ : Reserved ρ) {allocs : Ptr → Alloc} {bytes : Ptr → Nat} {roots : List Datum} {L : List Ptr}
    (h : Profilable ρ allocs bytes roots L) (fuel : Nat) (hf : L.length ≤ fuel) (ord : HashOrder TreeId) :
    ∃ out, run ord (visits (fun p => (allocs p).cell.visit) fuel (roots.map fun d => d.value.visit)) = .ok out ∧ out.warnings = [] ∧
      out.flamegraph.Built Key.Proper ∧
      (∀ p, (out.flamegraph.selfAt p).getD 0 = (roots.map fun d => gapsAt (d.report []) p).sum + (L.map fun q => gapsAt (allocs q).cell.report p).sum) ∧
      out.flamegraph.totalSize + ((roots.map Datum.unseen).sum + (L.map fun p => (allocs p).unseen).sum) =
        (roots.map Datum.footprint).sum + (L.map fun p => bytes p + (allocs p).value.heapBytes).sum := by
  have hr := h.values
  have ha := h.cells
  obtain ⟨out, e, hw, -, htot⟩ := C59_named_accounting hρ allocs roots hr L h.nodup h.reachable bytes ha fuel hf ord
  have hc : ∀ p ∈ L, ((allocs p).cell).datum.WF := fun p hp => by
    obtain ⟨h1, h2, -, h3, h4, h5⟩ := ha p hp
    rw [(Alloc.cell_heap h3 h4 h5 h1).2.2]; exact h1
  have hc' : ∀ p, ReachableCell (fun p => (allocs p).cell) roots p → ((allocs p).cell).datum.WF := fun p hp => hc p ((h.reachable p).2 hp)
  have hp := (C08_counted_once_iff_reachable (fun p => (allocs p).cell.visit) (roots.map fun d => d.value.visit) L h.nodup
    (fun p => (h.reachable p).trans (reachable_iff (fun d hd => (hr d hd).1) hc' p).symm) fuel hf).2
  have hnl := visits_noLeaks (fun p => (allocs p).cell.visit) fuel (roots.map fun d => d.value.visit)
  have hk : ProperKeys (visits (fun p => (allocs p).cell.visit) fuel (roots.map fun d => d.value.visit)) := by
    intro x hx
    simp only [visits, List.map_map, List.mem_map] at hx
    obtain ⟨d, hd, rfl⟩ := hx
    exact visit_keysAre (fun p => cell_proper (allocs p).cell) fuel _ (proper d)
  obtain ⟨out', -, e', hb, hs, -⟩ := run_spec hnl hk ord
  rw [e] at e'
  cases e'
  refine ⟨out, e, hw, hb, fun p => ?_, htot⟩
  have e1 : roots.flatMap (fun d => d.report []) = (roots.map fun d => d.value.visit).flatMap fun o => o.own [] := by
    rw [List.flatMap_map]
    exact flatMap_congr' fun d hd => ((C52_records d (hr d hd).1 []).1).symm
  have e2 : L.flatMap (fun p => (allocs p).cell.report) = (L.map fun p => (allocs p).cell.visit).flatMap fun o => o.own [] := by
    rw [List.flatMap_map]
    exact flatMap_congr' fun p hp => ((C52_cells _ (hc p hp)).1).symm
  have hmix := unmixed_names hρ roots (fun p => (allocs p).cell) L (fun d hd => (hr d hd).2.2) (fun p hp => (ha p hp).2.2.1) _ rfl
  obtain ⟨-, -, hgap⟩ := gaps_all ((roots.map fun d => d.value.visit) ++ L.map fun p => (allocs p).cell.visit) (by
    intro o ho
    rcases List.mem_append.1 ho with ho | ho
    · obtain ⟨d, hd, rfl⟩ := List.mem_map.1 ho
      exact (datum_fit d (hr d hd).1 (hr d hd).2.1).2
    · obtain ⟨q, hq, rfl⟩ := List.mem_map.1 ho
      obtain ⟨h1, h2, -, h3, h4, h5⟩ := ha q hq
      exact Alloc.cell_consistent h3 h4 h5 h1 h2)
  have hsum : gapsAt (((roots.map fun d => d.value.visit) ++ L.map fun p => (allocs p).cell.visit).flatMap fun o => o.own []) p =
      (roots.map fun d => gapsAt (d.report []) p).sum + (L.map fun q => gapsAt (allocs q).cell.report p).sum := by
    rw [(gapsAt_flatMap _ (fun o => o) p).2, List.map_append, List.sum_append, List.map_map, List.map_map]
    congr 2
    · exact List.map_congr_left fun d hd => by
        simp only [Function.comp]; rw [(C52_records d (hr d hd).1 []).1]
    · exact List.map_congr_left fun q hq => by
        simp only [Function.comp]; rw [(C52_cells _ (hc q hq)).1]
  rw [e1, e2, ← List.flatMap_append] at hmix
  have hperm : (records (visits (fun p => (allocs p).cell.visit) fuel (roots.map fun d => d.value.visit))).Perm
      (((roots.map fun d => d.value.visit) ++ L.map fun p => (allocs p).cell.visit).flatMap fun o => o.own []) := by
    rw [List.flatMap_append]
    rw [List.flatMap_map (f := fun p => (allocs p).cell.visit)]
    exact hp
  have hself : ∀ p, p ≠ [] → selfSpec (records (visits (fun p => (allocs p).cell.visit) fuel (roots.map fun d => d.value.visit))) p =
      gapsAt (((roots.map fun d => d.value.visit) ++ L.map fun p => (allocs p).cell.visit).flatMap fun o => o.own []) p := by
    intro p hp0
    rw [← hgap p hp0 hmix]
    simp only [selfSpec, remAt, sizeAt_perm hperm, childrenAt_perm hperm, uniqueAt_perm hperm]
  rw [hs p, ← hsum]
  by_cases hp0 : p = []
  · have h0 : gapsAt (((roots.map fun d => d.value.visit) ++ L.map fun p => (allocs p).cell.visit).flatMap fun o => o.own []) p = 0 := by
      rcases Nat.eq_zero_or_pos (gapsAt (((roots.map fun d => d.value.visit) ++ L.map fun p => (allocs p).cell.visit).flatMap fun o => o.own []) p) with h | h
      · exact h
      · obtain ⟨r, hr, hrp⟩ := gapsAt_entered _ p (Nat.ne_of_gt h)
        obtain ⟨o, -, ho⟩ := List.mem_flatMap.1 hr
        exact absurd (hrp.trans hp0) (own_below o [] r ho).2
    rw [h0, hp0]
    simp [selfSpec]
  · by_cases he : entered (records (visits (fun p => (allocs p).cell.visit) fuel (roots.map fun d => d.value.visit))) p
    · rw [if_pos (.inr he), ← hself p hp0]; rfl
    · rw [if_neg (by simp [hp0, he])]
      rcases Nat.eq_zero_or_pos (gapsAt (((roots.map fun d => d.value.visit) ++ L.map fun p => (allocs p).cell.visit).flatMap fun o => o.own []) p) with h | h
      · rw [h]; rfl
      · have := gapsAt_entered _ p (Nat.ne_of_gt h)
        exact absurd ((entered_perm hperm p).2 this) he

theorem reachableCell_flatMap {cells : Ptr → Cell} {α : Type u} (l : List α) (f : α → List Datum) (p : Ptr) :
    ReachableCell cells (l.flatMap f) p ↔ ∃ x ∈ l, ReachableCell cells (f x) p := by
  constructor
  · intro h
    induction h with
    | root hd hp =>
      obtain ⟨x, hx, hd⟩ := List.mem_flatMap.1 hd
      exact ⟨x, hx, .root hd hp⟩
    | step _ hp ih =>
      obtain ⟨x, hx, ih⟩ := ih
      exact ⟨x, hx, .step ih hp⟩
  · rintro ⟨x, hx, h⟩
    induction h with
    | root hd hp => exact .root (List.mem_flatMap.2 ⟨x, hx, hd⟩) hp
    | step _ hp ih => exact .step ih hp

/-- All groups at once. -/
theorem Profilable.joint [Target] {ρ : Str → Role} {allocs : Ptr → Alloc} {bytes : Ptr → Nat} {groups : List Group}
    (h : ∀ g ∈ groups, Profilable ρ allocs bytes g.roots g.reach) {all : List Ptr} (hnd : all.Nodup) (hall : ∀ p, p ∈ all ↔ ∃ g ∈ groups, p ∈ g.reach) :
    Profilable ρ allocs bytes (groups.flatMap Group.roots) all where
  values := by
    intro d hd
    obtain ⟨g, hg, hd⟩ := List.mem_flatMap.1 hd
    exact (h g hg).values d hd
  nodup := hnd
  reachable := by
    intro p
    rw [hall]
    refine Iff.trans ?_ (reachableCell_flatMap groups Group.roots p).symm
    exact ⟨fun ⟨g, hg, hp⟩ => ⟨g, hg, ((h g hg).reachable p).1 hp⟩, fun ⟨g, hg, hp⟩ => ⟨g, hg, ((h g hg).reachable p).2 hp⟩⟩
  cells := by
    intro p hp
    obtain ⟨g, hg, hp⟩ := (hall p).1 hp
    exact (h g hg).cells p hp

/-- A sum over some elements of a list. -/
theorem sum_subset {α : Type} [DecidableEq α] (f : α → Nat) : ∀ {all L : List α}, all.Nodup → L.Nodup → (∀ x ∈ L, x ∈ all) →
    (L.map f).sum = (all.map fun x => if x ∈ L then f x else 0).sum := by
  intro all L ha hL hs
  have hp : (all.filter fun x => x ∈ L).Perm L := (List.perm_ext_iff_of_nodup (ha.filter _) hL).2 fun x => by
    simp only [List.mem_filter, decide_eq_true_eq]
    exact ⟨fun h => h.2, fun h => ⟨hs x h, h⟩⟩
  rw [← (hp.map f).sum_nat]
  clear hp ha hs hL
  induction all with
  | nil => rfl
  | cons x all ih =>
    simp only [List.filter_cons, List.map_cons, List.sum_cons, ← ih]
    by_cases h : x ∈ L <;> simp [h]

theorem sum_add {α : Type} (l : List α) (f g : α → Nat) : (l.map f).sum + (l.map g).sum = (l.map fun x => f x + g x).sum := by
  induction l with
  | nil => rfl
  | cons x l ih => simp only [List.map_cons, List.sum_cons, ← ih]; omega

/-- The sums over what the groups reach: each allocation as often as it is reached. -/
theorem sum_reach (f : Ptr → Nat) (all : List Ptr) (hnd : all.Nodup) : ∀ (groups : List Group), (∀ g ∈ groups, g.reach.Nodup ∧ ∀ p ∈ g.reach, p ∈ all) →
    (groups.map fun g => (g.reach.map f).sum).sum = (all.map fun q => timesReached groups q * f q).sum := by
  intro groups
  induction groups with
  | nil =>
    intro h0
    clear h0
    symm
    clear hnd
    induction all with
    | nil => rfl
    | cons x all ih =>
      simp only [List.map_nil, List.sum_nil, timesReached, List.countP_nil, Nat.zero_mul] at ih
      simp only [List.map_cons, List.sum_cons, timesReached, List.countP_nil, Nat.zero_mul, Nat.zero_add, List.map_nil, List.sum_nil]
      exact ih
  | cons g groups ih =>
    intro h
    rw [List.map_cons, List.sum_cons, ih fun x hx => h x (by simp [hx]), sum_subset f hnd (h g (by simp)).1 (h g (by simp)).2, sum_add]
    congr 1
    refine List.map_congr_left fun q _ => ?_
    simp only [timesReached, List.countP_cons]
    by_cases hq : q ∈ g.reach
    · simp only [hq, if_true, decide_true, Nat.add_mul, Nat.one_mul]; omega
    · simp [hq]

theorem sum_once (f : Ptr → Nat) (groups : List Group) : ∀ (all : List Ptr), (∀ p ∈ all, 1 ≤ timesReached groups p) →
    (all.map fun q => timesReached groups q * f q).sum = (all.map f).sum + (all.map fun q => (timesReached groups q - 1) * f q).sum := by
  intro all h
  rw [sum_add]
  congr 1
  refine List.map_congr_left fun q hq => ?_
  obtain ⟨n, hn⟩ : ∃ n, timesReached groups q = n + 1 := ⟨timesReached groups q - 1, by have := h q hq; omega⟩
  rw [hn, Nat.add_mul]; simp; omega

theorem sum_flatMap' {α : Type u} {β : Type v} (l : List α) (f : α → List β) (g : β → Nat) : ((l.flatMap f).map g).sum = (l.map fun x => ((f x).map g).sum).sum := by
  induction l with
  | nil => rfl
  | cons x l ih => simp only [List.flatMap_cons, List.map_append, List.sum_append, List.map_cons, List.sum_cons, ih]

theorem mergeAll_spec (fgs : List FlameGraph) (h : ∀ fg ∈ fgs, fg.Built Key.Proper) :
    (mergeAll fgs).Built Key.Proper ∧ (∀ p, ((mergeAll fgs).selfAt p).getD 0 = (fgs.map fun fg => (fg.selfAt p).getD 0).sum) ∧
      (mergeAll fgs).totalSize = (fgs.map FlameGraph.totalSize).sum := by
  have key : ∀ (a : FlameGraph), a.Built Key.Proper → (fgs.foldl FlameGraph.add a).Built Key.Proper ∧
      (∀ p, ((fgs.foldl FlameGraph.add a).selfAt p).getD 0 = (a.selfAt p).getD 0 + (fgs.map fun fg => (fg.selfAt p).getD 0).sum) ∧
      (fgs.foldl FlameGraph.add a).totalSize = a.totalSize + (fgs.map FlameGraph.totalSize).sum := by
    induction fgs with
    | nil => intro a ha; exact ⟨ha, fun p => rfl, rfl⟩
    | cons fg fgs ih =>
      intro a ha
      have hb := h fg (by simp)
      obtain ⟨h1, h2, h3⟩ := ih (fun x hx => h x (by simp [hx])) (a.add fg) (.add ha hb)
      have g1 : ∀ p, ((a.add fg).selfAt p).getD 0 = (a.selfAt p).getD 0 + (fg.selfAt p).getD 0 := by
        intro p
        rw [FlameGraph.selfAt_add fg a hb.ok p]
        cases a.selfAt p <;> cases fg.selfAt p <;> simp [FlameGraph.optAdd]
      have g3 := FlameGraph.totalSize_add a fg hb.ok.sum
      refine ⟨h1, fun p => ?_, ?_⟩
      · rw [List.foldl_cons, h2 p, g1 p, List.map_cons, List.sum_cons]; omega
      · rw [List.foldl_cons, h3, g3, List.map_cons, List.sum_cons]; omega
  obtain ⟨h1, h2, h3⟩ := key .default .default
  refine ⟨h1, fun p => ?_, ?_⟩
  · have := h2 p
    rw [mergeAll, this]
    cases p <;> simp [FlameGraph.selfAt, FlameGraph.default, FlameGraph.find?, FlameGraph.nodeSize, HMap.get?]
  · rw [mergeAll, h3]; simp [FlameGraph.totalSize, FlameGraph.default]

/-- C70. Groups of values, each profiled with a builder of its own, and the flame graphs added.  Compared with one builder that visits all values, what is attributed to a stack
and the total are larger by each shared allocation once for every further group that reaches it.  If no allocation is reachable from two groups the texts are the same. -/
theorem C70_merge [Target] {ρ : Str → Role} (hρ : Reserved ρ) (allocs : Ptr → Alloc) (bytes : Ptr → Nat) (groups : List Group)
    (h : ∀ g ∈ groups, Profilable ρ allocs bytes g.roots g.reach) (all : List Ptr) (hnd : all.Nodup) (hall : ∀ p, p ∈ all ↔ ∃ g ∈ groups, p ∈ g.reach)
    (fuel : Nat) (hf : all.length ≤ fuel) (ord : HashOrder TreeId) :
    ∃ (outs : List Builder.Output) (out : Builder.Output),
      groups.map (fun g => run g.order (visits (fun p => (allocs p).cell.visit) fuel (g.roots.map fun d => d.value.visit))) = outs.map .ok ∧
      run ord (visits (fun p => (allocs p).cell.visit) fuel ((groups.flatMap Group.roots).map fun d => d.value.visit)) = .ok out ∧
      (∀ o ∈ outs, o.warnings = []) ∧ out.warnings = [] ∧
      (∀ p, ((mergeAll (outs.map (·.flamegraph))).selfAt p).getD 0 = (out.flamegraph.selfAt p).getD 0 +
        (all.map fun q => (timesReached groups q - 1) * gapsAt (allocs q).cell.report p).sum) ∧
      (mergeAll (outs.map (·.flamegraph))).totalSize + (all.map fun q => (timesReached groups q - 1) * (allocs q).unseen).sum =
        out.flamegraph.totalSize + (all.map fun q => (timesReached groups q - 1) * (bytes q + (allocs q).value.heapBytes)).sum ∧
      (Separate groups → (mergeAll (outs.map (·.flamegraph))).totalSize = out.flamegraph.totalSize ∧
        ∀ w w', (mergeAll (outs.map (·.flamegraph))).write w = out.flamegraph.write w') := by
  have hlen : ∀ g ∈ groups, g.reach.length ≤ fuel := by
    intro g hg
    have := length_le_of_nodup_subset (h g hg).nodup fun p hp => (hall p).2 ⟨g, hg, hp⟩
    omega
  have hones : ∀ p ∈ all, 1 ≤ timesReached groups p := by
    intro p hp
    obtain ⟨g, hg, hp⟩ := (hall p).1 hp
    exact List.countP_pos_iff.2 ⟨g, hg, by simpa using hp⟩
  have hreach : ∀ g ∈ groups, g.reach.Nodup ∧ ∀ p ∈ g.reach, p ∈ all := fun g hg => ⟨(h g hg).nodup, fun p hp => (hall p).2 ⟨g, hg, hp⟩⟩
  obtain ⟨out, eo, hwo, hbo, hso, hto⟩ := (Profilable.joint h hnd hall).profile hρ fuel hf ord
  have houts : ∃ outs : List Builder.Output,
      groups.map (fun g => run g.order (visits (fun p => (allocs p).cell.visit) fuel (g.roots.map fun d => d.value.visit))) = outs.map .ok ∧
      (∀ o ∈ outs, o.warnings = [] ∧ o.flamegraph.Built Key.Proper) ∧
      (∀ p, (outs.map fun o => (o.flamegraph.selfAt p).getD 0).sum = (groups.map fun g => (g.roots.map fun d => gapsAt (d.report []) p).sum).sum +
        (groups.map fun g => (g.reach.map fun q => gapsAt (allocs q).cell.report p).sum).sum) ∧
      (outs.map fun o => o.flamegraph.totalSize).sum + ((groups.map fun g => (g.roots.map Datum.unseen).sum).sum +
          (groups.map fun g => (g.reach.map fun q => (allocs q).unseen).sum).sum) =
        (groups.map fun g => (g.roots.map Datum.footprint).sum).sum +
          (groups.map fun g => (g.reach.map fun q => bytes q + (allocs q).value.heapBytes).sum).sum := by
    clear hones hreach hnd hall hf eo hwo hbo hso hto
    induction groups with
    | nil => exact ⟨[], rfl, by simp, fun p => rfl, rfl⟩
    | cons g groups ih =>
      obtain ⟨outs, e, hb, hs, ht⟩ := ih (fun x hx => h x (by simp [hx])) (fun x hx => hlen x (by simp [hx]))
      obtain ⟨o, eo, hwo, hbo, hso, hto⟩ := (h g (by simp)).profile hρ fuel (hlen g (by simp)) g.order
      refine ⟨o :: outs, ?_, ?_, fun p => ?_, ?_⟩
      · simp only [List.map_cons, e, eo]
      · intro x hx
        rcases List.mem_cons.1 hx with rfl | hx
        · exact ⟨hwo, hbo⟩
        · exact hb x hx
      · have := hs p
        have := hso p
        simp only [List.map_cons, List.sum_cons] at *
        omega
      · simp only [List.map_cons, List.sum_cons] at *
        omega
  obtain ⟨outs, e, hb, hs, ht⟩ := houts
  obtain ⟨m1, m2, m3⟩ := mergeAll_spec (outs.map (·.flamegraph)) (by
    intro fg hfg
    obtain ⟨o, ho, rfl⟩ := List.mem_map.1 hfg
    exact (hb o ho).2)
  simp only [List.map_map, Function.comp_def] at m2 m3
  have hself : ∀ p, ((mergeAll (outs.map (·.flamegraph))).selfAt p).getD 0 = (out.flamegraph.selfAt p).getD 0 +
        (all.map fun q => (timesReached groups q - 1) * gapsAt (allocs q).cell.report p).sum := by
    intro p
    rw [m2, hs, hso, sum_reach _ all hnd groups hreach, sum_once _ groups all hones, sum_flatMap']
    omega
  have htot : (mergeAll (outs.map (·.flamegraph))).totalSize + (all.map fun q => (timesReached groups q - 1) * (allocs q).unseen).sum =
        out.flamegraph.totalSize + (all.map fun q => (timesReached groups q - 1) * (bytes q + (allocs q).value.heapBytes)).sum := by
    rw [sum_reach _ all hnd groups hreach, sum_once _ groups all hones, sum_reach _ all hnd groups hreach, sum_once _ groups all hones] at ht
    rw [sum_flatMap', sum_flatMap'] at hto
    rw [m3]
    omega
  refine ⟨outs, out, e, eo, fun o ho => (hb o ho).1, hwo, hself, htot, fun hsep => ?_⟩
  have hzero : ∀ f : Ptr → Nat, (all.map fun q => (timesReached groups q - 1) * f q).sum = 0 := by
    intro f
    have : ∀ l : List Ptr, (l.map fun q => (timesReached groups q - 1) * f q).sum = 0 := by
      intro l
      induction l with
      | nil => rfl
      | cons q l ih =>
        have := hsep q
        rw [List.map_cons, List.sum_cons, ih, show timesReached groups q - 1 = 0 by omega, Nat.zero_mul]
    exact this all
  refine ⟨by rw [hzero, hzero] at htot; omega, fun w w' => write_congr m1.ok hbo.ok ?_ w w'⟩
  intro p n _ hn
  have := hself p
  rw [hzero] at this
  cases h1 : (mergeAll (outs.map (·.flamegraph))).selfAt p <;> cases h2 : out.flamegraph.selfAt p <;> simp [h1, h2] at this ⊢ <;> omega

/-! ### A concrete case -/

namespace MergeExamples

attribute [local instance] Target.x64
open DataExamples FootprintExamples NamesExamples GapsExamples

def boxed : Datum := .box tBoxArc 8 (.arc tArcNode 8 7)

/-- A node, a boxed pointer into the same cycle, and a value that has nothing to do with them. -/
def groups (ord : HashOrder TreeId) : List Group := [⟨[node 7 3 5], [7, 9], ord⟩, ⟨[boxed], [9, 7], ord⟩, ⟨[padded], [], ord⟩]

theorem reach_cycle (d : Datum) (hd : ∀ p, p ∈ d.pointers ↔ p = 7) (p : Ptr) : p ∈ [7, 9] ↔ ReachableCell (fun p => (allocs p).cell) [d] p := by
  have h7 : ReachableCell (fun p => (allocs p).cell) [d] 7 := .root (d := d) (by simp) ((hd 7).2 rfl)
  constructor
  · intro h
    simp only [List.mem_cons, List.not_mem_nil, or_false] at h
    rcases h with rfl | rfl
    · exact h7
    · exact .step h7 (by simp [allocs, Alloc.cell, Cell.datum, Datum.pointers, node, pointersDerived, Datum.pointersEach])
  · intro h
    cases h with
    | root hd' hp =>
      simp only [List.mem_cons, List.not_mem_nil, or_false] at hd'
      subst hd'
      simp [(hd p).1 hp]
    | @step q _ hq hp =>
      simp only [allocs] at hp
      split at hp <;> simp [Alloc.cell, Cell.datum, Datum.pointers, node, pointersDerived, Datum.pointersEach] at hp ⊢ <;> simp [hp]

theorem cells_ok (p : Ptr) : (allocs p).value.WF ∧ (allocs p).value.Fits ∧ (allocs p).cell.Named roleOfName ∧ (allocs p).Exact ∧ (allocs p).Occupies 48 ∧
    48 ≤ Layout.isizeMax := by
  have e : ∀ a b c, (node a b c).size = 32 := fun a b c => rfl
  have ex : ∀ a b c, (Alloc.arc 8 (node a b c)).Exact := fun a b c => ⟨⟨3, by omega, rfl⟩, by rw [e]; decide⟩
  have oc : ∀ a b c, (Alloc.arc 8 (node a b c)).Occupies 48 := fun a b c => ⟨_, _, by rw [e]; exact arcBytes, rfl⟩
  have hn := named.2 p
  have : allocs p = .arc 8 (node 9 1 2) ∨ allocs p = .arc 8 (node 7 0 0) := by unfold allocs; split <;> simp
  rcases this with h | h <;> rw [h] at hn ⊢
  · obtain ⟨h1, h2, -⟩ := node_ok 9 1 2 (by omega) (by omega)
    exact ⟨h1, h2, hn, ex _ _ _, oc _ _ _, by decide⟩
  · obtain ⟨h1, h2, -⟩ := node_ok 7 0 0 (by omega) (by omega)
    exact ⟨h1, h2, hn, ex _ _ _, oc _ _ _, by decide⟩

theorem profilable (ord : HashOrder TreeId) : ∀ g ∈ groups ord, Profilable roleOfName allocs (fun _ => 48) g.roots g.reach := by
  intro g hg
  simp only [groups, List.mem_cons, List.not_mem_nil, or_false] at hg
  rcases hg with rfl | rfl | rfl
  · refine ⟨?_, by simp, reach_cycle _ (by intro p; simp [Datum.pointers, node, pointersDerived, Datum.pointersEach]), fun p _ => cells_ok p⟩
    intro d hd
    simp only [List.mem_cons, List.not_mem_nil, or_false] at hd
    subst hd
    obtain ⟨h1, h2, -⟩ := node_ok 7 3 5 (by omega) (by omega)
    exact ⟨h1, h2, node_named ..⟩
  · refine ⟨?_, by simp, fun p => Iff.trans ?_ (reach_cycle _ (by intro p; simp [Datum.pointers, boxed]) p), fun p _ => cells_ok p⟩
    · intro d hd
      simp only [List.mem_cons, List.not_mem_nil, or_false] at hd
      subst hd
      exact ⟨by simp [boxed, Datum.WF, tBoxArc, tArcNode], by simp [boxed, Datum.Fits, tBoxArc, tArcNode], named.1 _ (by simp [boxed, FootprintExamples.roots])⟩
    · simp only [List.mem_cons, List.not_mem_nil, or_false]
      exact or_comm
  · refine ⟨?_, by simp, fun p => ⟨fun h => (nomatch h), fun h => ?_⟩, fun p _ => cells_ok p⟩
    · intro d hd
      simp only [List.mem_cons, List.not_mem_nil, or_false] at hd
      subst hd
      exact padded_ok
    · exfalso
      induction h with
      | root hd hp =>
        simp only [List.mem_cons, List.not_mem_nil, or_false] at hd
        subst hd
        revert hp
        simp [padded, Datum.pointers, pointersDerived, Datum.pointersEach]
      | step _ _ ih => exact ih

/-- All hypotheses hold.  Both nodes of the cycle are in two of the profiles, so that the sum is larger than one profile of everything: by two blocks of 48 bytes and two bytes
of text. -/
example (ord : HashOrder TreeId) : ∃ (outs : List Builder.Output) (out : Builder.Output),
    (groups ord).map (fun g => run g.order (visits (fun p => (allocs p).cell.visit) 2 (g.roots.map fun d => d.value.visit))) = outs.map .ok ∧
    run ord (visits (fun p => (allocs p).cell.visit) 2 ([node 7 3 5, boxed, padded].map fun d => d.value.visit)) = .ok out ∧
    (mergeAll (outs.map (·.flamegraph))).totalSize = out.flamegraph.totalSize + ((48 + 2) + (48 + 0)) := by
  obtain ⟨outs, out, e, eo, -, -, -, ht, -⟩ := C70_merge reserved allocs (fun _ => 48) (groups ord) (profilable ord) [7, 9] (by simp) (by
    intro p; simp [groups, or_comm]) 2 (by simp) ord
  refine ⟨outs, out, e, eo, ?_⟩
  have h7 : timesReached (groups ord) 7 = 2 := by simp [timesReached, groups]
  have h9 : timesReached (groups ord) 9 = 2 := by simp [timesReached, groups]
  have u7 : (allocs 7).unseen = 0 := by decide
  have u9 : (allocs 9).unseen = 0 := by decide
  have b7 : (allocs 7).value.heapBytes = 2 := by decide
  have b9 : (allocs 9).value.heapBytes = 0 := by decide
  simpa [h7, h9, u7, u9, b7, b9] using ht

/-- Without the second group nothing is shared between groups. -/
example (ord : HashOrder TreeId) : Separate [⟨[node 7 3 5], [7, 9], ord⟩, ⟨[padded], [], ord⟩] := by
  intro q
  simp only [timesReached, List.countP_cons, List.countP_nil, List.not_mem_nil, decide_false, Bool.false_eq_true, if_false]
  split <;> simp

end MergeExamples
end Allocative
