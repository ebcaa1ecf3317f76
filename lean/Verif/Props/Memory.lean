import Verif.Lemmas.Levels
import Verif.Props.Footprint
import Verif.Props.Machine
import Verif.Props.Wrap
set_option linter.unusedSimpArgs false
/-
C60: sizes of values that exist do not overflow.
-/
namespace Allocative

theorem Lev.flatMap {α : Type} (l : List α) (f : α → List Rec) (m : α → Nat) {c : Nat} (h : ∀ x ∈ l, Lev c (m x) (f x)) :
    Lev c (l.map m).sum (l.flatMap f) := by
  induction l with
  | nil => exact .nil
  | cons x l ih =>
    simp only [List.flatMap_cons, List.map_cons, List.sum_cons]
    exact (h x (by simp)).append (ih fun y hy => h y (by simp [hy])) (Nat.le_refl _)

theorem sizeAt_le_level (recs : List Rec) (p : Path) : sizeAt recs p ≤ levelAt recs p.length := by
  unfold sizeAt levelAt
  induction recs with
  | nil => exact Nat.le_refl _
  | cons r rs ih =>
    simp only [List.map_cons, List.sum_cons]
    have : (if r.path = p then r.size else 0) ≤ (if r.path.length = p.length then r.size else 0) := by
      split
      · rename_i h; simp [h]
      · exact Nat.zero_le _
    omega

theorem childrenAt_le_level (recs : List Rec) (p : Path) : childrenAt recs p ≤ levelAt recs (p.length + 1) := by
  unfold childrenAt levelAt
  induction recs with
  | nil => exact Nat.le_refl _
  | cons r rs ih =>
    simp only [List.map_cons, List.sum_cons]
    have : (if isChild p r.path then r.size else 0) ≤ (if r.path.length = p.length + 1 then r.size else 0) := by
      split
      · rename_i h
        obtain ⟨k, h⟩ := isChild_iff.1 h
        simp [h]
      · exact Nat.zero_le _
    omega

/-- All sizes, depth by depth. -/
theorem sum_le_levels (recs : List Rec) (M D : Nat) (h : ∀ n, levelAt recs n ≤ M) (hz : levelAt recs 0 = 0) (hD : ∀ r ∈ recs, r.path.length ≤ D) :
    (recs.map Rec.size).sum ≤ D * M := by
  induction D generalizing recs with
  | zero =>
    have : (recs.map Rec.size).sum = levelAt recs 0 := by
      unfold levelAt
      clear h hz
      induction recs with
      | nil => rfl
      | cons r rs ih =>
        have h0 := hD r (by simp)
        have := ih fun x hx => hD x (by simp [hx])
        simp only [List.map_cons, List.sum_cons, this]
        rw [if_pos (by omega)]
    omega
  | succ D ih =>
    have h1 := ih (recs.filter fun r => r.path.length ≤ D)
      (fun n => Nat.le_trans (by
        clear ih h hz hD
        unfold levelAt
        induction recs with
        | nil => exact Nat.le_refl _
        | cons r rs ih =>
          simp only [List.filter_cons, List.map_cons, List.sum_cons]
          split
          · simp only [List.map_cons, List.sum_cons]; omega
          · omega) (h n))
      (by
        have : levelAt (recs.filter fun r => r.path.length ≤ D) 0 ≤ levelAt recs 0 := by
          clear ih h hz hD
          unfold levelAt
          induction recs with
          | nil => exact Nat.le_refl _
          | cons r rs ih =>
            simp only [List.filter_cons, List.map_cons, List.sum_cons]
            split
            · simp only [List.map_cons, List.sum_cons]; omega
            · omega
        omega)
      (by intro r hr; simpa using (List.mem_filter.1 hr).2)
    have h2 : (recs.map Rec.size).sum ≤ ((recs.filter fun r => r.path.length ≤ D).map Rec.size).sum + levelAt recs (D + 1) := by
      clear ih h hz h1
      unfold levelAt
      induction recs with
      | nil => exact Nat.le_refl _
      | cons r rs ih =>
        have := ih fun x hx => hD x (by simp [hx])
        have hr := hD r (by simp)
        simp only [List.filter_cons, List.map_cons, List.sum_cons]
        split
        · simp only [List.map_cons, List.sum_cons]; omega
        · rename_i hc
          simp only [decide_eq_true_eq] at hc
          rw [if_pos (by omega)]; omega
    have h3 := h (D + 1)
    rw [Nat.add_mul, Nat.one_mul]
    omega

/-- The same for shared allocations. -/
theorem Alloc.cell_level [Target] {a : Alloc} {n : Nat} (h : a.Exact) (ho : a.Occupies n) (hn : n ≤ Layout.isizeMax) (hw : a.value.WF) (hm : a.value.InMemory) :
    Lev 0 (n + a.value.heapBytes) a.cell.report := by
  obtain ⟨l, el, rfl, hs⟩ := Alloc.layout_exact h ho hn
  have hv := level a.value hw hm
  cases a with
  | arc align v =>
    simp only [Alloc.cell, el, Cell.report, Alloc.value] at *
    exact .cons (by simp) (by simp) (hv.at (by simp) (by omega))
  | rc align v =>
    simp only [Alloc.cell, el, Cell.report, Alloc.value] at *
    exact .cons (by simp) (by simp) (hv.at (by simp) (by omega))
  | triomphe align v =>
    simp only [Alloc.cell, el, Cell.report, Alloc.value] at *
    exact .cons (by simp) (by simp) (.cons (by simp) (by simp; omega) (hv.at (by simp) (by omega)))
  | thin header elem reprLayout repr len v =>
    simp only [Alloc.cell, el, Cell.report, Alloc.value] at *
    exact .cons (by simp) (by simp) (.cons (by simp) (by simp; omega) (hv.at (by simp) (by omega)))
  | future v =>
    simp only [Alloc.cell, el, Cell.report, Alloc.value] at *
    exact hv.at (by simp) (by omega)

theorem Snapshot.levels [Target] {allocs : Ptr → Alloc} {roots : List Datum} {L : List Ptr} {bytes : Ptr → Nat} (h : Snapshot allocs roots L bytes) (fuel : Nat)
    (hf : L.length ≤ fuel) :
    (records (visits (fun p => (allocs p).cell.visit) fuel (roots.map fun d => d.value.visit))).Perm
      (roots.flatMap (fun d => d.report []) ++ L.flatMap (fun p => (allocs p).cell.report)) ∧
    Lev 0 (memory allocs roots L bytes) (roots.flatMap (fun d => d.report []) ++ L.flatMap (fun p => (allocs p).cell.report)) := by
  have hc : ∀ p ∈ L, ((allocs p).cell).datum.WF := fun p hp => by
    obtain ⟨h1, -, h3, h4, h5⟩ := h.cells p hp
    rw [(Alloc.cell_heap h3 h4 h5 h1).2.2]; exact h1
  constructor
  · have hc' : ∀ p, ReachableCell (fun p => (allocs p).cell) roots p → ((allocs p).cell).datum.WF := fun p hp => hc p ((h.reachable p).2 hp)
    have hp := (C08_counted_once_iff_reachable (fun p => (allocs p).cell.visit) (roots.map fun d => d.value.visit) L h.nodup
      (fun p => (h.reachable p).trans (reachable_iff (fun d hd => (h.values d hd).1) hc' p).symm) fuel hf).2
    have h1 : (roots.map fun d => d.value.visit).flatMap (fun o => o.own []) = roots.flatMap fun d => d.report [] := by
      rw [List.flatMap_map]
      exact flatMap_congr' fun d hd => reported d (h.values d hd).1 []
    have h2 : L.flatMap (fun p => (allocs p).cell.visit.own []) = L.flatMap fun p => (allocs p).cell.report :=
      flatMap_congr' fun p hp => cell_report _ (hc p hp)
    rwa [h1, h2] at hp
  · refine (Lev.flatMap roots _ Datum.footprint ?_).append (Lev.flatMap L _ (fun p => bytes p + (allocs p).value.heapBytes) ?_) (Nat.le_refl _)
    · intro d hd
      exact level d (h.values d hd).1 (h.values d hd).2 []
    · intro p hp
      obtain ⟨h1, h2, h3, h4, h5⟩ := h.cells p hp
      exact Alloc.cell_level h3 h4 h5 h1 h2

theorem levelAt_perm {a b : List Rec} (h : a.Perm b) (n : Nat) : levelAt a n = levelAt b n := (h.map _).sum_nat

/-- C60. No stack of a profile is larger than the memory that exists, whatever the values are (maps, sets, mixed stacks included). -/
theorem C60_stack_bound [Target] (allocs : Ptr → Alloc) (roots : List Datum) (L : List Ptr) (bytes : Ptr → Nat) (h : Snapshot allocs roots L bytes) (fuel : Nat)
    (hf : L.length ≤ fuel) (ord : HashOrder TreeId) :
    ∃ out, run ord (visits (fun p => (allocs p).cell.visit) fuel (roots.map fun d => d.value.visit)) = .ok out ∧
      ∀ p n, out.flamegraph.selfAt p = some n → n ≤ memory allocs roots L bytes := by
  obtain ⟨hp, hl⟩ := h.levels fuel hf
  have hnl := visits_noLeaks (fun p => (allocs p).cell.visit) fuel (roots.map fun d => d.value.visit)
  obtain ⟨out, _, er, _, h1, _⟩ := run_spec (Q := fun _ => True) hnl (fun x _ => Prog.KeysAre.trivial x.1) ord
  refine ⟨out, er, ?_⟩
  intro p n hn
  rw [h1 p] at hn
  split at hn
  · cases hn
    have : selfSpec (records (visits (fun p => (allocs p).cell.visit) fuel (roots.map fun d => d.value.visit))) p ≤
        sizeAt (records (visits (fun p => (allocs p).cell.visit) fuel (roots.map fun d => d.value.visit))) p := by
      unfold selfSpec remAt
      split
      · exact Nat.zero_le _
      · split <;> omega
    have h2 := sizeAt_le_level (records (visits (fun p => (allocs p).cell.visit) fuel (roots.map fun d => d.value.visit))) p
    rw [levelAt_perm hp] at h2
    exact Nat.le_trans this (Nat.le_trans h2 (hl _).1)
  · cases hn

/-- C60. If the memory times the length of the longest stack is less than `isize::MAX + 1`, no arithmetic of a profile overflows: debug builds do not panic and
release builds compute the exact result. -/
theorem C60_no_overflow [Target] (allocs : Ptr → Alloc) (roots : List Datum) (L : List Ptr) (bytes : Ptr → Nat) (h : Snapshot allocs roots L bytes) (fuel : Nat)
    (hf : L.length ≤ fuel) (depth : Nat)
    (hd : ∀ r ∈ roots.flatMap (fun d => d.report []) ++ L.flatMap (fun p => (allocs p).cell.report), r.path.length ≤ depth)
    (hm : depth * memory allocs roots L bytes < Usize.half) (c : Machine.Checks) (ord : HashOrder TreeId) :
    ∃ out, Machine.run c ord (visits (fun p => (allocs p).cell.visit) fuel (roots.map fun d => d.value.visit)) = .ok out ∧
      run ord (visits (fun p => (allocs p).cell.visit) fuel (roots.map fun d => d.value.visit)) = .ok out ∧
      Machine.totalSize c out.flamegraph = .ok out.flamegraph.totalSize := by
  obtain ⟨hp, hl⟩ := h.levels fuel hf
  have hnl := visits_noLeaks (fun p => (allocs p).cell.visit) fuel (roots.map fun d => d.value.visit)
  obtain ⟨out, _, er, _⟩ := run_spec (Q := fun _ => True) hnl (fun x _ => Prog.KeysAre.trivial x.1) ord
  have hdecl : declared (visits (fun p => (allocs p).cell.visit) fuel (roots.map fun d => d.value.visit)) < Usize.half := by
    have : declared (visits (fun p => (allocs p).cell.visit) fuel (roots.map fun d => d.value.visit)) = _ := (hp.map Rec.size).sum_nat
    rw [this]
    exact Nat.lt_of_le_of_lt (sum_le_levels _ _ depth (fun n => (hl n).1) ((hl 0).2 (Nat.le_refl _)) hd) hm
  refine ⟨out, ?_, er, ?_⟩
  · rw [C42_exact _ hnl hdecl c ord]; exact er
  · have := total_le_declared hnl er
    simp only [Machine.totalSize, FlameGraph.totalSize] at *
    exact Machine.addUsize_fits (by word_omega)

/-- C60. However long the stacks are: if the memory is less than `isize::MAX + 1` bytes, a release build reports every stack with its exact self size. -/
theorem C60_release_exact [Target] (allocs : Ptr → Alloc) (roots : List Datum) (L : List Ptr) (bytes : Ptr → Nat) (h : Snapshot allocs roots L bytes) (fuel : Nat)
    (hf : L.length ≤ fuel) (hm : memory allocs roots L bytes < Usize.half) (ord : HashOrder TreeId) :
    ∃ out out', Machine.run .off ord (visits (fun p => (allocs p).cell.visit) fuel (roots.map fun d => d.value.visit)) = .ok out ∧
      run ord (visits (fun p => (allocs p).cell.visit) fuel (roots.map fun d => d.value.visit)) = .ok out' ∧
      ∀ p, out.flamegraph.selfAt p = out'.flamegraph.selfAt p := by
  obtain ⟨hp, hl⟩ := h.levels fuel hf
  have hnl := visits_noLeaks (fun p => (allocs p).cell.visit) fuel (roots.map fun d => d.value.visit)
  obtain ⟨out, ws, e, -⟩ := C56_release _ hnl ord
  obtain ⟨out', _, e', -⟩ := run_spec (Q := fun _ => True) hnl (fun x _ => Prog.KeysAre.trivial x.1) ord
  refine ⟨out, out', e, e', fun p => ?_⟩
  have h1 := sizeAt_le_level (records (visits (fun p => (allocs p).cell.visit) fuel (roots.map fun d => d.value.visit))) p
  have h2 := childrenAt_le_level (records (visits (fun p => (allocs p).cell.visit) fuel (roots.map fun d => d.value.visit))) p
  rw [levelAt_perm hp] at h1 h2
  have h3 := (hl p.length).1
  have h4 := (hl (p.length + 1)).1
  obtain ⟨o, o', eo, eo', heq⟩ := C56_local _ hnl ord p (by omega) (.inr (by omega))
  rw [e] at eo
  rw [e'] at eo'
  cases eo
  cases eo'
  exact heq

/-- C60. `size_of_unique` and `size_of_unique_allocated_data`: for a value whose memory is less than `usize::MAX + 1` bytes, debug and release builds return
the exact result. -/
theorem C60_size_of [Target] (d : Datum) (h : d.WF) (hm : d.footprint < Usize.modulus) (content : Ptr → Prog) (c : Machine.Checks) :
    ∃ n, SizeOf.sizeOfUniqueAllocatedData (d.value.visit.visitWith content) = .ok (some n) ∧
      Machine.sizeOfUniqueAllocatedData c (d.value.visit.visitWith content) = some n ∧
      Machine.sizeOfUnique c d.size (d.value.visit.visitWith content) = some (d.size + n) := by
  obtain ⟨n, e, hn⟩ := C32_accounting d h content
  have hn' : d.size + n < Usize.modulus := by unfold Datum.footprint at hm; omega
  have key : Machine.sizeOfUniqueAllocatedData c (d.value.visit.visitWith content) = some n := by
    obtain ⟨s, ctl, es, _, ho, hfit, _⟩ := sizeOf_both (d.value.visit.visitWith content) .root 0
    have hf : ∀ s, SizeOf.visitorImpl.finishChild .root .exit ctl s = .ok s := by intro s; cases ctl <;> rfl
    simp only [SizeOf.sizeOfUniqueAllocatedData, es, hf] at e
    cases ctl with
    | unwinding => simp at e
    | returned =>
      simp only [Except.ok.injEq, Option.some.injEq] at e
      subst e
      cases c with
      | on => simp only [Machine.sizeOfUniqueAllocatedData, hfit (by omega)]
      | off =>
        have ho' : Machine.sizeOfExec .off (d.value.visit.visitWith content) .root 0 = (s % Usize.modulus, .returned) := ho
        simp only [Machine.sizeOfUniqueAllocatedData, ho', Nat.mod_eq_of_lt (show s < Usize.modulus by omega)]
  refine ⟨n, e, key, ?_⟩
  simp only [Machine.sizeOfUnique, key, Machine.addUsize_fits (c := c) hn']

/-! ### Concrete cases -/

namespace MemoryExamples

attribute [local instance] Target.x64
open DataExamples FootprintExamples

/-- The cyclic example of C59. -/
theorem snapshot : Snapshot allocs FootprintExamples.roots [7, 9] (fun _ => 48) where
  values := by
    intro d hd
    simp only [FootprintExamples.roots, List.mem_cons, List.not_mem_nil, or_false] at hd
    rcases hd with rfl | rfl
    · exact ⟨(node_ok 7 3 5 (by omega) (by omega)).1, by
        simp [node, Datum.InMemory, Datum.InMemoryAll, Datum.sizes, Datum.size, Datum.value, Impl.arc, Impl.string, Impl.sized, tArcNode, tString, tNode]⟩
    · simp [Datum.WF, Datum.InMemory, tBoxArc, tArcNode]
  nodup := by simp
  reachable := FootprintExamples.reach
  cells := by
    have e : ∀ a b c, (node a b c).size = 32 := fun a b c => rfl
    have im : ∀ a b c, (node a b c).InMemory := fun a b c => by
      simp [node, Datum.InMemory, Datum.InMemoryAll, Datum.sizes, Datum.size, Datum.value, Impl.arc, Impl.string, Impl.sized, tArcNode, tString, tNode]
    have ex : ∀ a b c, (Alloc.arc 8 (node a b c)).Exact := fun a b c => ⟨⟨3, by omega, rfl⟩, by rw [e]; decide⟩
    have oc : ∀ a b c, (Alloc.arc 8 (node a b c)).Occupies 48 := fun a b c => ⟨_, _, by rw [e]; exact arcBytes, rfl⟩
    intro p hp
    have : allocs p = .arc 8 (node 9 1 2) ∨ allocs p = .arc 8 (node 7 0 0) := by unfold allocs; split <;> simp
    rcases this with h | h <;> rw [h]
    · exact ⟨(node_ok 9 1 2 (by omega) (by omega)).1, im _ _ _, ex _ _ _, oc _ _ _, by decide⟩
    · exact ⟨(node_ok 7 0 0 (by omega) (by omega)).1, im _ _ _, ex _ _ _, oc _ _ _, by decide⟩

/-- 151 bytes, stacks of at most 7 frames. -/
example (c : Machine.Checks) (ord : HashOrder TreeId) :
    ∃ out, Machine.run c ord (visits (fun p => (allocs p).cell.visit) 2 (FootprintExamples.roots.map fun d => d.value.visit)) = .ok out ∧
      run ord (visits (fun p => (allocs p).cell.visit) 2 (FootprintExamples.roots.map fun d => d.value.visit)) = .ok out ∧
      Machine.totalSize c out.flamegraph = .ok out.flamegraph.totalSize :=
  C60_no_overflow allocs FootprintExamples.roots [7, 9] (fun _ => 48) snapshot 2 (by simp) 7 (by decide)
    (by have : memory allocs FootprintExamples.roots [7, 9] (fun _ => 48) = 151 := rfl
        rw [this]; decide) c ord

/-- A map, whose entries are counted below a node that is too small (C33): each stack is still bounded by the memory of the map. -/
example (ord : HashOrder TreeId) :
    ∃ out, run ord (visits (fun p => (allocs p).cell.visit) 0 ([Datum.map tMap 148 [.plain tU8] [.string tString 2 3]].map fun d => d.value.visit)) = .ok out ∧
      ∀ p n, out.flamegraph.selfAt p = some n → n ≤ 48 + 148 + 3 :=
  C60_stack_bound allocs [.map tMap 148 [.plain tU8] [.string tString 2 3]] [] (fun _ => 0)
    { values := by
        simp [Datum.WF, Datum.WFAll, Datum.InMemory, Datum.InMemoryAll, Datum.sizes, Datum.size, Datum.value, Impl.plain, Impl.string, Impl.sized, tMap, tU8, tString]
      nodup := by simp
      reachable := by
        intro p
        simp only [List.not_mem_nil, false_iff]
        intro h
        induction h with
        | root hd hp => simp at hd; subst hd; simp [Datum.pointers, Datum.pointersEach, pointersPairs] at hp
        | step _ _ ih => exact ih
      cells := by simp } 0 (by simp) ord

end MemoryExamples

/-! The theorems of this file with a concrete case of their hypotheses. -/
namespace MemoryExamples

attribute [local instance] Target.x64
open DataExamples FootprintExamples

example (ord : HashOrder TreeId) := C60_release_exact allocs FootprintExamples.roots [7, 9] (fun _ => 48) snapshot 2 (by simp)
  (by have : memory allocs FootprintExamples.roots [7, 9] (fun _ => 48) = 151 := rfl
      rw [this]; decide) ord
example (content : Ptr → Prog) (c : Machine.Checks) := C60_size_of v v_wf (by decide) content c

end MemoryExamples

end Allocative
