import Verif.Spec.Retained
import Verif.Props.Merge
set_option linter.unusedSimpArgs false
/-
C78: what some of the roots add to a profile.
-/
namespace Allocative

theorem reachableCell_append {cells : Ptr → Cell} {a b : List Datum} {p : Ptr} : ReachableCell cells (a ++ b) p ↔ ReachableCell cells a p ∨ ReachableCell cells b p := by
  constructor
  · intro h
    induction h with
    | root hd hp => exact (List.mem_append.1 hd).imp (.root · hp) (.root · hp)
    | step _ hp ih => exact ih.imp (.step · hp) (.step · hp)
  · rintro (h | h)
    · induction h with
      | root hd hp => exact .root (List.mem_append_left _ hd) hp
      | step _ hp ih => exact .step ih hp
    · induction h with
      | root hd hp => exact .root (List.mem_append_right _ hd) hp
      | step _ hp ih => exact .step ih hp

theorem reachableCell_perm {cells : Ptr → Cell} {a b : List Datum} (h : a.Perm b) {p : Ptr} (hp : ReachableCell cells a p) : ReachableCell cells b p := by
  induction hp with
  | root hd hp => exact .root (h.mem_iff.1 hd) hp
  | step _ hp ih => exact .step ih hp

/-- C78. Two profiles, of `keep` and of `all`, which is `keep` and `extra` in any order.  At every stack the second has more by what the values `extra` and the shared allocations reachable
only from them contribute; the total is larger by the memory of these (but for the bytes that profiles do not see, C32 and C33).  No other stack changes. -/
theorem C78_retained [Target] {ρ : Str → Role} (hρ : Reserved ρ) (allocs : Ptr → Alloc) (bytes : Ptr → Nat) (keep extra all : List Datum) (hall : all.Perm (keep ++ extra))
    (L M only : List Ptr) (h : Profilable ρ allocs bytes keep L) (h' : Profilable ρ allocs bytes all M) (ho : Retained (fun p => (allocs p).cell) keep extra only)
    (fuel fuel' : Nat) (hf : L.length ≤ fuel) (hf' : M.length ≤ fuel') (ord ord' : HashOrder TreeId) :
    ∃ out out', run ord (visits (fun p => (allocs p).cell.visit) fuel (keep.map fun d => d.value.visit)) = .ok out ∧
      run ord' (visits (fun p => (allocs p).cell.visit) fuel' (all.map fun d => d.value.visit)) = .ok out' ∧ out.warnings = [] ∧ out'.warnings = [] ∧
      (∀ p, (out'.flamegraph.selfAt p).getD 0 = (out.flamegraph.selfAt p).getD 0 + ((extra.map fun d => gapsAt (d.report []) p).sum + (only.map fun q => gapsAt (allocs q).cell.report p).sum)) ∧
      out'.flamegraph.totalSize + ((extra.map Datum.unseen).sum + (only.map fun p => (allocs p).unseen).sum) =
        out.flamegraph.totalSize + ((extra.map Datum.footprint).sum + (only.map fun p => bytes p + (allocs p).value.heapBytes).sum) := by
  obtain ⟨out, e, hw, hb, hs, ht⟩ := h.profile hρ fuel hf ord
  obtain ⟨out', e', hw', hb', hs', ht'⟩ := h'.profile hρ fuel' hf' ord'
  have hM : M.Perm (L ++ only) := by
    refine (List.perm_ext_iff_of_nodup h'.nodup ?_).2 fun p => ?_
    · refine List.nodup_append.2 ⟨h.nodup, ho.nodup, ?_⟩
      rintro a ha b hb rfl
      exact ((ho.mem a).1 hb).2 ((h.reachable a).1 ha)
    · rw [h'.reachable, List.mem_append, h.reachable, ho.mem]
      have : ReachableCell (fun p => (allocs p).cell) all p ↔ ReachableCell (fun p => (allocs p).cell) keep p ∨ ReachableCell (fun p => (allocs p).cell) extra p :=
        (Iff.intro (reachableCell_perm hall) (reachableCell_perm hall.symm)).trans reachableCell_append
      rw [this]
      by_cases hk : ReachableCell (fun p => (allocs p).cell) keep p <;> simp [hk]
  have sd : ∀ f : Datum → Nat, (all.map f).sum = (keep.map f).sum + (extra.map f).sum := fun f => by
    rw [(hall.map f).sum_nat, List.map_append, List.sum_append]
  have sp : ∀ f : Ptr → Nat, (M.map f).sum = (L.map f).sum + (only.map f).sum := fun f => by
    rw [(hM.map f).sum_nat, List.map_append, List.sum_append]
  refine ⟨out, out', e, e', hw, hw', fun p => ?_, ?_⟩
  · rw [hs, hs', sd, sp]; omega
  · rw [sd, sd, sp, sp] at ht'
    omega

/-- C78. Values that were visited before, or others from which nothing new can be reached (another `Arc` to the same allocation): what they contribute themselves is added, and nothing
of the shared allocations. -/
theorem C78_again [Target] {ρ : Str → Role} (hρ : Reserved ρ) (allocs : Ptr → Alloc) (bytes : Ptr → Nat) (keep extra : List Datum) (L : List Ptr)
    (h : Profilable ρ allocs bytes keep L) (he : ∀ d ∈ extra, (d.WF ∧ d.Fits ∧ d.Named ρ) ∧ ∀ p ∈ d.pointers, ReachableCell (fun p => (allocs p).cell) keep p)
    (fuel fuel' : Nat) (hf : L.length ≤ fuel) (hf' : L.length ≤ fuel') (ord ord' : HashOrder TreeId) :
    ∃ out out', run ord (visits (fun p => (allocs p).cell.visit) fuel (keep.map fun d => d.value.visit)) = .ok out ∧
      run ord' (visits (fun p => (allocs p).cell.visit) fuel' ((keep ++ extra).map fun d => d.value.visit)) = .ok out' ∧ out.warnings = [] ∧ out'.warnings = [] ∧
      (∀ p, (out'.flamegraph.selfAt p).getD 0 = (out.flamegraph.selfAt p).getD 0 + (extra.map fun d => gapsAt (d.report []) p).sum) ∧
      out'.flamegraph.totalSize + (extra.map Datum.unseen).sum = out.flamegraph.totalSize + (extra.map Datum.footprint).sum := by
  have hre : ∀ p, ReachableCell (fun p => (allocs p).cell) extra p → ReachableCell (fun p => (allocs p).cell) keep p := by
    intro p hp
    induction hp with
    | root hd hp => exact (he _ hd).2 _ hp
    | step _ hp ih => exact .step ih hp
  have h' : Profilable ρ allocs bytes (keep ++ extra) L := by
    refine ⟨fun d hd => ?_, h.nodup, fun p => ?_, h.cells⟩
    · rcases List.mem_append.1 hd with hd | hd
      · exact h.values d hd
      · exact (he d hd).1
    · rw [h.reachable, reachableCell_append]
      exact ⟨.inl, fun x => x.elim id (hre p)⟩
  obtain ⟨out, out', e, e', w, w', hs, ht⟩ := C78_retained hρ allocs bytes keep extra (keep ++ extra) (List.Perm.refl _) L L [] h h'
    ⟨List.nodup_nil, fun p => ⟨fun x => (nomatch x), fun x => absurd (hre p x.1) x.2⟩⟩ fuel fuel' hf hf' ord ord'
  exact ⟨out, out', e, e', w, w', fun p => by simpa using hs p, by simpa using ht⟩

/-! ### A concrete case -/

namespace RetainedExamples

attribute [local instance] Target.x64
open DataExamples FootprintExamples NamesExamples GapsExamples MergeExamples

theorem node_profilable : Profilable roleOfName allocs (fun _ => 48) [node 7 3 5] [7, 9] := profilable (HashOrder.id _) ⟨_, _, HashOrder.id _⟩ (by simp [groups])

theorem padded_profilable : Profilable roleOfName allocs (fun _ => 48) [padded] [] := profilable (HashOrder.id _) ⟨_, _, HashOrder.id _⟩ (by simp [groups])

/-- A root that has nothing to do with the cycle is kept; the node and the cycle of two nodes reachable from it are retained by the node. -/
theorem retained : Retained (fun p => (allocs p).cell) [padded] [node 7 3 5] [7, 9] :=
  ⟨by simp, fun p => ⟨fun h => ⟨(node_profilable.reachable p).1 h, fun x => nomatch (padded_profilable.reachable p).2 x⟩, fun h => (node_profilable.reachable p).2 h.1⟩⟩

theorem both : Profilable roleOfName allocs (fun _ => 48) [node 7 3 5, padded] [7, 9] := by
  refine ⟨?_, by simp, fun p => ?_, fun p _ => cells_ok p⟩
  · intro d hd
    simp only [List.mem_cons, List.not_mem_nil, or_false] at hd
    rcases hd with rfl | rfl
    · exact node_profilable.values _ (by simp)
    · exact padded_ok
  · rw [node_profilable.reachable, show [node 7 3 5, padded] = [node 7 3 5] ++ [padded] from rfl, reachableCell_append]
    exact ⟨.inl, fun x => x.elim id fun x => nomatch (padded_profilable.reachable p).2 x⟩

/-- The node (32 bytes and a buffer of 5) retains two blocks of 48 bytes and a buffer of 2. -/
example (ord ord' : HashOrder TreeId) : ∃ out out', run ord (visits (fun p => (allocs p).cell.visit) 0 ([padded].map fun d => d.value.visit)) = .ok out ∧
    run ord' (visits (fun p => (allocs p).cell.visit) 2 ([node 7 3 5, padded].map fun d => d.value.visit)) = .ok out' ∧
    out'.flamegraph.totalSize = out.flamegraph.totalSize + ((32 + 5) + ((48 + 2) + (48 + 0))) := by
  obtain ⟨out, out', e, e', -, -, -, ht⟩ := C78_retained reserved allocs (fun _ => 48) [padded] [node 7 3 5] [node 7 3 5, padded] (List.Perm.swap _ _ _) [] [7, 9] [7, 9]
    padded_profilable both retained 0 2 (by simp) (by simp) ord ord'
  refine ⟨out, out', e, e', ?_⟩
  have u0 : (node 7 3 5).unseen = 0 := by decide
  have u7 : (allocs 7).unseen = 0 := by decide
  have u9 : (allocs 9).unseen = 0 := by decide
  have b7 : (allocs 7).value.heapBytes = 2 := by decide
  have b9 : (allocs 9).value.heapBytes = 0 := by decide
  have f0 : (node 7 3 5).footprint = 37 := by decide
  simpa [u0, u7, u9, b7, b9, f0] using ht

/-- A boxed `Arc` into the cycle, visited after the node, adds the box (a pointer that owns a pointer), and visiting the node again adds its 37 bytes again. -/
example (ord ord' : HashOrder TreeId) : ∃ out out', run ord (visits (fun p => (allocs p).cell.visit) 2 ([node 7 3 5].map fun d => d.value.visit)) = .ok out ∧
    run ord' (visits (fun p => (allocs p).cell.visit) 2 ([node 7 3 5, boxed, node 7 3 5].map fun d => d.value.visit)) = .ok out' ∧
    out'.flamegraph.totalSize = out.flamegraph.totalSize + ((8 + 8) + 37) := by
  have h7 : ReachableCell (fun p => (allocs p).cell) [node 7 3 5] 7 := (node_profilable.reachable 7).1 (by simp)
  have hn : (node 7 3 5).WF ∧ (node 7 3 5).Fits ∧ (node 7 3 5).Named roleOfName := node_profilable.values _ (by simp)
  have hb : boxed.WF ∧ boxed.Fits ∧ boxed.Named roleOfName := (profilable (HashOrder.id _) ⟨[boxed], [9, 7], HashOrder.id _⟩ (by simp [groups])).values _ (by simp)
  obtain ⟨out, out', e, e', -, -, -, ht⟩ := C78_again reserved allocs (fun _ => 48) [node 7 3 5] [boxed, node 7 3 5] [7, 9] node_profilable (by
    intro d hd
    simp only [List.mem_cons, List.not_mem_nil, or_false] at hd
    rcases hd with rfl | rfl
    · exact ⟨hb, fun p hp => by simp [Datum.pointers, boxed] at hp; exact hp ▸ h7⟩
    · exact ⟨hn, fun p hp => .root (by simp) hp⟩) 2 2 (by simp) (by simp) ord ord'
  refine ⟨out, out', e, e', ?_⟩
  have u0 : (node 7 3 5).unseen = 0 := by decide
  have u1 : boxed.unseen = 0 := by decide
  have f0 : (node 7 3 5).footprint = 37 := by decide
  have f1 : boxed.footprint = 16 := by decide
  simpa [u0, u1, f0, f1] using ht

end RetainedExamples
end Allocative
