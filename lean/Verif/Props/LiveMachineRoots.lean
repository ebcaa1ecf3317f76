import Verif.Props.LiveRoots
import Verif.Props.LiveMachine
/-
C79 for the roots that are registered: `visit_global_roots` while other threads register roots and change data, with machine arithmetic.
-/
namespace Allocative
open Registry

/-- C79, for all registered roots.  Thread `t` calls `visit_global_roots` on a new builder while other threads register roots in any interleaving and change the data (`env`); `L` is what it goes through: every root whose
registration had returned before the call, and only roots whose registration had begun.  There is a snapshot of these roots and of the allocations reachable in it such that a release build returns without a panic and with everything given
back, whatever the sizes, and reports the snapshot with sums cut to the bits of a usize; if no stack of the snapshot has a sum of `usize::MAX + 1` or more, both builds do exactly what is done with unbounded numbers; if some stack has, a debug build gives no profile; and if all
sizes together are less than `isize::MAX + 1`, `finish` returns exactly what is documented for the snapshot. -/
theorem C79_global_roots [Target] (body : Root → List Instr → Prop) (programs : Tid → List Instr) (before between : List Registry.Event) (c1 c2 c3 c4 : State)
    (t : Tid) (L : List Root)
    (h0 : Steps body (initial programs) before c1) (hcall : Step body c1 [.call t .roots] c2)
    (hbetween : Steps body c2 between c3) (hothers : ∀ e ∈ between, e.tid ≠ t) (hret : Step body c3 [.ret t .roots L] c4)
    (value : Root → LiveDatum) (S : Ptr → Prop) (hv : ∀ r ∈ L, (value r).OK S) (env : Env) (he : env.Respectful) (H : Ptr → LiveCell) (hcells : ∀ p, (H p).value.OK S) (st : Store) (n : Nat)
    (hS : env.LetsGo S st n)
    (P : List Ptr) (hn : P.Nodup) (hP : ∀ p, MayReach (env.looks (OneOwner H (L.map value)) st n) H (L.map value) p → p ∈ P) (fuel : Nat) (hf : P.length ≤ fuel) :
    (c1.roots <+: L ∧ L <+: c4.roots) ∧
    (∀ u, ∀ r ∈ returnedBy u before, r ∈ L) ∧ (∀ r ∈ L, ∃ u, r ∈ calledBy u (before ++ [.call t .roots] ++ between)) ∧
    ∃ b b' st' n', Builder.default.useRootsL env (liveVisits H fuel (L.map value)) st n = .ended b st' n' .returned ∧ st.SameHeld st' ∧
      ∃ (ds : List Datum) (cells : Ptr → Cell) (reached : List Ptr) (recs : List Rec),
        LiveDatum.SeesEach (env.looks (OneOwner H (L.map value)) st n) (L.map value) ds ∧ (∀ p, (H p).Sees (env.looks (OneOwner H (L.map value)) st n) (cells p)) ∧ reached.Nodup ∧
        (∀ p, p ∈ reached ↔ ReachableCell cells ds p) ∧ recs = ds.flatMap (fun d => d.report []) ++ reached.flatMap (fun p => (cells p).report) ∧
        Machine.useRootsL .off env Builder.default (liveVisits H fuel (L.map value)) st n = .ended b' st' n' .returned ∧ b'.ReportsWrapped recs ∧
        ((∀ p, sizeAt recs p < Usize.modulus) → ∀ c, Machine.useRootsL c env Builder.default (liveVisits H fuel (L.map value)) st n = .ended b st' n' .returned) ∧
        (∀ p, Usize.modulus ≤ sizeAt recs p → ∀ b1 st1 n1 ctl, Machine.useRootsL .on env Builder.default (liveVisits H fuel (L.map value)) st n = .ended b1 st1 n1 ctl → ∀ ord out, Machine.finish .on ord b1 ≠ .ok out) ∧
        ((recs.map Rec.size).sum < Usize.half → b.Reports recs ∧ ∀ c ord, Machine.finish c ord b = b.finish ord) := by
  obtain ⟨a1, a2, a3⟩ := snapshot_of h0 hcall hbetween hothers hret
  refine ⟨a1, a2, a3, C79_live S env he H hcells (L.map value) ?_ st n hS P hn hP fuel hf⟩
  intro v hvm
  obtain ⟨r, hr, rfl⟩ := List.mem_map.1 hvm
  exact hv r hr

attribute [local instance] Target.x64 in
/-- As below `C54_live_roots`: both registered roots are a pointer to a mutex that another thread changes. -/
example
    (st : Store) (n : Nat) (before between c1 c2 c3 c4)
    (h1 : Steps GlobalRootsExamples.body (initial GlobalRootsExamples.programs) before c1) (h2 : Step GlobalRootsExamples.body c1 [.call 0 .roots] c2)
    (h3 : Steps GlobalRootsExamples.body c2 between c3) (h4 : ∀ e ∈ between, e.tid ≠ 0) (h5 : Step GlobalRootsExamples.body c3 [.ret 0 .roots [5, 6]] c4) :=
  C79_global_roots GlobalRootsExamples.body GlobalRootsExamples.programs before between c1 c2 c3 c4 0 [5, 6] h1 h2 h3 h4 h5
    (fun _ => .still (.arc LiveEx.tArc 8 7)) LiveEx.S (fun _ _ => trivial) LiveEx.env LiveEx.respectful LiveEx.H LiveEx.vals_ok st n (LiveEx.letsGo st n) [7] (by simp)
    (fun p h => by rw [LiveEx.reach _ _ (fun _ => rfl) p h]; simp) 1 (by simp)

end Allocative
