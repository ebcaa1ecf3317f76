import Verif.Props.Live
import Verif.Props.GlobalRoots
/-
C54 and C61 together: a profile of all registered roots while other threads register roots and change what is in the registered ones.
-/
namespace Allocative
open Registry

/-- C54, for roots with locks, cells, weak pointers and `DashMap`s in them and in what they share, all of which other threads may change at any moment (`env`), while any threads register
roots in any interleaving.  Thread `t` calls `visit_global_roots` on a new builder; `L` is what it goes through.  Every root whose registration had returned before the call is in
`L`; everything in `L` was registered by a call that had begun; if others sooner or later let go of the shards of `DashMap`s (`S`) the visits return, with all guards and references given back; and the
output is that documented for a snapshot of the roots in `L` and of the allocations reachable in it, in which each place is as it was seen at one moment. -/
theorem C54_live_roots [Target] (body : Root → List Instr → Prop) (programs : Tid → List Instr) (before between : List Registry.Event) (c1 c2 c3 c4 : State)
    (t : Tid) (L : List Root)
    (h0 : Steps body (initial programs) before c1) (hcall : Step body c1 [.call t .roots] c2)
    (hbetween : Steps body c2 between c3) (hothers : ∀ e ∈ between, e.tid ≠ t) (hret : Step body c3 [.ret t .roots L] c4)
    (value : Root → LiveDatum) (S : Ptr → Prop) (hv : ∀ r ∈ L, (value r).OK S) (env : Env) (he : env.Respectful) (H : Ptr → LiveCell) (hcells : ∀ p, (H p).value.OK S) (st : Store) (n : Nat)
    (hS : env.LetsGo S st n)
    (P : List Ptr) (hn : P.Nodup) (hP : ∀ p, MayReach (env.looks (OneOwner H (L.map value)) st n) H (L.map value) p → p ∈ P) (fuel : Nat) (hf : P.length ≤ fuel)
    (ord : HashOrder TreeId) (ord' : HashOrder (List Str)) :
    (c1.roots <+: L ∧ L <+: c4.roots) ∧
    (∀ u, ∀ r ∈ returnedBy u before, r ∈ L) ∧ (∀ r ∈ L, ∃ u, r ∈ calledBy u (before ++ [.call t .roots] ++ between)) ∧
    ∃ b st' n' out, Builder.default.useRootsL env (liveVisits H fuel (L.map value)) st n = .ended b st' n' .returned ∧ st.SameHeld st' ∧
      env.Occurs False st n [] st' ∧ b.finish ord = .ok out ∧
      ∃ (ds : List Datum) (cells : Ptr → Cell) (reached : List Ptr) (recs : List Rec) (lines : List (Path × Nat)) (ws : List Path),
        LiveDatum.SeesEach (env.looks (OneOwner H (L.map value)) st n) (L.map value) ds ∧
        (∀ p, (H p).Sees (env.looks (OneOwner H (L.map value)) st n) (cells p)) ∧ reached.Nodup ∧ (∀ p, p ∈ reached ↔ ReachableCell cells ds p) ∧
        recs = ds.flatMap (fun d => d.report []) ++ reached.flatMap (fun p => (cells p).report) ∧
        out.flamegraph.write ord' = lines.flatMap renderLine ∧
        out.flamegraph.totalSize = attributed recs + (ws.map fun p => childrenAt recs p - sizeAt recs p).sum ∧
        out.warnings = ws.flatMap (renderWarning recs) ∧
        lines.Pairwise (fun a b => pathLt a.1.names b.1.names) ∧
        (∀ p n, (p, n) ∈ lines ↔ entered recs p ∧ n = selfSpec recs p ∧ n ≠ 0) ∧
        ws.Pairwise (fun a b => pathLt a.names b.names) ∧ ∀ p, p ∈ ws ↔ overfull recs p := by
  obtain ⟨a1, a2, a3⟩ := snapshot_of h0 hcall hbetween hothers hret
  refine ⟨a1, a2, a3, ?_⟩
  refine C61_snapshot S env he H hcells (L.map value) ?_ st n hS P hn hP fuel hf ord ord'
  intro v hvm
  obtain ⟨r, hr, rfl⟩ := List.mem_map.1 hvm
  exact hv r hr

attribute [local instance] Target.x64 in
/-- The hypotheses about the registry are met by the example below `C54_global_roots`, those about the values by that below `C61_snapshot`; together: both registered roots are
a pointer to a mutex that another thread changes. -/
example
    (st : Store) (n : Nat) (ord : HashOrder TreeId) (ord' : HashOrder (List Str)) (before between c1 c2 c3 c4)
    (h1 : Steps GlobalRootsExamples.body (initial GlobalRootsExamples.programs) before c1) (h2 : Step GlobalRootsExamples.body c1 [.call 0 .roots] c2)
    (h3 : Steps GlobalRootsExamples.body c2 between c3) (h4 : ∀ e ∈ between, e.tid ≠ 0) (h5 : Step GlobalRootsExamples.body c3 [.ret 0 .roots [5, 6]] c4) :=
  C54_live_roots GlobalRootsExamples.body GlobalRootsExamples.programs before between c1 c2 c3 c4 0 [5, 6] h1 h2 h3 h4 h5
    (fun _ => .still (.arc LiveEx.tArc 8 7)) LiveEx.S (fun _ _ => trivial) LiveEx.env LiveEx.respectful LiveEx.H LiveEx.vals_ok st n (LiveEx.letsGo st n) [7] (by simp)
    (fun p h => by rw [LiveEx.reach _ _ (fun _ => rfl) p h]; simp) 1 (by simp) ord ord'

end Allocative
