import Verif.Spec.Gaps
import Verif.Spec.Names
import Verif.Spec.Footprint
import Verif.Model.FlameGraph
/-
Specification for C70: profiles of several groups of values, added.
-/
namespace Allocative

/-- Some values and the shared allocations `L` reachable from them: of types with proper names, with layouts as Rust guarantees them; `bytes p` is the real size
of the allocation at `p`. -/
structure Profilable [Target] (ρ : Str → Role) (allocs : Ptr → Alloc) (bytes : Ptr → Nat) (roots : List Datum) (L : List Ptr) : Prop where
  values : ∀ d ∈ roots, d.WF ∧ d.Fits ∧ d.Named ρ
  nodup : L.Nodup
  reachable : ∀ p, p ∈ L ↔ ReachableCell (fun p => (allocs p).cell) roots p
  cells : ∀ p ∈ L, (allocs p).value.WF ∧ (allocs p).value.Fits ∧ (allocs p).cell.Named ρ ∧ (allocs p).Exact ∧ (allocs p).Occupies (bytes p) ∧
    bytes p ≤ Layout.isizeMax

/-- A group of values that are profiled together with a builder of their own, the shared allocations reachable from them, and the iteration order of the builder's hash maps. -/
structure Group where
  roots : List Datum
  reach : List Ptr
  order : HashOrder TreeId

/-- From how many of the groups is the allocation reachable? -/
def timesReached (groups : List Group) (p : Ptr) : Nat := groups.countP fun g => p ∈ g.reach

/-- Flame graphs added, one after the other, to a new one. -/
def mergeAll (fgs : List FlameGraph) : FlameGraph := fgs.foldl FlameGraph.add .default

/-- `q` is not shared between groups. -/
def Separate (groups : List Group) : Prop := ∀ q, timesReached groups q ≤ 1

end Allocative
