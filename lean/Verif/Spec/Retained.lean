import Verif.Spec.Merge
/-
Specification for C78: what some of the roots add to a profile.
-/
namespace Allocative

/-- The shared allocations that are reachable only because of `extra`: not from `keep` alone. -/
structure Retained (cells : Ptr → Cell) (keep extra : List Datum) (only : List Ptr) : Prop where
  nodup : only.Nodup
  mem : ∀ p, p ∈ only ↔ ReachableCell cells extra p ∧ ¬ ReachableCell cells keep p

end Allocative
