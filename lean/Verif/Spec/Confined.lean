import Verif.Spec.Live
import Verif.Spec.Local
/-
Specification for C82: where in a profile the changes made by other threads can show.
-/
namespace Allocative

/-- The value without what is in its locks, cells, weak pointers and `DashMap`s: each of these as if nothing could be seen inside. -/
def LiveDatum.bare : LiveDatum → Datum
  | .still d => d
  | .live shape kind _ _ => shape.fill fun p => (kind p).map fun _ self => .cellEmpty self

/-- The same for a shared allocation. -/
def LiveCell.bare (c : LiveCell) : Cell := c.frame.with c.value.bare

/-- Is this pointer of the shape a place: a lock, cell, `Weak`, `DashMap` or `DashSet`? -/
def LiveDatum.isPlace : LiveDatum → Ptr → Bool
  | .still _, _ => false
  | .live _ kind _ _, p => (kind p).isSome

/-- The stacks at which a visit, begun at the stack `cur`, comes to the pointers `isPlace`. -/
def Obj.placesAt (isPlace : Ptr → Bool) : Obj → Path → List Path
  | .nil, _ => []
  | .inline k _ _ inside rest, cur => inside.placesAt isPlace (cur ++ [k]) ++ rest.placesAt isPlace cur
  | .unique k _ _ inside rest, cur => inside.placesAt isPlace (cur ++ [k]) ++ rest.placesAt isPlace cur
  | .shared _ _ p _ rest, cur => (if isPlace p then [cur] else []) ++ rest.placesAt isPlace cur

/-- The stacks of the locks, cells, weak pointers and `DashMap`s in a root. -/
def LiveDatum.lockStacks [Target] (v : LiveDatum) : List Path := v.shape.value.visit.placesAt v.isPlace []

/-- The stacks of the locks, cells, weak pointers and `DashMap`s in a shared allocation. -/
def LiveCell.lockStacks [Target] (c : LiveCell) : List Path := (c.frame.with c.value.shape).visit.placesAt c.value.isPlace []

/-- Shared allocations that can be reached without looking into a lock. -/
def ReachedAnyway (cells : Ptr → LiveCell) (roots : List LiveDatum) : Ptr → Prop := ReachableCell (fun p => (cells p).bare) (roots.map LiveDatum.bare)

/-- The stacks that can depend on what other threads do: that of a lock, or one below; and those under the name of a shared allocation that can be reached only through a lock. -/
def MayVary [Target] (L : Looks) (cells : Ptr → LiveCell) (roots : List LiveDatum) (p : Path) : Prop :=
  (∃ v ∈ roots, ∃ q ∈ v.lockStacks, q <+: p) ∨
  (∃ a, ReachedAnyway cells roots a ∧ ∃ q ∈ (cells a).lockStacks, q <+: p) ∨
  ∃ a c, MayReach L cells roots a ∧ ¬ ReachedAnyway cells roots a ∧ (cells a).Sees L c ∧ topOf c.report p

end Allocative
