import Verif.Spec.Records
import Verif.Spec.Run
import Verif.Spec.Parse
/-
What a builder carries over from the roots visited so far to the rest of its life.
-/
namespace Allocative

/-- Addresses of shared allocations that a history has entered. -/
def sharedSeen (hist : List (Prog × Fate)) (ptr : Ptr) : Prop := ptr ∈ (traceRoots hist []).visited

/-- Two histories agree on the addresses entered, on the bytes declared at each stack and on which stacks were entered as unique. -/
structure SameSoFar (h1 h2 : List (Prog × Fate)) : Prop where
  addresses : ∀ ptr, sharedSeen h1 ptr ↔ sharedSeen h2 ptr
  sizes : ∀ p, sizeAt (records h1) p = sizeAt (records h2) p
  unique : ∀ p, uniqueAt (records h1) p = uniqueAt (records h2) p

/-- No use of the builder after the two histories tells them apart: as far as nothing is leaked, the text, the total size and the warnings are the same,
whatever the iteration orders of the maps. `Q` restricts the names used. -/
def Indistinguishable (Q : Key → Prop) (h1 h2 : List (Prog × Fate)) : Prop :=
  ∀ h : List (Prog × Fate), (∀ x ∈ h, x.1.KeysAre Q) → (NoLeaks (h1 ++ h) ↔ NoLeaks (h2 ++ h)) ∧
    (NoLeaks (h1 ++ h) → ∀ o1 o1' o2 o2', ∃ obs, observe o1 o1' (h1 ++ h) = .ok obs ∧ observe o2 o2' (h2 ++ h) = .ok obs)

end Allocative
