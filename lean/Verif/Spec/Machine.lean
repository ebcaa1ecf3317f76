import Verif.Spec.Run
/-
Vocabulary for C42 and C46.
-/
namespace Allocative

/-- Sum of all sizes declared in a history. -/
def declared (hist : List (Prog × Fate)) : Nat := ((records hist).map Rec.size).sum

/-- The visit contains no `catch_unwind`. -/
def Prog.NoCatch : Prog → Prop
  | .done => True
  | .panic => True
  | .enter _ _ _ body rest => body.NoCatch ∧ rest.NoCatch
  | .enterUnique _ _ _ body rest => body.NoCatch ∧ rest.NoCatch
  | .enterShared _ _ _ _ body rs rn => body.NoCatch ∧ rs.NoCatch ∧ rn.NoCatch
  | .catchUnwind _ _ => False

end Allocative
