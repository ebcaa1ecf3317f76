import Verif.Spec.Records
import Verif.Spec.Report
/-
The width of the frames that tools draw from the text: a stack together with everything below it.
-/
namespace Allocative

/-- The sum of the lines of a text at a stack and below it. -/
def frame (lines : List (Path × Nat)) (p : Path) : Nat := (lines.map fun l => if p <+: l.1 then l.2 else 0).sum

/-- Bytes declared directly inside of unique stacks, at a stack and below it. -/
def behindUnique (recs : List Rec) (p : Path) : Nat :=
  (recs.map fun r => if p <+: r.path.dropLast ∧ uniqueAt recs r.path.dropLast = true then r.size else 0).sum

/-- The top frame that a value has if it is visited as a root: the name of the first record of its report. -/
def Datum.topFrame [Target] (d : Datum) : Option Key := (d.report []).head?.bind fun r => r.path.head?

/-- The same for a shared allocation. -/
def Cell.topFrame [Target] (c : Cell) : Option Key := c.report.head?.bind fun r => r.path.head?

end Allocative
