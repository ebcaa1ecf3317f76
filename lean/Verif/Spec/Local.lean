import Verif.Spec.Records
import Verif.Spec.Report
/-
Specification for C75: which lines a change can show in.
-/
namespace Allocative

/-- The stack, or one directly below it, is entered by one of these records. -/
def touches (recs : List Rec) (p : Path) : Prop := ∃ r ∈ recs, r.path = p ∨ ∃ k, r.path = p ++ [k]

/-- In two profiles (lines with their stacks, warnings with their stacks and texts) a stack looks the same. -/
def SameAt (p : Path) (lines lines' : List (Path × Nat)) (ws ws' : List (Path × Str)) : Prop :=
  (∀ n, (p, n) ∈ lines ↔ (p, n) ∈ lines') ∧ ∀ t, (p, t) ∈ ws ↔ (p, t) ∈ ws'

/-- Does the top name of a stack occur as the top name of one of these records? -/
def topOf (recs : List Rec) (p : Path) : Prop := ∃ r ∈ recs, r.path.head? = p.head?

end Allocative
