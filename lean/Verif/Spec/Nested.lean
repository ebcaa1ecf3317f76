import Verif.Spec.Records
/-
Specification for C76: the profile of a part inside of the profile of the whole.
-/
namespace Allocative

/-- The same call, made below the stack `q`. -/
def Rec.under (q : Path) (r : Rec) : Rec := { r with path := q ++ r.path }

/-- A warning: its stack, the size declared for it, and the sizes declared for what is directly inside. -/
structure Warning where
  stack : Path
  size : Nat
  inside : Nat

/-- Its text. -/
def Warning.text (w : Warning) : Str :=
  ascii "Incorrect size declaration for node `" ++ joinSemi w.stack.names ++ ascii "`, size of self: " ++ decimal w.size ++ ascii ", size of inline children: " ++ decimal w.inside ++ [10]

/-- What is at the stack `q ++ p` of one profile is at the stack `p` of the other: the same line, the same warning, or none. -/
def SameUnder (q p : Path) (lines lines' : List (Path × Nat)) (ws ws' : List Warning) : Prop :=
  (∀ n, (q ++ p, n) ∈ lines ↔ (p, n) ∈ lines') ∧ ∀ m n, ⟨q ++ p, m, n⟩ ∈ ws ↔ ⟨p, m, n⟩ ∈ ws'

end Allocative
