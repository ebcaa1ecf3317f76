import Verif.Spec.Derive
/-
What rustc requires of the code that the derive macro generates: patterns fit the declaration, variables are bound once and before use,
a `match` has exactly one arm for every variant, and is not empty (`match self {}` is refused for `self: &Self`).
-/
namespace Allocative.Derive

/-- Variables bound by a pattern. -/
def Pat.vars : Pat → List Str
  | .unit => []
  | .tuple l => l
  | .struct l => l

/-- The variable used by a statement (besides `visitor`). -/
def Stmt.var : Stmt → Str
  | .visitField _ _ x => x
  | .visitWith _ _ _ x => x

/-- The pattern fits the fields of the declaration. -/
def Pat.Fits : Pat → Fields → Prop
  | .unit, .unit => True
  | .tuple l, .unnamed fs => l.length = fs.length
  | .struct l, .named fs => l = fs.map Prod.fst
  | _, _ => False

/-- A pattern followed by statements: variables are bound (once, if the declaration's names are distinct) before use. -/
def PatOk (pat : Pat) (stmts : List Stmt) (fs : Fields) : Prop :=
  pat.Fits fs ∧ ((∀ l, fs = .named l → (l.map Prod.fst).Nodup) → pat.vars.Nodup) ∧ ∀ s ∈ stmts, s.var ∈ pat.vars

/-- The body fits the declaration. -/
def Body.Ok : Body → Data → Prop
  | .nothing, _ => True
  | .destructure pat stmts, .struct fs => PatOk pat stmts fs
  | .matchSelf arms, .enum variants =>
    arms ≠ [] ∧ arms.map Arm.variant = variants.map Variant.name ∧
    ∀ (i : Nat) (arm : Arm) (var : Variant), arms[i]? = some arm → variants[i]? = some var → PatOk arm.pat arm.stmts var.fields
  | _, _ => False

end Allocative.Derive
