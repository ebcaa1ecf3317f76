import Verif.Spec.Derive
/-
What rustc requires of the generated impl as far as generic parameters and trait bounds go (C41).
-/
namespace Allocative.Derive
open Allocative

/-! ### Which types implement the trait -/

/-- Which type constructors implement `Allocative`, and for which of their type arguments they require it: `impl<T: Allocative> Allocative for Vec<T>` is `Vec ↦ [true]`,
`impl<T> Allocative for PhantomData<T>` is `PhantomData ↦ [false]`. -/
abbrev ImplTable := Str → Option (List Bool)

/-- `t: Allocative`, by an assumption in scope or by an impl. -/
inductive Implements (impls : ImplTable) (assume : TypeExpr → Prop) : TypeExpr → Prop
  | assumed {t : TypeExpr} : assume t → Implements impls assume t
  | impl {con : Str} {args : List TypeExpr} {needs : List Bool} : impls con = some needs →
      (∀ (i : Nat) (t : TypeExpr), needs[i]? = some true → args[i]? = some t → Implements impls assume t) → Implements impls assume (.app con args)

/-- What is in scope inside of `impl<params> .. where ..`; `isTrait` says which bounds, as written, mean `Allocative`. -/
def inScope (isTrait : Str → Prop) (params : List GenericParam) (whereClause : List (TypeExpr × Str)) (t : TypeExpr) : Prop :=
  (∃ n bounds default b, .type n bounds default ∈ params ∧ b ∈ bounds ∧ isTrait b ∧ t = .param n) ∨ (∃ b, (t, b) ∈ whereClause ∧ isTrait b)

mutual
/-- Replace type parameters. -/
def TypeExpr.subst (σ : Str → TypeExpr) : TypeExpr → TypeExpr
  | .param n => σ n
  | .app con args => .app con (TypeExpr.substs σ args)
/-- Pointwise. -/
def TypeExpr.substs (σ : Str → TypeExpr) : List TypeExpr → List TypeExpr
  | [] => []
  | t :: ts => t.subst σ :: TypeExpr.substs σ ts
end

/-! ### What the generated body needs -/

/-- `visitor.visit_field::<ty>(..)` needs `ty: Allocative`; a user function gets the field as it is. -/
def Stmt.demand : Stmt → List TypeExpr
  | .visitField ty _ _ => [ty]
  | .visitWith .. => []

/-- All types that must implement `Allocative` for the body to compile. -/
def Body.demands : Body → List TypeExpr
  | .nothing => []
  | .destructure _ stmts => stmts.flatMap Stmt.demand
  | .matchSelf arms => arms.flatMap fun a => a.stmts.flatMap Stmt.demand

/-- A field that is visited by its own implementation: neither `skip` nor `visit = f`. -/
def Field.IsVisited (P : PathParser) (f : Field) : Prop := ∃ a, extractAttrs P f.attrs = some a ∧ a.skip = false ∧ a.visit = none

/-- The types of the fields of a declaration that are visited by their own implementation. -/
def Data.Visits (P : PathParser) : Data → TypeExpr → Prop
  | .struct fs, t => ∃ f ∈ fs.decls, f.IsVisited P ∧ f.ty = t
  | .enum variants, t => ∃ v ∈ variants, (∃ a, extractAttrs P v.attrs = some a ∧ a.skip = false) ∧ ∃ f ∈ v.fields.decls, f.IsVisited P ∧ f.ty = t
  | .union, _ => False

/-! ### What the header needs -/

/-- The name of a parameter as declared. -/
def GenericParam.ident : GenericParam → Str
  | .type n _ _ => n
  | .lifetime n _ => n
  | .const n _ _ => n

/-- Is it a lifetime? -/
def GenericParam.IsLifetime (p : GenericParam) : Prop := ∃ n bounds, p = .lifetime n bounds

/-- The default of a parameter. -/
def GenericParam.default : GenericParam → Option Str
  | .type _ _ d => d
  | .lifetime .. => none
  | .const _ _ d => d

/-- The type parameters in order. -/
def typeParams (generics : List GenericParam) : List Str := generics.filterMap fun p => match p with
  | .type n _ _ => some n
  | _ => none

/-- Both are lifetimes, or types, or constants of the same type, and everything the second requires of it is known of the first. -/
def GenericParam.Serves : GenericParam → GenericParam → Prop
  | .type _ have' _, .type _ need _ => ∀ b ∈ need, b ∈ have'
  | .lifetime _ have', .lifetime _ need => ∀ b ∈ need, b ∈ have'
  | .const _ t _, .const _ t' _ => t = t'
  | _, _ => False

/-- The lifetimes of the generated method (derive_allocative.rs:109). -/
def methodLifetimes : List Str := [ascii "'allocative_a", ascii "'allocative_b"]

/-- What rustc requires of the parameters of any item: distinct names, lifetimes first. -/
structure ParamsOk (params : List GenericParam) : Prop where
  distinct : (params.map GenericParam.ident).Nodup
  lifetimesFirst : ∃ ls rest, params = ls ++ rest ∧ (∀ p ∈ ls, p.IsLifetime) ∧ ∀ p ∈ rest, ¬ p.IsLifetime

/-- What rustc requires of `impl<params> Trait for Name<args>` where `Name` was declared with `generics`. -/
structure ImplOk (generics params : List GenericParam) (args : List Str) : Prop where
  ok : ParamsOk params
  noDefaults : ∀ p ∈ params, p.default = none
  /-- `Name` is applied to as many arguments as it has parameters, of the same kinds, with the bounds it requires -/
  count : args.length = generics.length
  applies : ∀ (i : Nat) (p : GenericParam), generics[i]? = some p → ∃ q ∈ params, args[i]? = some q.ident ∧ q.Serves p
  /-- types and constants declared by the impl occur in `Name<args>` (E0207) -/
  constrained : ∀ q ∈ params, ¬ q.IsLifetime → q.ident ∈ args
  /-- lifetimes are not declared again by the method (E0496) -/
  noShadow : ∀ q ∈ params, q.ident ∉ methodLifetimes

/-- What rustc reads between `impl` and the trait; `read` is its parser of a parameter list. -/
def ImplGenerics.read (read : Str → List GenericParam) : ImplGenerics → List GenericParam
  | .verbatim s => read s
  | .params ps => ps

end Allocative.Derive
