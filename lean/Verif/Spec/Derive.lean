import Verif.Model.Derive
/-
Specification vocabulary for the derive macro (C38-C41).
-/
namespace Allocative.Derive
open Allocative

/-! ### Attribute grammar -/

/-- An option in `#[allocative(..)]`. -/
inductive Item where
  | skip
  | bound (s : Str)
  | visit (path : List Tok)
deriving DecidableEq

/-- Which option it is. -/
inductive Item.Kind where
  | skip | bound | visit
deriving DecidableEq

def Item.kind : Item → Item.Kind
  | .skip => .skip
  | .bound _ => .bound
  | .visit _ => .visit

/-- `opt_item ::= ε | "skip" | "bound" "=" string | "visit" "=" path`: tokens, the item if any, remaining tokens. -/
inductive OptItem (P : PathParser) : List Tok → List Item → List Tok → Prop
  | none (toks) : OptItem P toks [] toks
  | skip (rest) : OptItem P (.ident (ascii "skip") :: rest) [.skip] rest
  | bound (s rest) : OptItem P (.ident (ascii "bound") :: .eq :: .strLit s :: rest) [.bound s] rest
  | visit (toks p rest) : P.parse toks = some (p, rest) → OptItem P (.ident (ascii "visit") :: .eq :: toks) [.visit p] rest

/-- `args ::= opt_item | opt_item "," args`. -/
inductive Args (P : PathParser) : List Tok → List Item → Prop
  | last {toks is} : OptItem P toks is [] → Args P toks is
  | more {toks is rest js} : OptItem P toks is (.comma :: rest) → Args P rest js → Args P toks (is ++ js)

/-- The options on an item: those of all its `#[allocative(args)]` attributes; attributes with other names are ignored. -/
inductive AttrItems (P : PathParser) : List Attr → List Item → Prop
  | nil : AttrItems P [] []
  | other {a l js} : a.path ≠ ascii "allocative" → AttrItems P l js → AttrItems P (a :: l) js
  | allocative {a l toks is js} : a.path = ascii "allocative" → a.args = some toks → Args P toks is → AttrItems P l js →
      AttrItems P (a :: l) (is ++ js)

/-- The result holds exactly the given options. -/
def Attrs.Holds (o : Attrs) (items : List Item) : Prop :=
  (o.skip = true ↔ .skip ∈ items) ∧ (∀ s, o.bound = some s ↔ .bound s ∈ items) ∧ (∀ p, o.visit = some p ↔ .visit p ∈ items)

/-! ### Fields -/

/-- A field of a declaration, its options and its value. -/
structure FieldInfo where
  /-- its name, or its index in decimal -/
  label : Str
  decl : Field
  attrs : Attrs
  value : Value

/-- Labels of the fields of a declaration in declaration order. -/
def Fields.labels : Fields → List Str
  | .unit => []
  | .unnamed l => (List.range l.length).map decimal
  | .named l => l.map Prod.fst

/-- The fields of a declaration in declaration order. -/
def Fields.decls : Fields → List Field
  | .unit => []
  | .unnamed l => l
  | .named l => l.map Prod.snd

/-- `infos` describes the fields of a declaration and of a value, with the options given by their attributes. -/
structure Fields.Described (P : PathParser) (fs : Fields) (infos : List FieldInfo) : Prop where
  labels : infos.map FieldInfo.label = fs.labels
  decls : infos.map FieldInfo.decl = fs.decls
  attrs : ∀ x ∈ infos, extractAttrs P x.decl.attrs = some x.attrs

/-- Conditions on the names of fields: distinct (as Rust requires), and none is called `visitor` (see C38_field_named_visitor). -/
def Fields.NamesOk : Fields → Prop
  | .named l => (l.map Prod.fst).Nodup ∧ ascii "visitor" ∉ l.map Prod.fst
  | _ => True

/-- How a field is to be visited: not at all with `skip`; with `visit = f`, entered with the size of its type and visited by
`f`; otherwise entered with `size_of_val` and visited by its own implementation. -/
def FieldInfo.visit (call : List Tok → Value → Obj) (x : FieldInfo) : Obj :=
  if x.attrs.skip then .nil
  else match x.attrs.visit with
    | some f => .inline (Key.new x.label) x.decl.size .exit (call f x.value) .nil
    | none => .inline (Key.new x.label) x.value.sizeOfVal .exit x.value.visit .nil

/-- The fields one after another. -/
def visitFields (call : List Tok → Value → Obj) (infos : List FieldInfo) : Obj := Obj.concat (infos.map (FieldInfo.visit call))

end Allocative.Derive
