import Verif.Model.Impls
import Verif.Model.FlameGraph
/-
Model of allocative_derive/src/derive_allocative.rs: attribute parsing, generation of the impl header, generation of the
body of `visit`, and the meaning of the generated code.
-/
namespace Allocative.Derive
open Allocative

/-! ### Attributes, derive_allocative.rs:300-353 -/

/-- Tokens in the parentheses of an attribute.  `other` stands for everything else (punctuation, groups,
other literals). Models what `ParseStream` yields at derive_allocative.rs:320-348. -/
inductive Tok where
  | ident (s : Str)
  | eq
  | comma
  | strLit (s : Str)
  | other (s : Str)
deriving DecidableEq

/-- `syn::Path::parse`, as an arbitrary parser that consumes at least one token.  `none` is a parse error.
Models derive_allocative.rs:336. -/
structure PathParser where
  parse : List Tok → Option (List Tok × List Tok)
  consumes : ∀ toks p rest, parse toks = some (p, rest) → rest.length < toks.length

/-- A `syn::Attribute`: its path (as a string if it is a single identifier) and its arguments; `none` if it has no
parenthesised arguments (`#[allocative]`, `#[allocative = 1]`), for which `parse_args_with` fails.
Models derive_allocative.rs:315-320. -/
structure Attr where
  path : Str
  args : Option (List Tok)

/-- `struct AllocativeAttrs`, derive_allocative.rs:300-305 (without spans). -/
structure Attrs where
  skip : Bool := false
  bound : Option Str := none
  visit : Option (List Tok) := none
deriving DecidableEq

/-- The first part of the body of the loop, derive_allocative.rs:322-341: an optional item.  `none` is `Err`. -/
def parseItem (P : PathParser) (opts : Attrs) (input : List Tok) : Option (Attrs × List Tok) :=
  match input with
  | .ident w :: input' =>
    if w = ascii "skip" then
      if opts.skip then none else some ({ opts with skip := true }, input')
    else if w = ascii "bound" then
      match input' with
      | .eq :: .strLit s :: input' =>
        if opts.bound.isSome then none else some ({ opts with bound := some s }, input')
      | _ => none
    else if w = ascii "visit" then
      match input' with
      | .eq :: input' =>
        match P.parse input' with
        | none => none
        | some (p, input') => if opts.visit.isSome then none else some ({ opts with visit := some p }, input')
      | _ => none
    else some (opts, input)
  | _ => some (opts, input)

/-- The loop, derive_allocative.rs:321-348; `fuel` at least the number of tokens is enough (`parseArgs`). -/
def parseLoop (P : PathParser) : Nat → Attrs → List Tok → Option Attrs
  | 0, _, _ => none
  | fuel + 1, opts, input =>
    match parseItem P opts input with
    | none => none
    | some (opts, input) =>
      match input with
      | [] => some opts
      | .comma :: input => parseLoop P fuel opts input
      | _ => none

/-- `attr.parse_args_with(..)`, derive_allocative.rs:320-349. -/
def parseArgs (P : PathParser) (opts : Attrs) (input : List Tok) : Option Attrs := parseLoop P (input.length + 1) opts input

/-- The `for` loop over attributes, derive_allocative.rs:315-350. -/
def extractLoop (P : PathParser) : Attrs → List Attr → Option Attrs
  | opts, [] => some opts
  | opts, attr :: attrs =>
    if attr.path ≠ ascii "allocative" then extractLoop P opts attrs
    else
      match attr.args with
      | none => none
      | some toks =>
        match parseArgs P opts toks with
        | none => none
        | some opts => extractLoop P opts attrs

/-- `extract_attrs`, derive_allocative.rs:308-353. -/
def extractAttrs (P : PathParser) (attrs : List Attr) : Option Attrs := extractLoop P {} attrs

/-! ### Generics, derive_allocative.rs:53-87 -/

/-- `syn::GenericParam` (without attributes). Models derive_allocative.rs:67-80. -/
inductive GenericParam where
  /-- `name: bounds = default` -/
  | type (name : Str) (bounds : List Str) (default : Option Str)
  /-- `'name: bounds` -/
  | lifetime (name : Str) (bounds : List Str)
  /-- `const name: ty = default` -/
  | const (name ty : Str) (default : Option Str)
deriving DecidableEq

/-- Is it a lifetime? Models `GenericParam::Lifetime(_)`, derive_allocative.rs:78. -/
def GenericParam.isLifetime : GenericParam → Bool
  | .lifetime .. => true
  | _ => false

/-- Name of a parameter. Models what `type_generics` prints of a parameter, derive_allocative.rs:94, 107. -/
def GenericParam.name : GenericParam → Str
  | .type n _ _ => n
  | .lifetime n _ => n
  | .const n _ _ => n

/-- The tokens between `impl` and `allocative::Allocative for ..`. Models derive_allocative.rs:62, 82-86, 107. -/
inductive ImplGenerics where
  /-- `< #bound >` -/
  | verbatim (tokens : Str)
  /-- `<#(#impl_generics),*>`, or nothing if the list is empty -/
  | params (ps : List GenericParam)
deriving DecidableEq

/-- `impl_generics`, derive_allocative.rs:53-87; `lex s` says whether `s.parse::<TokenStream>()` succeeds. -/
def implGenerics (lex : Str → Bool) (generics : List GenericParam) (attrs : Attrs) : Option ImplGenerics :=
  let rest : Option ImplGenerics := some (.params (generics.map fun p =>
    match p with
    | .type name bounds _ =>
      .type name (if attrs.bound.isNone && !attrs.skip then bounds ++ [ascii "allocative::Allocative"] else bounds) none
    | .lifetime n bounds => .lifetime n bounds
    | .const n ty default => .const n ty default))
  match attrs.bound with
  | some bound => if bound ≠ [] then (if lex bound then some (.verbatim bound) else none) else rest
  | none => rest

/-- `type_generics` of `split_for_impl`, derive_allocative.rs:94: the names of the parameters, lifetimes first (syn's `ToTokens for TypeGenerics`). -/
def typeGenerics (generics : List GenericParam) : List Str :=
  ((generics.filter fun p => p.isLifetime) ++ (generics.filter fun p => !p.isLifetime)).map GenericParam.name

/-! ### Code generation, derive_allocative.rs:89-298 -/

/-- `syn::Type`: a type parameter, or a type constructor (a path, reference, array, tuple, ...) with its type arguments.  Lifetime and const arguments are part of `con`.
Models `field.ty`, derive_allocative.rs:282, 293. -/
inductive TypeExpr where
  | param (name : Str)
  | app (con : Str) (args : List TypeExpr)

/-- `syn::Field`; `size` is `size_of` of its type (only read for `visit = f`). Models derive_allocative.rs:272-282. -/
structure Field where
  attrs : List Attr
  size : Nat
  ty : TypeExpr

/-- `syn::Fields`. Models derive_allocative.rs:169-196, 242-268. -/
inductive Fields where
  | unit
  | unnamed (fields : List Field)
  | named (fields : List (Str × Field))

/-- `syn::Variant`. Models derive_allocative.rs:160-166. -/
structure Variant where
  name : Str
  attrs : List Attr
  fields : Fields

/-- `syn::Data`. Models derive_allocative.rs:122-126. -/
inductive Data where
  | struct (fields : Fields)
  | enum (variants : List Variant)
  | union

/-- `syn::DeriveInput`; `whereClause` is the list of predicates `type: bound`. Models derive_allocative.rs:92-97. -/
structure Input where
  attrs : List Attr
  generics : List GenericParam
  data : Data
  name : Str
  whereClause : List (TypeExpr × Str)

/-- Generated statements that visit a field. Models derive_allocative.rs:280-296. -/
inductive Stmt where
  /-- `visitor.visit_field::<ty>(key, ident);` -/
  | visitField (ty : TypeExpr) (key : Key) (ident : Str)
  /-- `{ let mut visitor = visitor.enter(key, size_of::<ty>()); path(ident, &mut visitor); visitor.exit(); }` -/
  | visitWith (key : Key) (size : Nat) (path : List Tok) (ident : Str)

/-- A pattern `Self::Name`, `Self::Name(a, b)` or `Self::Name { a, b }`: positions are bound for tuple patterns,
fields with the same name for struct patterns. Models derive_allocative.rs:171, 189, 210, 251, 264. -/
inductive Pat where
  | unit
  | tuple (idents : List Str)
  | struct (idents : List Str)

/-- A match arm; `enter` is the key of the variant if the arm enters it.
Models derive_allocative.rs:170-172, 188-194, 209-215. -/
structure Arm where
  variant : Str
  pat : Pat
  enter : Option Key
  stmts : List Stmt

/-- The generated body. Models derive_allocative.rs:142-148, 250-253, 263-268. -/
inductive Body where
  | nothing
  | destructure (pat : Pat) (stmts : List Stmt)
  | matchSelf (arms : List Arm)

/-- `gen_visit_field`, derive_allocative.rs:272-298; `none` is `Err`. -/
def genVisitField (P : PathParser) (label : Str) (ident : Str) (field : Field) : Option (List Stmt) :=
  match extractAttrs P field.attrs with
  | none => none
  | some attrs =>
    let fieldKey := Key.derived label
    if attrs.skip then some []
    else match attrs.visit with
      | some path => some [.visitWith fieldKey field.size path ident]
      | none => some [.visitField field.ty fieldKey ident]

/-- `.collect::<syn::Result<TokenStream>>()`: all or the first error. Models derive_allocative.rs:187, 208, 249, 262. -/
def collect {α : Type} : List (Option (List α)) → Option (List α)
  | [] => some []
  | none :: _ => none
  | some a :: l => match collect l with
    | none => none
    | some b => some (a ++ b)

/-- `.enumerate()`. Models derive_allocative.rs:178, 236, 259. -/
def enumerate {α : Type} (l : List α) : List (Nat × α) := l.zipIdx.map fun x => (x.2, x.1)

/-- `fields_unnamed_names`, derive_allocative.rs:232-239: `f0`, `f1`, ... -/
def fieldsUnnamedNames (fields : List Field) : List Str :=
  (enumerate fields).map fun x => ascii "f" ++ decimal x.1

/-- `fields_named_names`, derive_allocative.rs:220-230. -/
def fieldsNamedNames (fields : List (Str × Field)) : List Str := fields.map Prod.fst

/-- `gen_visit_struct`, derive_allocative.rs:241-270. -/
def genVisitStruct (P : PathParser) : Fields → Option Body
  | .named named =>
    let names := fieldsNamedNames named
    let visitFields := collect ((names.zip named).map fun x => genVisitField P x.1 x.1 x.2.2)
    visitFields.map fun s => .destructure (.struct names) s
  | .unnamed unnamed =>
    let names := fieldsUnnamedNames unnamed
    let visitFields := collect (((enumerate names).zip unnamed).map fun x => genVisitField P (decimal x.1.1) x.1.2 x.2)
    visitFields.map fun s => .destructure (.tuple names) s
  | .unit => some .nothing

/-- `gen_visit_enum_variant`, derive_allocative.rs:160-218. -/
def genVisitEnumVariant (P : PathParser) (input : Variant) : Option Arm :=
  match extractAttrs P input.attrs with
  | none => none
  | some variantAttrs =>
    let variantKey := Key.derived input.name
    match input.fields with
    | .unit => some ⟨input.name, .unit, none, []⟩
    | .unnamed unnamed =>
      let fieldNames := fieldsUnnamedNames unnamed
      let visitFields := collect (((enumerate unnamed).zip fieldNames).map fun x =>
        if variantAttrs.skip then some [] else genVisitField P (decimal x.1.1) x.2 x.1.2)
      visitFields.map fun s => ⟨input.name, .tuple fieldNames, some variantKey, s⟩
    | .named named =>
      let fieldNames := fieldsNamedNames named
      let visitFields := collect ((fieldNames.zip named).map fun x =>
        if variantAttrs.skip then some [] else genVisitField P x.1 x.1 x.2.2)
      visitFields.map fun s => ⟨input.name, .struct fieldNames, some variantKey, s⟩

/-- All arms or the first error. Models derive_allocative.rs:130-134. -/
def collectArms : List (Option Arm) → Option (List Arm)
  | [] => some []
  | none :: _ => none
  | some a :: l => match collectArms l with
    | none => none
    | some b => some (a :: b)

/-- `gen_visit_enum`, derive_allocative.rs:129-150. -/
def genVisitEnum (P : PathParser) (variants : List Variant) : Option Body :=
  match collectArms (variants.map (genVisitEnumVariant P)) with
  | none => none
  | some cases => if cases.isEmpty then some .nothing else some (.matchSelf cases)

/-- `gen_visit_body`, derive_allocative.rs:121-127. -/
def genVisitBody (P : PathParser) : Data → Option Body
  | .struct s => genVisitStruct P s
  | .union => none
  | .enum e => genVisitEnum P e

/-- The generated impl: `impl #header allocative::Allocative for #name #type_args #where_clause` and the body of `visit`.
Models derive_allocative.rs:105-118. -/
structure Expansion where
  header : ImplGenerics
  name : Str
  typeArgs : List Str
  whereClause : List (TypeExpr × Str)
  body : Body

/-- `derive_allocative_impl`, derive_allocative.rs:89-119. -/
def deriveAllocativeImpl (P : PathParser) (lex : Str → Bool) (input : Input) : Option Expansion :=
  match extractAttrs P input.attrs with
  | none => none
  | some attrs =>
    match implGenerics lex input.generics attrs with
    | none => none
    | some header =>
      if attrs.skip then some ⟨header, input.name, typeGenerics input.generics, input.whereClause, .nothing⟩
      else match genVisitBody P input.data with
        | none => none
        | some body => some ⟨header, input.name, typeGenerics input.generics, input.whereClause, body⟩

/-! ### Meaning of the generated code -/

/-- A value of the type: the values of its fields by position, and for enums the index of the active variant.
Models `self` of the generated code, derive_allocative.rs:110, 145, 251, 264. -/
structure SelfValue where
  variant : Nat
  fields : List Value

/-- What a variable of the generated code is bound to.
Models the variables bound at derive_allocative.rs:113, 189-190, 210-211, 251, 264, 286. -/
inductive Bound where
  | visitor
  | field (v : Value)

/-- Local variables, innermost binding first.
Models the scopes of the generated code, derive_allocative.rs:113, 189-190, 210-211, 251, 264, 285-286. -/
abbrev Env := List (Str × Bound)

/-- Models use of a variable, derive_allocative.rs:287, 295. -/
def Env.get? (env : Env) (x : Str) : Option Bound := (env.find? fun b => b.1 = x).map Prod.snd

/-- `visitor` in the generated code: an identifier with call-site hygiene, so it may be shadowed by a field binding;
calling visitor methods on a field does not compile (`none`). Models derive_allocative.rs:190, 211, 286, 295. -/
def Env.visitor? (env : Env) : Option Unit :=
  match env.get? (ascii "visitor") with
  | some .visitor => some ()
  | _ => none

/-- Meaning of a statement; `call path v` is what the user's function does with a field.  `none`: does not compile.
Models derive_allocative.rs:283-296. -/
def Stmt.run (call : List Tok → Value → Obj) (env : Env) : Stmt → Option Obj
  | .visitField _ key ident =>
    match env.visitor?, env.get? ident with
    | some (), some (.field v) => some (Visit.field key v)
    | _, _ => none
  | .visitWith key size path ident =>
    -- the inner `let mut visitor` shadows everything called `visitor`, `ident` included
    let env' : Env := (ascii "visitor", Bound.visitor) :: env
    match env.visitor?, env'.get? ident with
    | some (), some (.field v) => some (Visit.enter key size .exit (call path v))
    | _, _ => none

/-- A list of statements. Models `#visit_fields`, derive_allocative.rs:191, 212, 252, 265. -/
def runStmts (call : List Tok → Value → Obj) (env : Env) : List Stmt → Option Obj
  | [] => some .nil
  | s :: l =>
    match s.run call env, runStmts call env l with
    | some a, some b => some (a.append b)
    | _, _ => none

/-- Bindings made by a pattern for fields with given names (`names` of the declaration; positions for tuples).
Models derive_allocative.rs:189, 210, 251, 264. -/
def Pat.bind (pat : Pat) (names : List Str) (fields : List Value) : Option Env :=
  match pat with
  | .unit => some []
  | .tuple idents =>
    if idents.length = fields.length then some ((idents.zip fields).map fun x => (x.1, .field x.2)) else none
  | .struct idents =>
    if idents = names ∧ names.length = fields.length then some ((names.zip fields).map fun x => (x.1, .field x.2)) else none

/-- Names of the fields of a declaration. Models derive_allocative.rs:169-196, 242-268. -/
def Fields.names : Fields → List Str
  | .named n => n.map Prod.fst
  | _ => []

/-- Outermost scope of the generated function: `let mut visitor = visitor.enter_self(self)`. Models derive_allocative.rs:113. -/
def Env.start : Env := [(ascii "visitor", .visitor)]

/-- Meaning of the body on a value, between `enter_self` and `visitor.exit()`; the latter, and the rest of the body, must
still see the visitor.  `sizeOfSelf` is `size_of::<Self>()`.
Models derive_allocative.rs:113-115 with the bodies of 145-147, 188-194, 209-215, 250-253, 263-266. -/
def Body.run (call : List Tok → Value → Obj) (sizeOfSelf : Nat) (data : Data) (v : SelfValue) : Body → Option Obj
  | .nothing => some .nil
  | .destructure pat stmts =>
    match data with
    | .struct fs =>
      match pat.bind fs.names v.fields with
      | none => none
      | some bs =>
        let env : Env := bs.reverse ++ Env.start
        match runStmts call env stmts, env.visitor? with
        | some o, some () => some o
        | _, _ => none
    | _ => none
  | .matchSelf arms =>
    match data with
    | .enum variants =>
      match variants[v.variant]? with
      | none => none
      | some var =>
        -- the first arm whose variant is the active one
        match arms.find? fun a => a.variant = var.name with
        | none => none
        | some arm =>
          match arm.pat.bind var.fields.names v.fields with
          | none => none
          | some bs =>
            let env : Env := bs.reverse ++ Env.start
            match arm.enter with
            | none => runStmts call env arm.stmts
            | some key =>
              match env.visitor?, runStmts call ((ascii "visitor", .visitor) :: env) arm.stmts with
              | some (), some o => some (Visit.enter key sizeOfSelf .exit o)
              | _, _ => none
    | _ => none

/-- The derived visit: `let mut visitor = visitor.enter_self::<Self>(self); <body>; visitor.exit();`,
derive_allocative.rs:113-115. -/
def Expansion.visit (e : Expansion) (call : List Tok → Value → Obj) (self : Ty) (sizeOfVal : Nat) (data : Data)
    (v : SelfValue) : Option Obj :=
  match e.body.run call self.size data v with
  | none => none
  | some o => some (Visit.enterSelf self sizeOfVal .exit o)

end Allocative.Derive
