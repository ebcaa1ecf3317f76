import Verif.Model.Key
import Verif.Model.Registry
/-
Model of allocative_derive/src/root.rs, the attribute macro `#[allocative::root]`, and of what the compiler and the `ctor` crate do
with its output.
-/
namespace Allocative.RootMacro

/-- `char::to_lowercase` on an ASCII character (root.rs:28). -/
def lowerByte (b : UInt8) : UInt8 := if 65 ≤ b ∧ b ≤ 90 then b + 32 else b

/-- An ASCII letter or `_`. Models accepted by `syn::Ident::new`, root.rs:27. -/
def isStart (b : UInt8) : Bool := (65 ≤ b && b ≤ 90) || (97 ≤ b && b ≤ 122) || b == 95
/-- An ASCII letter, a digit or `_`. Models accepted by `syn::Ident::new`, root.rs:27. -/
def isContinue (b : UInt8) : Bool := isStart b || (48 ≤ b && b ≤ 57)

/-- What `syn::Ident::new` (root.rs:27) accepts among the ASCII strings. -/
def asciiIdent : Str → Bool
  | [] => false
  | b :: s => isStart b && s.all isContinue

/-- All bytes are ASCII. Models root.rs:25, 28. -/
def isAscii (s : Str) : Prop := ∀ b ∈ s, b < 128

/-- The tables of Unicode that std and the compiler consult, on UTF-8 strings. Models root.rs:27-28. -/
structure Unicode where
  /-- `str::to_lowercase`, root.rs:28 -/
  lower : Str → Str
  /-- Normal form C, which the compiler applies to the names in the source and in `syn::Ident::new`, root.rs:27 -/
  nfc : Str → Str
  /-- an identifier: a character of class XID_Start or `_`, then characters of class XID_Continue, root.rs:27 -/
  ident : Str → Bool

/-- What is assumed of the tables: their values on ASCII, and that `#` is not a letter of any kind; that nothing composes with the
characters that `format!` puts around the name; that lowercasing keeps an identifier an identifier, and that it needs to be done once.
Models root.rs:27-28. -/
structure Unicode.Lawful (U : Unicode) : Prop where
  lower_ascii : ∀ s, isAscii s → U.lower s = s.map lowerByte
  nfc_ascii : ∀ s, isAscii s → U.nfc s = s
  ident_ascii : ∀ s, isAscii s → U.ident s = asciiIdent s
  lower_hash : ∀ s, 35 ∈ s → 35 ∈ U.lower s
  nfc_hash : ∀ s, 35 ∈ s → 35 ∈ U.nfc s
  ident_hash : ∀ s, 35 ∈ s → U.ident s = false
  nfc_around : ∀ s, U.nfc (ascii "_" ++ s ++ ascii "_register_root") = ascii "_" ++ U.nfc s ++ ascii "_register_root"
  ident_around : ∀ s, U.ident s = true → U.ident (ascii "_" ++ U.nfc (U.lower s) ++ ascii "_register_root") = true
  lower_once : ∀ s, U.nfc (U.lower (ascii "_" ++ U.nfc (U.lower s) ++ ascii "_register_root")) =
    ascii "_" ++ U.nfc (U.lower s) ++ ascii "_register_root"

/-- `syn::Ident::new` (= `proc_macro2::Ident::new` = `proc_macro::Ident::new`, root.rs:27): the name in normal form; it panics on
anything but identifiers.  In particular raw identifiers (`r#type`) are not accepted. -/
def newIdent (U : Unicode) (s : Str) : Option Str := if U.ident (U.nfc s) then some (U.nfc s) else none

/-- An identifier in the source: `name`, or `r#name`. Models root.rs:25. -/
structure Ident where
  raw : Bool
  name : Str
deriving DecidableEq

/-- `Ident::to_string`, root.rs:28. -/
def Ident.toString (i : Ident) : Str := if i.raw then ascii "r#" ++ i.name else i.name

/-- A `static` item.  `value` is its address, the root that can be registered. Models root.rs:23-25. -/
structure Static where
  ident : Ident
  mutable : Bool
  value : Registry.Root
deriving DecidableEq

/-- An item of a module. Models root.rs:23. -/
inductive Item where
  | static (s : Static)
  /-- a function, a `const`: an item with a name in the value namespace that is not a `static` -/
  | value (name : Ident)
  /-- a type, a `use`, .. -/
  | other
deriving DecidableEq

/-- An item after macro expansion. Models root.rs:32-39. -/
inductive OutItem where
  | item (i : Item)
  /-- `#[ctor(unsafe)] fn name() { allocative::register_root(&target); }`, root.rs:35-38 -/
  | ctor (name : Str) (target : Ident)
deriving DecidableEq

/-- Why a module does not compile. Models root.rs:15-20, 23, 27. -/
inductive Err where
  /-- `syn::parse2::<syn::ItemStatic>(input)?`, root.rs:23 -/
  | notStatic
  /-- `syn::Ident::new` panicked, root.rs:27 -/
  | invalidIdent
  /-- E0428: two items with the same name in the value namespace -/
  | duplicate
  /-- E0133: use of a mutable static outside of `unsafe` -/
  | mutableStatic
deriving DecidableEq

/-- root.rs:28: `format!("_{}_register_root", name.to_string().to_lowercase())`. -/
def formatName (U : Unicode) (name : Ident) : Str := ascii "_" ++ U.lower name.toString ++ ascii "_register_root"

/-- `global_root_impl`, root.rs:22-40 (and `root`, root.rs:15-20: an error becomes a compile error). -/
def globalRootImpl (U : Unicode) : Item → Except Err (List OutItem)
  | .static s =>
    let name := s.ident
    match newIdent U (formatName U name) with
    | some n => .ok [.item (.static s), .ctor n name]
    | none => .error .invalidIdent
  | _ => .error .notStatic

/-- Expansion of all items of a module: `true` marks the items with `#[root]`. Models root.rs:15-20. -/
def expand (U : Unicode) : List (Bool × Item) → Except Err (List OutItem)
  | [] => .ok []
  | (false, i) :: l =>
    match expand U l with
    | .ok o => .ok (.item i :: o)
    | .error e => .error e
  | (true, i) :: l =>
    match globalRootImpl U i with
    | .error e => .error e
    | .ok a =>
      match expand U l with
      | .ok o => .ok (a ++ o)
      | .error e => .error e

/-- The name an item has in the value namespace; `r#x` and `x` are the same name. Models root.rs:33, 36. -/
def OutItem.name? : OutItem → Option Str
  | .item (.static s) => some s.ident.name
  | .item (.value n) => some n.name
  | .item .other => none
  | .ctor n _ => some n

/-- Name resolution of `NAME` in `&NAME`: the static of that name. Models root.rs:37. -/
def resolve (o : List OutItem) (n : Ident) : Option Static :=
  o.findSome? fun
    | .item (.static s) => if s.ident.name = n.name then some s else none
    | _ => none

/-- The statics the `ctor` functions register, in source order. Models root.rs:35-38. -/
def targets (o : List OutItem) : List Static :=
  o.filterMap fun
    | .ctor _ t => resolve o t
    | _ => none

/-- Compilation of a module (only what can go wrong because of the macro): the statics its `ctor` functions register.
Models root.rs:15-40. -/
def compile (U : Unicode) (m : List (Bool × Item)) : Except Err (List Static) :=
  match expand U m with
  | .error e => .error e
  | .ok o =>
    if ¬ (o.filterMap OutItem.name?).Nodup then .error .duplicate
    else if (targets o).any (·.mutable) then .error .mutableStatic
    else .ok (targets o)

/-- Before `main` one thread calls the `ctor` functions (`ctor` crate), in an order chosen by the linker, and then nothing else runs
until they are done. Models root.rs:35-38, global_root.rs:20-22. -/
def startup (order : List Registry.Root) : Registry.Tid → List Registry.Instr :=
  fun t => if t = 0 then order.map (fun r => .call (.register r)) else []

end Allocative.RootMacro
