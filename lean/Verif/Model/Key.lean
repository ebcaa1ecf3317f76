/-
Model of `allocative/src/key.rs` (the `Key` type) and of the strings used by the crate.
-/
namespace Allocative

/-- A Rust `str`: its UTF-8 byte sequence.  (Simplification: validity of the UTF-8 is not imposed,
so every statement below ranges over a superset of Rust strings.  `str`'s `Ord`, `Eq`, `join` and
`Display` are all bytewise, so no other structure is needed.) Models key.rs:21, `Deref` key.rs:43-49. -/
abbrev Str := List UInt8

/-- String literals of the model (ASCII only). Models e.g. impls/common.rs:14-26. -/
def ascii (s : String) : Str := s.toList.map (fun c => UInt8.ofNat c.toNat)

/-- `str::cmp`: bytewise lexicographic comparison (used by key.rs:32). -/
def Str.cmp : Str → Str → Ordering
  | [], [] => .eq
  | [], _ :: _ => .lt
  | _ :: _, [] => .gt
  | a :: as, b :: bs => if a < b then .lt else if b < a then .gt else Str.cmp as bs

/-- The body of the while loop of `Key::hash`, key.rs:57-59:
`hash ^= b as u64; hash = hash.wrapping_mul(0x100000001b3)`. -/
def keyHashStep (hash : UInt64) (b : UInt8) : UInt64 := (hash ^^^ b.toUInt64) * 0x100000001b3

/-- The while loop of `Key::hash`, key.rs:56-61, on the bytes not yet consumed (`s.as_bytes()[i..]`). -/
def keyHashLoop (s : Str) (hash : UInt64) : UInt64 := s.foldl keyHashStep hash

/-- `Key::hash`, key.rs:53-63. -/
def keyHash (s : Str) : UInt64 := keyHashLoop s 0xcbf29ce484222325

/-- The body of the while loop of `hash` in the derive crate, allocative_derive/src/derive_allocative.rs:39-40. -/
def deriveHashStep (hash : UInt64) (b : UInt8) : UInt64 :=
  let hash := hash ^^^ b.toUInt64
  hash * 0x100000001b3

/-- The while loop of `hash` in the derive crate, allocative_derive/src/derive_allocative.rs:37-42, with its index:
`while i < s.len() { let b = s.as_bytes()[i]; hash ^= b as u64; hash = hash.wrapping_mul(0x100000001b3); i += 1; }`. -/
def deriveHashLoop (s : Str) (i : Nat) (hash : UInt64) : UInt64 :=
  if h : i < s.length then
    let b := s[i]
    deriveHashLoop s (i + 1) (deriveHashStep hash b)
  else hash
termination_by s.length - i

/-- `allocative_derive::hash`, allocative_derive/src/derive_allocative.rs:34-44. -/
def deriveHash (s : Str) : UInt64 := deriveHashLoop s 0 0xcbf29ce484222325

/-- `struct Key { hash, s }`, key.rs:18-22; equality is the derived one (both fields). -/
structure Key where
  hash : UInt64
  s : Str
deriving DecidableEq

/-- `Key::new_unchecked`, key.rs:71-73. -/
def Key.newUnchecked (hash : UInt64) (s : Str) : Key := { hash, s }

/-- `Key::new`, key.rs:66-69. -/
def Key.new (s : Str) : Key := Key.newUnchecked (keyHash s) s

/-- `Key::for_type_name::<T>()`, key.rs:75-95, both cfg branches; the argument is
`any::type_name::<T>()`. -/
def Key.forTypeName (typeName : Str) : Key := Key.new typeName

/-- The key in the expansion of the derive macro: `allocative_key`, derive_allocative.rs:152-158, generates the tokens
`allocative::Key::new_unchecked(<hash>, <s>)`. -/
def Key.derived (s : Str) : Key := Key.newUnchecked (deriveHash s) s

/-- `ident_key!(name)`, lib.rs:108-113: `Key::new(stringify!(name))`. -/
def Key.identKey (ident : Str) : Key := Key.new ident

/-- `impl Ord for Key`, key.rs:30-34: only the strings are compared. -/
def Key.cmp (a b : Key) : Ordering := Str.cmp a.s b.s

/-- `a <= b` in the order above, as used by `sort_by_key`. Models key.rs:24-34, used at flamegraph.rs:79, 163. -/
def Key.le (a b : Key) : Bool := a.cmp b != .gt

/-- `impl Hash for Key`, key.rs:37-41: what is fed to the hasher. -/
def Key.hashInput (k : Key) : UInt64 := k.hash

/-- `impl Deref for Key`, key.rs:43-49. -/
def Key.deref (k : Key) : Str := k.s

end Allocative
