import Verif.Spec.Stack
/-
Specification vocabulary for keys (C26-C28).
-/
namespace Allocative

/-- Keys made in one of the supported ways (everything but `Key::new_unchecked` with an arbitrary hash). -/
inductive Key.Made : Key → Prop
  | new (s : Str) : Made (Key.new s)
  | identKey (s : Str) : Made (Key.identKey s)
  | forTypeName (s : Str) : Made (Key.forTypeName s)
  | derived (s : Str) : Made (Key.derived s)

/-- A hash table as std sees it: an entry can only be found in the bucket chosen by what the key feeds to the
hasher.  `bucket` is an arbitrary hasher. -/
structure BucketMap (α : Type) where
  bucket : UInt64 → Nat
  entries : Nat → List (Key × α)

/-- Lookup in the bucket of the key, comparing with `Eq`. -/
def BucketMap.get? {α : Type} (m : BucketMap α) (k : Key) : Option α :=
  ((m.entries (m.bucket k.hashInput)).find? fun e => e.1 = k).map Prod.snd

/-- Insertion: into the bucket of the key, replacing an equal key there. -/
def BucketMap.insert {α : Type} (m : BucketMap α) (k : Key) (v : α) : BucketMap α :=
  { m with entries := fun i =>
      if i = m.bucket k.hashInput then (k, v) :: (m.entries i).filter fun e => e.1 ≠ k else m.entries i }

/-- The empty table with a given hasher. -/
def BucketMap.empty (α : Type) (bucket : UInt64 → Nat) : BucketMap α := ⟨bucket, fun _ => []⟩

end Allocative
