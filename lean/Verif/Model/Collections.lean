import Verif.Model.Key
/-
Models of the std collections used by flamegraph.rs: `HashMap<Key, _>` and the stable sort
`sort_by_key`.
-/
namespace Allocative

/-- `HashMap<Key, α>`: an association list.  Keys are kept distinct by the operations below
(proved as an invariant, not imposed).  The order of the list carries no meaning: every place where
the code iterates over a map goes through a `HashOrder`. Models the maps of flamegraph.rs:31, 127. -/
abbrev HMap (α : Type) := List (Key × α)

/-- `HashMap::get`. Models used through `entry` at flamegraph.rs:54, 252. -/
def HMap.get? {α : Type} (k : Key) : HMap α → Option α
  | [] => none
  | (k', v) :: rest => if k' = k then some v else HMap.get? k rest

/-- `match map.entry(k) { Occupied(e) => *e = onOcc(e), Vacant(e) => e.insert(v) }`. Models flamegraph.rs:54-61, 252-260. -/
def HMap.upsert {α : Type} (k : Key) (onOcc : α → α) (v : α) : HMap α → HMap α
  | [] => [(k, v)]
  | (k', v') :: rest =>
    if k' = k then (k', onOcc v') :: rest else (k', v') :: HMap.upsert k onOcc v rest

/-- The order in which hash maps are iterated: unspecified by std, modelled as an arbitrary
permutation, which may be different for every map (`ι` identifies the map being iterated).
Models the iterations at flamegraph.rs:46, 78, 161, 401, 409-410. -/
structure HashOrder (ι : Type) where
  run : ι → {α : Type} → List α → List α
  perm : ∀ (i : ι) {α : Type} (l : List α), (run i l).Perm l

/-- Insertion of one element into a list sorted by key, before the first element which is not smaller.
Models `sort_by_key` at flamegraph.rs:79, 163. -/
def insertByKey {α : Type} (x : Key × α) : List (Key × α) → List (Key × α)
  | [] => [x]
  | y :: rest => if x.1.le y.1 then x :: y :: rest else y :: insertByKey x rest

/-- `v.sort_by_key(|(k, _)| *k)` (flamegraph.rs:79, 163): stable sort by `Ord for Key`. Elements are inserted
from the back, each one before its equals, so equal keys keep their order. -/
def sortByKey {α : Type} : List (Key × α) → List (Key × α)
  | [] => []
  | x :: rest => insertByKey x (sortByKey rest)

/-- `[a, b, c].join(";")` on `&[&str]` (flamegraph.rs:72, 155). -/
def joinSemi : List Str → Str
  | [] => []
  | [a] => a
  | a :: b :: rest => a ++ 59 :: joinSemi (b :: rest)

/-- Loop of `Display for usize`: decimal digits, most significant first, accumulated from the
right.  `fuel` only bounds the number of digits. Models `{}` at flamegraph.rs:72, 154-157. -/
def decimalLoop : Nat → Nat → Str → Str
  | 0, _, acc => acc
  | fuel + 1, n, acc =>
    if n < 10 then UInt8.ofNat (48 + n) :: acc
    else decimalLoop fuel (n / 10) (UInt8.ofNat (48 + n % 10) :: acc)

/-- `Display for usize`. Models `{}` at flamegraph.rs:72, 154-156. -/
def decimal (n : Nat) : Str := decimalLoop (n + 1) n []

/-- `Display for isize`. Models `{}` at flamegraph.rs:154-157. -/
def decimalInt : Int → Str
  | .ofNat n => decimal n
  | .negSucc n => 45 :: decimal (n + 1)

end Allocative
