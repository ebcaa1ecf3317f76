import Verif.Model.Impls
/-
Rust values made of the types for which the crate has `Allocative` implementations, and the implementation selected for
each.  The types of values (`self`, `T`) are parameters, as are lengths and capacities; the constraints a Rust
compiler and the standard library guarantee are in `Verif/Spec/Datum.lean`.
-/
namespace Allocative

/-- A Rust value.  `self` is always the type of the value itself.
Models one constructor per impl in allocative/src/impls, with derived types as in derive_allocative.rs:105-118. -/
inductive Datum where
  /-- a primitive or other type visited as one leaf -/
  | plain (self : Ty)
  /-- `&'static T`, `PhantomData<T>` (`owned = 0`) or `anyhow::Error` (owning `owned` bytes of heap) -/
  | hollow (self : Ty) (owned : Nat)
  /-- `str` -/
  | str (self : Ty) (len : Nat)
  /-- `OsStr` -/
  | osStr (self : Ty) (len : Nat)
  /-- `Box<T>`; `ptrSize` is `size_of::<*const T>()` -/
  | box (self : Ty) (ptrSize : Nat) (v : Datum)
  /-- `Result::Ok` -/
  | ok (self : Ty) (v : Datum)
  /-- `Result::Err` -/
  | err (self : Ty) (v : Datum)
  /-- `Option::None` -/
  | none (self : Ty)
  /-- `Option::Some` -/
  | some (self : Ty) (v : Datum)
  /-- `Either::Left` -/
  | left (self : Ty) (v : Datum)
  /-- `Either::Right` -/
  | right (self : Ty) (v : Datum)
  /-- `Vec<T>` -/
  | vec (self T : Ty) (items : List Datum) (capacity : Nat)
  /-- `VecDeque<T>` with its two slices -/
  | vecDeque (self T : Ty) (front back : List Datum) (capacity : Nat)
  /-- `String` -/
  | string (self : Ty) (len capacity : Nat)
  /-- `PathBuf` -/
  | pathBuf (self : Ty) (len capacity : Nat)
  /-- `CompactString` -/
  | compactString (self : Ty) (heapAllocated : Bool) (len capacity : Nat)
  /-- `[T]` -/
  | slice (self T : Ty) (items : List Datum)
  /-- `[T; N]` -/
  | array (self T : Ty) (items : List Datum)
  /-- a tuple -/
  | tuple (self : Ty) (fields : List Datum)
  /-- `ManuallyDrop<T>` -/
  | manuallyDrop (self : Ty) (v : Datum)
  /-- `RefCell`, `Mutex`, `RwLock`, `OnceCell`, `OnceLock` with a content; is the content accessible (not locked, not
  poisoned) when the cell is visited? -/
  | cell (self : Ty) (accessible : Bool) (v : Datum)
  /-- `OnceCell` or `OnceLock` without content -/
  | cellEmpty (self : Ty)
  /-- `once_cell`'s types with a content -/
  | onceCell (self : Ty) (v : Datum)
  /-- a map whose own allocation has `table` bytes -/
  | map (self : Ty) (table : Nat) (keys values : List Datum)
  /-- a set -/
  | set (self : Ty) (table : Nat) (items : List Datum)
  /-- `SmallVec` with its elements inside -/
  | smallVecInline (self T : Ty) (items : List Datum)
  /-- `SmallVec` with its elements on the heap -/
  | smallVecSpilled (self T : Ty) (items : List Datum) (capacity : Nat)
  /-- `Slab<T>`; `entry` is the size of its (private) `Entry<T>` -/
  | slab (self T : Ty) (entry : Nat) (items : List Datum) (capacity : Nat)
  /-- `Arc`, `Rc`, `triomphe::Arc` -/
  | arc (self : Ty) (ptrSize : Nat) (ptr : Ptr)
  /-- `Weak` whose target is gone -/
  | weakDangling (self : Ty)
  /-- `Weak` whose target is alive; `strong` is the type of the upgraded pointer -/
  | weak (self strong : Ty) (ptrSize : Nat) (ptr : Ptr)
  /-- a struct with a derived implementation, of `size` bytes (`size_of_val`; the last field of an unsized struct may be a slice, a `str` or another unsized struct): for each field its label and whether it is marked `skip` -/
  | struct (self : Ty) (size : Nat) (labels : List (Str × Bool)) (fields : List Datum)
  /-- an enum with a derived implementation, in a variant with fields -/
  | enum (self : Ty) (variant : Str) (labels : List (Str × Bool)) (fields : List Datum)
  /-- `once_cell`'s types without content -/
  | onceCellEmpty (self : Ty)
  /-- hashbrown's `HashTable<T>`; `table` is the number of bytes it has allocated -/
  | hashTable (self T : Ty) (items : List Datum) (capacity table : Nat)
  /-- `IndexSet<T>`; `bucket` is the size of its (private) `Bucket`, `table` the number of bytes of the table of indices -/
  | indexSet (self T : Ty) (items : List Datum) (capacity bucket table : Nat)
  /-- `IndexMap<K, V>`; `KV` is `(K, V)` -/
  | indexMap (self K V KV : Ty) (keys values : List Datum) (capacity bucket table : Nat)
  /-- `DashMap<K, V>`: `capacity`, the entries seen, and `capacityLater`, `len` read after that (other threads may change the map) -/
  | dashMap (self K V KV : Ty) (capacity : Nat) (keys values : List Datum) (capacityLater len table : Nat)
  /-- `DashSet<T>` -/
  | dashSet (self T : Ty) (capacity : Nat) (items : List Datum) (capacityLater len table : Nat)
  /-- `BigInt`, `BigUint` with `digits` 64-bit digits and `heap` bytes on the heap -/
  | bigInt (self : Ty) (digits heap : Nat)
  /-- bumpalo's `Bump`: `allocated_bytes()`, the sizes of the chunks' allocated parts and the number of bytes on the heap -/
  | bump (self : Ty) (allocated : Nat) (chunks : List Nat) (heap : Nat)
  /-- `serde_json::Map<String, Value>` -/
  | jsonMap (self : Ty) (table : Nat) (keys values : List Datum)
  /-- `serde_json::Value::Null` and `Bool` -/
  | jsonLeaf (self : Ty)
  /-- another variant of `serde_json::Value` -/
  | json (self : Ty) (variant : Str) (v : Datum)
  /-- `futures::future::Shared` without a result -/
  | futuresPending (self : Ty)
  /-- `futures::future::Shared` with a result at this address -/
  | futuresShared (self : Ty) (ptr : Ptr)
  /-- triomphe's `HeaderSlice<H, [T]>` -/
  | headerSlice (self : Ty) (sizeOfVal : Nat) (header slice : Datum)
  /-- triomphe's `HeaderWithLength<H>` -/
  | headerWithLength (self : Ty) (header len : Datum)
  /-- an enum in a unit variant, or a type marked `skip` that owns `owned` bytes of heap; `size` is its `size_of_val` -/
  | unit (self : Ty) (size : Nat) (owned : Nat)

/-- What derive generates for the fields (`C38_struct`, `C38_enum_variant`). Models derive_allocative.rs:241-270, 272-298. -/
def Visit.derivedFields : List (Str × Bool) → List Value → Obj
  | (label, skip) :: ls, v :: vs => (if skip then .nil else Visit.field (Key.new label) v).append (Visit.derivedFields ls vs)
  | _, _ => .nil

/-- Index of tuple fields, tuple.rs:26-66: `"0"`, `"1"`, ... -/
def tupleLabels : Nat → List Value → List (Str × Value)
  | _, [] => []
  | i, v :: vs => (decimal i, v) :: tupleLabels (i + 1) vs

mutual
/-- The implementation that is selected for a value; the source of each is cited in Model/Impls.lean.
Models method resolution of `.visit` at visitor.rs:159, 200. -/
def Datum.value [Target] : Datum → Value
  | .plain self => Impl.plain self
  | .hollow self _ => Impl.empty self
  | .str self len => Impl.str self len
  | .osStr self len => Impl.osStr self len
  | .box self ptrSize v => Impl.box self ptrSize v.value
  | .ok self v => Impl.result self (.inl v.value)
  | .err self v => Impl.result self (.inr v.value)
  | .none self => Impl.option self .none
  | .some self v => Impl.option self (.some v.value)
  | .left self v => Impl.either self (.inl v.value)
  | .right self v => Impl.either self (.inr v.value)
  | .vec self T items capacity => Impl.vec self T (Datum.values items) capacity
  | .vecDeque self T front back capacity => Impl.vecDeque self T (Datum.values front) (Datum.values back) capacity
  | .string self len capacity => Impl.string self len capacity
  | .pathBuf self len capacity => Impl.pathBuf self len capacity
  | .compactString self heapAllocated len capacity => Impl.compactString self heapAllocated len capacity
  | .slice self T items => Impl.slice self T (Datum.values items)
  | .array self T items => Impl.array self T (Datum.values items)
  | .tuple self fields => Impl.tuple self (tupleLabels 0 (Datum.values fields))
  | .manuallyDrop self v => Impl.manuallyDrop self v.value
  | .cell self accessible v => Impl.cell self (if accessible then .some v.value else .none)
  | .cellEmpty self => Impl.cell self .none
  | .onceCell self v => Impl.onceCell self (.some v.value)
  | .map self _ keys values => Impl.map self ((Datum.values keys).zip (Datum.values values))
  | .set self _ items => Impl.set self (Datum.values items)
  | .smallVecInline self _ items => Impl.smallVec self false (Datum.values items)
  | .smallVecSpilled self _ items _ => Impl.smallVec self true (Datum.values items)
  | .slab self T _ items capacity => Impl.slab self T (Datum.values items) capacity
  | .arc self ptrSize ptr => Impl.arc self ptrSize ptr
  | .weakDangling self => Impl.weak self .none
  | .weak self strong ptrSize ptr => Impl.weak self (.some (Impl.arc strong ptrSize ptr))
  | .struct self size labels fields => ⟨self, size, Visit.enterSelf self size .exit (Visit.derivedFields labels (Datum.values fields))⟩
  | .enum self variant labels fields =>
    Impl.sized self (Visit.enterSelf self self.size .exit
      (Visit.enter (Key.new variant) self.size .exit (Visit.derivedFields labels (Datum.values fields))))
  | .onceCellEmpty self => Impl.onceCell self .none
  | .hashTable self T items capacity _ => Impl.hashTable self T (Datum.values items) capacity
  | .indexSet self T items capacity _ _ => Impl.indexSet self T (Datum.values items) capacity
  | .indexMap self _ _ KV keys values capacity _ _ => Impl.indexMap self KV ((Datum.values keys).zip (Datum.values values)) capacity
  | .dashMap self _ _ KV capacity keys values capacityLater len _ =>
    Impl.dashMap self KV capacity ((Datum.values keys).zip (Datum.values values)) capacityLater len
  | .dashSet self T capacity items capacityLater len _ => Impl.dashSet self T capacity (Datum.values items) capacityLater len
  | .bigInt self digits _ => Impl.bigInt self digits
  | .bump self allocated chunks _ => Impl.bump self allocated chunks
  | .jsonMap self _ keys values => Impl.jsonMap self ((Datum.values keys).zip (Datum.values values))
  | .jsonLeaf self => Impl.jsonValue self .none
  | .json self variant v => Impl.jsonValue self (.some (variant, v.value))
  | .futuresPending self => Impl.futuresShared self .none
  | .futuresShared self ptr => Impl.futuresShared self (.some ptr)
  | .headerSlice self sizeOfVal header tail => Impl.headerSlice self sizeOfVal header.value tail.value
  | .headerWithLength self header len => Impl.headerWithLength self header.value len.value
  | .unit self size _ => ⟨self, size, Visit.enterSelf self size .exit .nil⟩
/-- Pointwise. Models the loop visitor.rs:199-201. -/
def Datum.values [Target] : List Datum → List Value
  | [] => []
  | d :: ds => d.value :: Datum.values ds
end

/-- A shared allocation of `size` bytes with the value in it.
Models what is visited inside `enter_shared`: impls/std/sync.rs:78-87, 117-125, impls/triomphe.rs:60-76, 94-107, impls/futures.rs:34-37. -/
inductive Cell where
  | arc (size : Nat) (v : Datum)
  | rc (size : Nat) (v : Datum)
  | triomphe (size : Nat) (v : Datum)
  /-- `repr` is `ThinArcInnerRepr<H>`, the value a `HeaderSlice<HeaderWithLength<H>, [T]>` -/
  | thin (repr : Ty) (size : Nat) (v : Datum)
  /-- result of a `futures::future::Shared` -/
  | future (v : Datum)

/-- The value.
Models `val`, `self`, `result` at impls/std/sync.rs:80, 119, impls/triomphe.rs:70-73, 103, impls/futures.rs:29. -/
def Cell.datum : Cell → Datum
  | .arc _ v => v
  | .rc _ v => v
  | .triomphe _ v => v
  | .thin _ _ v => v
  | .future v => v

/-- What is visited inside of `enter_shared`: sync.rs:79-86 and 118-123, triomphe.rs:95-106 and 61-74, futures.rs:34-37. -/
def Cell.visit [Target] : Cell → Obj
  | .arc size v => Impl.arcInner size v.value
  | .rc size v => Impl.rcInner size v.value
  | .triomphe size v => Impl.triompheInner size v.value
  | .thin repr size v => Impl.thinArcInner repr size v.value
  | .future v => v.value.visit

end Allocative
