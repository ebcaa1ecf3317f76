import Verif.Model.Datum
import Verif.Spec.Object
/-
Specification vocabulary for Rust values: what a value occupies on the heap (C32-C35), what Rust guarantees about lengths and
layouts.  Nothing here refers to visits, except that sizes of values are read off `Datum.value`.
-/
namespace Allocative

/-- `size_of_val(&v)`. -/
def Datum.size [Target] (d : Datum) : Nat := d.value.sizeOfVal

/-- The values are of type `T` (and sized). -/
def Datum.AllOf [Target] (T : Ty) (items : List Datum) : Prop := ∀ d ∈ items, d.value.ty = T ∧ d.size = T.size

/-- Sum of `size_of_val`. -/
def Datum.sizes [Target] (items : List Datum) : Nat := (items.map Datum.size).sum

/-- The smallest power of two that is at least `n` (`leastPow2_spec`). -/
def leastPow2 (n : Nat) : Nat := if n ≤ 1 then 1 else 2 * leastPow2 ((n + 1) / 2)

/-- What the crate assumes of a hash table with room for `len` elements of `size` bytes: a power of two of slots, at least four, each with a
control byte; nothing for `len = 0` (C37). -/
def tableBytes (size len : Nat) : Nat := if len = 0 then 0 else (size + 1) * leastPow2 (max len 4)

mutual
/-- Bytes of heap memory owned by a value through unique pointers: those that are freed when the value (and the
content of `ManuallyDrop`s in it) is dropped and nothing is shared. -/
def Datum.heapBytes [Target] : Datum → Nat
  | .plain _ => 0
  | .hollow _ owned => owned
  | .str _ _ => 0
  | .osStr _ _ => 0
  | .box _ _ v => v.size + v.heapBytes
  | .ok _ v => v.heapBytes
  | .err _ v => v.heapBytes
  | .none _ => 0
  | .some _ v => v.heapBytes
  | .left _ v => v.heapBytes
  | .right _ v => v.heapBytes
  | .vec _ T items capacity => capacity * T.size + Datum.heapBytesAll items
  | .vecDeque _ T front back capacity => capacity * T.size + (Datum.heapBytesAll front + Datum.heapBytesAll back)
  | .string _ _ capacity => capacity
  | .pathBuf _ _ capacity => capacity
  | .compactString _ heapAllocated _ capacity => if heapAllocated then capacity else 0
  | .slice _ _ items => Datum.heapBytesAll items
  | .array _ _ items => Datum.heapBytesAll items
  | .tuple _ fields => Datum.heapBytesAll fields
  | .manuallyDrop _ v => v.heapBytes
  | .cell _ _ v => v.heapBytes
  | .cellEmpty _ => 0
  | .onceCell _ v => v.heapBytes
  | .map _ table keys values => table + (Datum.heapBytesAll keys + Datum.heapBytesAll values)
  | .set _ table items => table + Datum.heapBytesAll items
  | .smallVecInline _ _ items => Datum.heapBytesAll items
  | .smallVecSpilled _ T items capacity => capacity * T.size + Datum.heapBytesAll items
  | .slab _ _ entry items capacity => capacity * entry + Datum.heapBytesAll items
  | .arc _ _ _ => 0
  | .weakDangling _ => 0
  | .weak _ _ _ _ => 0
  | .struct _ _ _ fields => Datum.heapBytesAll fields
  | .enum _ _ _ fields => Datum.heapBytesAll fields
  | .onceCellEmpty _ => 0
  | .hashTable _ _ items _ table => table + Datum.heapBytesAll items
  | .indexSet _ _ items capacity bucket table => capacity * bucket + table + Datum.heapBytesAll items
  | .indexMap _ _ _ _ keys values capacity bucket table => capacity * bucket + table + (Datum.heapBytesAll keys + Datum.heapBytesAll values)
  | .dashMap _ _ _ _ _ keys values _ _ table => table + (Datum.heapBytesAll keys + Datum.heapBytesAll values)
  | .dashSet _ _ _ items _ _ table => table + Datum.heapBytesAll items
  | .bigInt _ _ heap => heap
  | .bump _ _ _ heap => heap
  | .jsonMap _ table keys values => table + (Datum.heapBytesAll keys + Datum.heapBytesAll values)
  | .jsonLeaf _ => 0
  | .json _ _ v => v.heapBytes
  | .futuresPending _ => 0
  | .futuresShared _ _ => 0
  | .headerSlice _ _ header tail => header.heapBytes + tail.heapBytes
  | .headerWithLength _ header len => header.heapBytes + len.heapBytes
  | .unit _ _ owned => owned
/-- Sum. -/
def Datum.heapBytesAll [Target] : List Datum → Nat
  | [] => 0
  | d :: ds => d.heapBytes + Datum.heapBytesAll ds
end

mutual
/-- What Rust and the collections guarantee: elements have the element type, `len <= capacity`, allocations are
smaller than the address space. -/
def Datum.WF [Target] : Datum → Prop
  | .box _ _ v => v.WF
  | .ok _ v => v.WF
  | .err _ v => v.WF
  | .some _ v => v.WF
  | .left _ v => v.WF
  | .right _ v => v.WF
  | .vec _ T items capacity => Datum.AllOf T items ∧ items.length ≤ capacity ∧ capacity < Usize.modulus ∧ capacity * T.size < Usize.modulus ∧ Datum.WFAll items
  | .vecDeque _ T front back capacity => Datum.AllOf T front ∧ Datum.AllOf T back ∧ front.length + back.length ≤ capacity ∧ capacity < Usize.modulus ∧
      capacity * T.size < Usize.modulus ∧ Datum.WFAll front ∧ Datum.WFAll back
  | .string _ len capacity => len ≤ capacity ∧ capacity < Usize.modulus
  | .pathBuf _ len capacity => len ≤ capacity ∧ capacity < Usize.modulus
  | .compactString _ _ len capacity => len ≤ capacity ∧ capacity < Usize.modulus
  | .slice _ T items => Datum.AllOf T items ∧ T.size * items.length < Usize.modulus ∧ Datum.WFAll items
  | .array self T items => Datum.AllOf T items ∧ self.size = T.size * items.length ∧ self.size < Usize.modulus ∧ Datum.WFAll items
  | .tuple _ fields => Datum.WFAll fields
  | .manuallyDrop _ v => v.WF
  | .cell _ _ v => v.WF
  | .onceCell _ v => v.WF
  | .map _ _ keys values => keys.length = values.length ∧ Datum.WFAll keys ∧ Datum.WFAll values
  | .set _ _ items => Datum.WFAll items
  | .smallVecInline _ T items => Datum.AllOf T items ∧ Datum.WFAll items
  | .smallVecSpilled _ T items capacity => Datum.AllOf T items ∧ items.length ≤ capacity ∧ Datum.WFAll items
  | .slab _ T entry items capacity => Datum.AllOf T items ∧ items.length ≤ capacity ∧ capacity < Usize.modulus ∧ T.size ≤ entry ∧ capacity * entry < Usize.modulus ∧
      Datum.WFAll items
  | .struct _ _ labels fields => labels.length = fields.length ∧ Datum.WFAll fields
  | .enum _ _ labels fields => labels.length = fields.length ∧ Datum.WFAll fields
  | .hashTable _ T items capacity table => Datum.AllOf T items ∧ items.length ≤ capacity ∧ tableBytes T.size capacity ≤ table ∧ table < Usize.modulus ∧
      Datum.WFAll items
  | .indexSet _ T items capacity bucket table => Datum.AllOf T items ∧ items.length ≤ capacity ∧ capacity < Usize.modulus ∧ T.size ≤ bucket ∧
      capacity * bucket < Usize.modulus ∧ tableBytes ptrBytes items.length ≤ table ∧ table < Usize.modulus ∧ Datum.WFAll items
  | .indexMap _ K V KV keys values capacity bucket table => Datum.AllOf K keys ∧ Datum.AllOf V values ∧ keys.length = values.length ∧
      keys.length ≤ capacity ∧ capacity < Usize.modulus ∧ K.size + V.size ≤ KV.size ∧ KV.size ≤ bucket ∧ capacity * bucket < Usize.modulus ∧
      tableBytes ptrBytes keys.length ≤ table ∧ table < Usize.modulus ∧ Datum.WFAll keys ∧ Datum.WFAll values
  | .dashMap _ K V KV capacity keys values capacityLater len table => Datum.AllOf K keys ∧ Datum.AllOf V values ∧ keys.length = values.length ∧
      K.size + V.size ≤ KV.size ∧ capacity * KV.size ≤ table ∧ table < Usize.modulus ∧ (capacityLater - len) * KV.size < Usize.modulus ∧
      Datum.WFAll keys ∧ Datum.WFAll values
  | .dashSet _ T capacity items capacityLater len table => Datum.AllOf T items ∧ capacity * T.size ≤ table ∧ table < Usize.modulus ∧
      (capacityLater - len) * T.size < Usize.modulus ∧ Datum.WFAll items
  -- 32-bit targets: the digits are of 32 bits, an odd number of them without a spare one does not meet this (C49_bigint)
  | .bigInt _ digits heap => digits * 8 ≤ heap ∧ heap < Usize.modulus
  | .bump _ allocated chunks heap => chunks.sum ≤ allocated ∧ allocated ≤ heap ∧ heap < Usize.modulus
  | .jsonMap _ table keys values => keys.length = values.length ∧ Datum.sizes keys + Datum.sizes values ≤ table ∧ Datum.WFAll keys ∧ Datum.WFAll values
  | .json _ _ v => v.WF
  | .headerSlice _ _ header tail => header.WF ∧ tail.WF
  | .headerWithLength _ header len => header.WF ∧ len.WF
  | _ => True
/-- All of them. -/
def Datum.WFAll [Target] : List Datum → Prop
  | [] => True
  | d :: ds => d.WF ∧ Datum.WFAll ds
end

/-- Is the visit of this value empty (`&'static T`, `PhantomData`, `anyhow::Error`)? -/
def Datum.isOpaque : Datum → Bool
  | .hollow _ _ => true
  | _ => false

/-- Elements visited by `visit_slice` one by one must not be opaque and of non-zero size; elements visited in bulk (no drop glue, or
zero size) must own nothing. -/
def Datum.ElementsOk [Target] (T : Ty) (items : List Datum) : Prop :=
  if T.needsDrop = true ∧ T.size ≠ 0 then ∀ d ∈ items, d.isOpaque = false else Datum.heapBytesAll items = 0

mutual
/-- Values for which the report is exact.  Excluded are: opaque values that own heap memory or are themselves on the heap; elements without
drop glue that own heap memory (`Vec<ManuallyDrop<Box<T>>>`); content behind a lock that is held; maps and sets; spilled `SmallVec`s
with spare capacity; `Slab`s; hashbrown, indexmap, dashmap tables and JSON maps; big integers with spare capacity; bump arenas (the headers of their
chunks); skipped fields that own heap memory. -/
def Datum.Standard [Target] : Datum → Prop
  | .hollow _ owned => owned = 0
  | .box _ _ v => v.Standard ∧ (v.isOpaque = true → v.size = 0)
  | .ok _ v => v.Standard
  | .err _ v => v.Standard
  | .some _ v => v.Standard
  | .left _ v => v.Standard
  | .right _ v => v.Standard
  | .vec _ T items _ => Datum.ElementsOk T items ∧ Datum.StandardAll items
  | .vecDeque _ T front back _ => Datum.ElementsOk T front ∧ Datum.ElementsOk T back ∧ Datum.StandardAll front ∧ Datum.StandardAll back
  | .slice _ _ items => Datum.StandardAll items
  | .array _ _ items => Datum.StandardAll items
  | .tuple _ fields => Datum.StandardAll fields
  | .manuallyDrop _ v => v.Standard
  | .cell _ accessible v => accessible = true ∧ v.Standard
  | .onceCell _ v => v.Standard
  | .map _ _ _ _ => False
  | .set _ _ _ => False
  | .smallVecInline _ _ items => Datum.StandardAll items
  | .smallVecSpilled _ _ items capacity => capacity = items.length ∧ Datum.StandardAll items
  | .slab _ _ _ _ _ => False
  | .struct _ _ labels fields => (∀ l ∈ labels, l.2 = false) ∧ Datum.StandardAll fields
  | .enum _ _ labels fields => (∀ l ∈ labels, l.2 = false) ∧ Datum.StandardAll fields
  | .hashTable _ _ _ _ _ => False
  | .indexSet _ _ _ _ _ _ => False
  | .indexMap _ _ _ _ _ _ _ _ _ => False
  | .dashMap _ _ _ _ _ _ _ _ _ _ => False
  | .dashSet _ _ _ _ _ _ _ => False
  | .bigInt _ digits heap => heap = digits * 8
  | .bump _ allocated _ heap => heap = allocated
  | .jsonMap _ _ _ _ => False
  | .json _ _ v => v.Standard
  | .headerSlice _ _ header tail => header.Standard ∧ tail.Standard
  | .headerWithLength _ header len => header.Standard ∧ len.Standard
  | .unit _ _ owned => owned = 0
  | _ => True
/-- All of them. -/
def Datum.StandardAll [Target] : List Datum → Prop
  | [] => True
  | d :: ds => d.Standard ∧ Datum.StandardAll ds
end

/-- Size of values whose visit is empty: what is lost if they are directly behind a unique pointer. -/
def Datum.hidden [Target] (d : Datum) : Nat := if d.isOpaque then d.size else 0

mutual
/-- Bytes of `heapBytes` that are not reported, defect by defect. -/
def Datum.missed [Target] : Datum → Nat
  | .hollow _ owned => owned
  | .box _ _ v => v.hidden + v.missed
  | .ok _ v => v.missed
  | .err _ v => v.missed
  | .some _ v => v.missed
  | .left _ v => v.missed
  | .right _ v => v.missed
  | .vec _ T items _ => if T.needsDrop = true ∧ T.size ≠ 0 then Datum.missedAll true items else Datum.heapBytesAll items
  | .vecDeque _ T front back _ =>
    if T.needsDrop = true ∧ T.size ≠ 0 then Datum.missedAll true front + Datum.missedAll true back
    else Datum.heapBytesAll front + Datum.heapBytesAll back
  | .slice _ _ items => Datum.missedAll false items
  | .array _ _ items => Datum.missedAll false items
  | .tuple _ fields => Datum.missedAll false fields
  | .manuallyDrop _ v => v.missed
  -- content behind a lock that is held
  | .cell _ accessible v => if accessible then v.missed else v.heapBytes
  | .onceCell _ v => v.missed
  -- the table of a map
  | .map _ table keys values => table + (Datum.missedAll false keys + Datum.missedAll false values)
  | .set _ table items => table + Datum.missedAll false items
  | .smallVecInline _ _ items => Datum.missedAll false items
  -- spare capacity
  | .smallVecSpilled _ T items capacity => (capacity - items.length) * T.size + Datum.missedAll false items
  -- overhead of the entries of a slab; with elements of size zero everything
  | .slab _ T entry items capacity => capacity * (entry - T.size) +
      if T.needsDrop = true ∧ T.size ≠ 0 then Datum.missedAll true items else Datum.heapBytesAll items
  | .struct _ _ labels fields => Datum.missedFields labels fields
  | .enum _ _ labels fields => Datum.missedFields labels fields
  -- real size of the table, less the estimate
  | .hashTable _ T items capacity table => (table - tableBytes T.size capacity) +
      if T.needsDrop = true ∧ T.size ≠ 0 then Datum.missedAll false items else Datum.heapBytesAll items
  -- hashes stored in the buckets, real size of the table less the estimate
  | .indexSet _ T items capacity bucket table =>
    capacity * (bucket - T.size) + (table - tableBytes ptrBytes items.length) + Datum.missedAll false items
  -- also padding between key and value
  | .indexMap _ K V KV keys values capacity bucket table =>
    (keys.length * (bucket - (K.size + V.size)) + (capacity - keys.length) * (bucket - KV.size)) + (table - tableBytes ptrBytes keys.length) +
      (Datum.missedAll false keys + Datum.missedAll false values)
  -- control bytes, shards
  | .dashMap _ _ _ KV capacity keys values _ _ table => (table - capacity * KV.size) + (Datum.missedAll false keys + Datum.missedAll false values)
  | .dashSet _ T capacity items _ _ table => (table - capacity * T.size) + Datum.missedAll false items
  -- spare capacity
  | .bigInt _ digits heap => heap - digits * 8
  -- headers of the chunks
  | .bump _ allocated _ heap => heap - allocated
  -- everything in the nodes of the tree but keys and values
  | .jsonMap _ table keys values => (table - (Datum.sizes keys + Datum.sizes values)) + (Datum.missedAll false keys + Datum.missedAll false values)
  | .json _ _ v => v.missed
  | .headerSlice _ _ header tail => header.missed + tail.missed
  | .headerWithLength _ header len => header.missed + len.missed
  | .unit _ _ owned => owned
  | _ => 0
/-- Sum; with `behindPointer`, opaque values are lost themselves. -/
def Datum.missedAll [Target] (behindPointer : Bool) : List Datum → Nat
  | [] => 0
  | d :: ds => (if behindPointer then d.hidden else 0) + d.missed + Datum.missedAll behindPointer ds
/-- Fields: of skipped ones everything. -/
def Datum.missedFields [Target] : List (Str × Bool) → List Datum → Nat
  | (_, skip) :: ls, d :: ds => (if skip then d.heapBytes else d.missed) + Datum.missedFields ls ds
  | _, _ => 0
end

mutual
/-- Layout: the parts a value is visited with fit in the value.  Guaranteed by Rust for everything that is stored inline; for maps and sets,
whose entries are visited inline in one pointer, it is a real restriction (see C33). -/
def Datum.Fits [Target] : Datum → Prop
  | .box self ptrSize v => ptrSize ≤ self.size ∧ v.Fits
  | .ok self v => v.size ≤ self.size ∧ v.Fits
  | .err self v => v.size ≤ self.size ∧ v.Fits
  | .some self v => v.size ≤ self.size ∧ v.Fits
  | .left self v => v.size ≤ self.size ∧ v.Fits
  | .right self v => v.size ≤ self.size ∧ v.Fits
  | .vec self _ items _ => ptrBytes ≤ self.size ∧ Datum.FitsAll items
  | .vecDeque self _ front back _ => ptrBytes ≤ self.size ∧ Datum.FitsAll front ∧ Datum.FitsAll back
  | .string self _ _ => ptrBytes ≤ self.size
  | .pathBuf self _ _ => ptrBytes ≤ self.size
  | .compactString self _ _ _ => ptrBytes ≤ self.size
  | .slice _ _ items => Datum.FitsAll items
  | .array _ _ items => Datum.FitsAll items
  | .tuple self fields => Datum.sizes fields ≤ self.size ∧ Datum.FitsAll fields
  | .manuallyDrop _ v => v.Fits
  | .cell self _ v => v.size ≤ self.size ∧ v.Fits
  | .onceCell self v => v.size ≤ self.size ∧ v.Fits
  | .map self _ keys values => ptrBytes ≤ self.size ∧ Datum.sizes keys + Datum.sizes values ≤ ptrBytes ∧ Datum.FitsAll keys ∧ Datum.FitsAll values
  | .set self _ items => ptrBytes ≤ self.size ∧ Datum.sizes items ≤ ptrBytes ∧ Datum.FitsAll items
  | .smallVecInline self _ items => Datum.sizes items ≤ self.size ∧ Datum.FitsAll items
  | .smallVecSpilled self _ items _ => ptrBytes ≤ self.size ∧ Datum.FitsAll items
  | .slab self _ _ items _ => ptrBytes ≤ self.size ∧ Datum.FitsAll items
  | .arc self ptrSize _ => ptrSize ≤ self.size
  | .weak self strong ptrSize _ => ptrSize ≤ strong.size ∧ strong.size ≤ self.size
  | .struct _ size _ fields => Datum.sizes fields ≤ size ∧ Datum.FitsAll fields
  | .enum self _ _ fields => Datum.sizes fields ≤ self.size ∧ Datum.FitsAll fields
  | .hashTable self _ items _ _ => ptrBytes ≤ self.size ∧ Datum.FitsAll items
  | .indexSet self _ items _ _ _ => 2 * ptrBytes ≤ self.size ∧ Datum.FitsAll items
  | .indexMap self _ _ _ keys values _ _ _ => 2 * ptrBytes ≤ self.size ∧ Datum.FitsAll keys ∧ Datum.FitsAll values
  -- no other thread changes the map during the visit
  | .dashMap self _ _ _ capacity keys values capacityLater len _ => ptrBytes ≤ self.size ∧ capacityLater = capacity ∧ len = keys.length ∧
      keys.length ≤ capacity ∧ Datum.FitsAll keys ∧ Datum.FitsAll values
  | .dashSet self _ capacity items capacityLater len _ => ptrBytes ≤ self.size ∧ capacityLater = capacity ∧ len = items.length ∧
      items.length ≤ capacity ∧ Datum.FitsAll items
  | .bigInt self _ _ => ptrBytes ≤ self.size
  | .bump self _ _ _ => ptrBytes ≤ self.size
  | .jsonMap self _ keys values => ptrBytes ≤ self.size ∧ Datum.FitsAll keys ∧ Datum.FitsAll values
  | .json self _ v => v.size ≤ self.size ∧ v.Fits
  | .futuresShared self _ => ptrBytes ≤ self.size
  | .headerSlice _ sizeOfVal header tail => header.size + tail.size ≤ sizeOfVal ∧ header.Fits ∧ tail.Fits
  | .headerWithLength self header len => header.size + len.size ≤ self.size ∧ header.Fits ∧ len.Fits
  | _ => True
/-- All of them. -/
def Datum.FitsAll [Target] : List Datum → Prop
  | [] => True
  | d :: ds => d.Fits ∧ Datum.FitsAll ds
end

/-- The visit of a value is consistent and declares at most the size of the value. -/
def Value.Fit (v : Value) : Prop := v.visit.direct ≤ v.sizeOfVal ∧ v.visit.Consistent

end Allocative
