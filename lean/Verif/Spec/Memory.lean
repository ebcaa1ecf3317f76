import Verif.Spec.Footprint
/-
Specification for C60: values that exist in memory.
-/
namespace Allocative

mutual
/-- Every part of a value has memory of its own: what is stored inline fits in the value, the entries of a map fit in the allocation of the map.  Guaranteed by Rust
and the collections for every value that exists.  (For collections not listed the corresponding facts are in `Datum.WF`.) -/
def Datum.InMemory [Target] : Datum → Prop
  | .box self ptrSize v => ptrSize ≤ self.size ∧ v.InMemory
  | .ok self v => v.size ≤ self.size ∧ v.InMemory
  | .err self v => v.size ≤ self.size ∧ v.InMemory
  | .some self v => v.size ≤ self.size ∧ v.InMemory
  | .left self v => v.size ≤ self.size ∧ v.InMemory
  | .right self v => v.size ≤ self.size ∧ v.InMemory
  | .vec self _ items _ => ptrBytes ≤ self.size ∧ Datum.InMemoryAll items
  | .vecDeque self _ front back _ => ptrBytes ≤ self.size ∧ Datum.InMemoryAll front ∧ Datum.InMemoryAll back
  | .string self _ _ => ptrBytes ≤ self.size
  | .pathBuf self _ _ => ptrBytes ≤ self.size
  | .compactString self _ _ _ => ptrBytes ≤ self.size
  | .slice _ _ items => Datum.InMemoryAll items
  | .array _ _ items => Datum.InMemoryAll items
  | .tuple self fields => Datum.sizes fields ≤ self.size ∧ Datum.InMemoryAll fields
  | .manuallyDrop _ v => v.InMemory
  | .cell self _ v => v.size ≤ self.size ∧ v.InMemory
  | .onceCell self v => v.size ≤ self.size ∧ v.InMemory
  | .map self table keys values => ptrBytes ≤ self.size ∧ Datum.sizes keys + Datum.sizes values ≤ table ∧ Datum.InMemoryAll keys ∧ Datum.InMemoryAll values
  | .set self table items => ptrBytes ≤ self.size ∧ Datum.sizes items ≤ table ∧ Datum.InMemoryAll items
  | .smallVecInline self _ items => Datum.sizes items ≤ self.size ∧ Datum.InMemoryAll items
  | .smallVecSpilled self _ items _ => ptrBytes ≤ self.size ∧ Datum.InMemoryAll items
  | .slab self _ _ items _ => ptrBytes ≤ self.size ∧ Datum.InMemoryAll items
  | .arc self ptrSize _ => ptrSize ≤ self.size
  | .weak self strong ptrSize _ => ptrSize ≤ strong.size ∧ strong.size ≤ self.size
  | .struct _ size _ fields => Datum.sizes fields ≤ size ∧ Datum.InMemoryAll fields
  | .enum self _ _ fields => Datum.sizes fields ≤ self.size ∧ Datum.InMemoryAll fields
  | .hashTable self _ items _ _ => ptrBytes ≤ self.size ∧ Datum.InMemoryAll items
  | .indexSet self _ items _ _ _ => 2 * ptrBytes ≤ self.size ∧ Datum.InMemoryAll items
  | .indexMap self _ _ _ keys values _ _ _ => 2 * ptrBytes ≤ self.size ∧ Datum.InMemoryAll keys ∧ Datum.InMemoryAll values
  -- the entries seen and the free ones seen later are in the table
  | .dashMap self _ _ KV _ keys values capacityLater len table => ptrBytes ≤ self.size ∧ (keys.length + (capacityLater - len)) * KV.size ≤ table ∧
      Datum.InMemoryAll keys ∧ Datum.InMemoryAll values
  | .dashSet self T _ items capacityLater len table => ptrBytes ≤ self.size ∧ (items.length + (capacityLater - len)) * T.size ≤ table ∧ Datum.InMemoryAll items
  | .bigInt self _ _ => ptrBytes ≤ self.size
  | .bump self _ _ _ => ptrBytes ≤ self.size
  | .jsonMap self _ keys values => ptrBytes ≤ self.size ∧ Datum.InMemoryAll keys ∧ Datum.InMemoryAll values
  | .json self _ v => v.size ≤ self.size ∧ v.InMemory
  | .futuresShared self _ => ptrBytes ≤ self.size
  | .headerSlice _ sizeOfVal header tail => header.size + tail.size ≤ sizeOfVal ∧ header.InMemory ∧ tail.InMemory
  | .headerWithLength self header len => header.size + len.size ≤ self.size ∧ header.InMemory ∧ len.InMemory
  | _ => True
/-- All of them. -/
def Datum.InMemoryAll [Target] : List Datum → Prop
  | [] => True
  | d :: ds => d.InMemory ∧ Datum.InMemoryAll ds
end

/-- The memory of some roots and of the shared allocations at `L`, where the allocation at `p` has `bytes p` bytes. -/
def memory [Target] (allocs : Ptr → Alloc) (roots : List Datum) (L : List Ptr) (bytes : Ptr → Nat) : Nat :=
  (roots.map Datum.footprint).sum + (L.map fun p => bytes p + (allocs p).value.heapBytes).sum

/-- What C60 is about: some roots, the shared allocations reachable from them, and their real sizes; everything exists in memory. -/
structure Snapshot [Target] (allocs : Ptr → Alloc) (roots : List Datum) (L : List Ptr) (bytes : Ptr → Nat) : Prop where
  values : ∀ d ∈ roots, d.WF ∧ d.InMemory
  nodup : L.Nodup
  reachable : ∀ p, p ∈ L ↔ ReachableCell (fun p => (allocs p).cell) roots p
  cells : ∀ p ∈ L, (allocs p).value.WF ∧ (allocs p).value.InMemory ∧ (allocs p).Exact ∧ (allocs p).Occupies (bytes p) ∧ bytes p ≤ Layout.isizeMax

end Allocative
