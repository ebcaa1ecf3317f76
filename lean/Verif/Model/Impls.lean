import Verif.Model.Object
import Verif.Model.Usize
/-
Model of the helper methods of `Visitor` (allocative/src/visitor.rs) and of the `Allocative` implementations in
allocative/src/impls.  A visit is an `Obj`: the list of calls made on the visitor.  What an
implementation reads from the value (lengths, capacities, elements, lock state) is a parameter.
-/
namespace Allocative

/-- What the compiler knows about a type: `any::type_name`, `size_of` and `needs_drop`.
Models used at key.rs:84, visitor.rs:126, 192-196. -/
structure Ty where
  name : Str
  size : Nat
  needsDrop : Bool
deriving DecidableEq

/-- A value with its `Allocative` implementation: its type, `size_of_val(&value)` and what `value.visit(visitor)` does.
Models visitor.rs:154-161. -/
structure Value where
  ty : Ty
  sizeOfVal : Nat
  visit : Obj
deriving DecidableEq

/-- Sequential composition: `a; b`. Models the sequence of calls in a visit, e.g. visitor.rs:211-215. -/
def Obj.append : Obj → Obj → Obj
  | .nil, b => b
  | .inline k n e inside rest, b => .inline k n e inside (rest.append b)
  | .unique k n e inside rest, b => .unique k n e inside (rest.append b)
  | .shared k n p e rest, b => .shared k n p e (rest.append b)

/-- A `for` loop: the visits one after another. Models visitor.rs:199-201, 224-227, 238-240. -/
def Obj.concat : List Obj → Obj
  | [] => .nil
  | a :: l => a.append (Obj.concat l)

/-! ### Helper methods, visitor.rs:120-242 -/

/-- `Key::for_type_name::<T>()`. Models key.rs:75-85. -/
def Ty.key (T : Ty) : Key := Key.forTypeName T.name

/-- `let mut visitor = visitor.enter(name, size); <inside>; <end of visitor>`. Models visitor.rs:72-81, 174-176. -/
def Visit.enter (name : Key) (size : Nat) (e : Ending) (inside : Obj) : Obj := .inline name size e inside .nil

/-- The same with `enter_unique`. Models visitor.rs:83-92. -/
def Visit.enterUnique (name : Key) (size : Nat) (e : Ending) (inside : Obj) : Obj := .unique name size e inside .nil

/-- `enter_self_sized::<T>()`, visitor.rs:122-127. -/
def Visit.enterSelfSized (T : Ty) (e : Ending) (inside : Obj) : Obj := Visit.enter T.key T.size e inside

/-- `enter_self(this)`, visitor.rs:131-136. -/
def Visit.enterSelf (T : Ty) (sizeOfVal : Nat) (e : Ending) (inside : Obj) : Obj := Visit.enter T.key sizeOfVal e inside

/-- `visit_simple(name, size)`, visitor.rs:139-144. -/
def Visit.simple (name : Key) (size : Nat) : Obj := Visit.enter name size .exit .nil

/-- `visit_simple_sized::<T>()`, visitor.rs:147-152. -/
def Visit.simpleSized (T : Ty) : Obj := Visit.enterSelfSized T .exit .nil

/-- `visit_field_with(name, field_size, visit)`, visitor.rs:168-177. -/
def Visit.fieldWith (name : Key) (fieldSize : Nat) (visit : Obj) : Obj := Visit.enter name fieldSize .exit visit

/-- `visit_field(name, field)`, visitor.rs:154-161. -/
def Visit.field (name : Key) (field : Value) : Obj := Visit.fieldWith name field.sizeOfVal field.visit

/-- The `for` loop of `visit_iter`, visitor.rs:199-201. -/
def Visit.each (items : List Value) : Obj := Obj.concat (items.map Value.visit)

/-- `visit_iter::<T, _>(iter)`, visitor.rs:186-203. -/
def Visit.iter [Target] (T : Ty) (items : List Value) : Obj :=
  if !T.needsDrop || T.size == 0 then
    Visit.simple T.key (Usize.mul T.size items.length)
  else
    Visit.each items

/-- `visit_slice::<T>(slice)`, visitor.rs:179-184. -/
def Visit.slice [Target] (T : Ty) (items : List Value) : Obj := Visit.iter T items

/-- impls/common.rs:14. -/
def unusedCapacityName : Key := Key.new (ascii "unused_capacity")
/-- impls/common.rs:17. -/
def capacityName : Key := Key.new (ascii "capacity")
/-- impls/common.rs:20. -/
def ptrName : Key := Key.new (ascii "ptr")
/-- impls/common.rs:23. -/
def dataName : Key := Key.new (ascii "data")
/-- impls/common.rs:25. -/
def keyName : Key := Key.new (ascii "key")
/-- impls/common.rs:26. -/
def valueName : Key := Key.new (ascii "value")

/-- `visit_vec_like_body::<T>(data, capacity)`, visitor.rs:205-217. -/
def Visit.vecLikeBody [Target] (T : Ty) (data : List Value) (capacity : Nat) : Obj :=
  Visit.fieldWith capacityName (Usize.mul T.size capacity)
    ((Visit.slice T data).append
      (Visit.simple unusedCapacityName (Usize.mul T.size (Usize.sub capacity data.length))))

/-- `visit_generic_map_fields(entries)`, visitor.rs:219-229. -/
def Visit.genericMapFields [Target] (entries : List (Value × Value)) : Obj :=
  Visit.fieldWith dataName ptrBytes
    (Obj.concat (entries.map fun e => (Visit.field keyName e.1).append (Visit.field valueName e.2)))

/-- `visit_generic_set_fields(entries)`, visitor.rs:231-242. -/
def Visit.genericSetFields [Target] (entries : List Value) : Obj :=
  Visit.fieldWith dataName ptrBytes (Obj.concat (entries.map fun k => Visit.field keyName k))

namespace Impl

/-- A sized value: `size_of_val` is `size_of`. Models visitor.rs:122-127, 158. -/
def sized (self : Ty) (visit : Obj) : Value := ⟨self, self.size, visit⟩

/-! ### std -/

/-- Integers, floats, bool, `()`, atomics, `NonZero*`, function pointers, `TypeId`, IP addresses, `Duration`, `Instant`,
`SystemTime` (impls/std/primitive.rs:14-102, tuple.rs:15-19, sync.rs:143-207, unsorted.rs:141-199, function.rs:14-46,
any.rs:14-18, net.rs:18-34, time.rs:18-34), `ThreadId` (thread.rs:15-19), `AtomicWaker` (futures.rs:43-47), `RawMutex`, `RawRwLock` (parking_lot.rs:19-29),
prost `Timestamp` and `Duration` (prost_types.rs:19-29), serde_json `Number` (serde_json.rs:19-25). -/
def plain (self : Ty) : Value := sized self (Visit.simpleSized self)

/-- Types with an empty visit: `&'static T` (unsorted.rs:35-39), `PhantomData<T>` (unsorted.rs:201-205),
`anyhow::Error` (anyhow.rs:16-21). -/
def empty (self : Ty) : Value := sized self .nil

/-- `str`, unsorted.rs:41-45. -/
def str (self : Ty) (len : Nat) : Value := ⟨self, len, Visit.simple (Key.new (ascii "str")) len⟩

/-- `OsStr`, unsorted.rs:47-51. -/
def osStr (self : Ty) (len : Nat) : Value := ⟨self, len, Visit.simple (Key.new (ascii "OsStr")) len⟩

/-- `Box<T>`, unsorted.rs:53-62; `ptrSize` is `size_of::<*const T>()`. -/
def box (self : Ty) (ptrSize : Nat) (v : Value) : Value :=
  sized self (Visit.enterSelfSized self .exit (Visit.enterUnique ptrName ptrSize .drop v.visit))

/-- `Result<T, E>`, unsorted.rs:64-72. -/
def result (self : Ty) : Sum Value Value → Value
  | .inl v => sized self (Visit.enterSelfSized self .drop (Visit.field (Key.new (ascii "Ok")) v))
  | .inr e => sized self (Visit.enterSelfSized self .drop (Visit.field (Key.new (ascii "Err")) e))

/-- `Option<T>`, unsorted.rs:74-81. -/
def option (self : Ty) (v : Option Value) : Value :=
  sized self (Visit.enterSelfSized self .drop
    (match v with
      | some v => Visit.field (Key.new (ascii "Some")) v
      | none => .nil))

/-- `Vec<T>`, unsorted.rs:83-96. -/
def vec [Target] (self T : Ty) (items : List Value) (capacity : Nat) : Value :=
  sized self (Visit.enterSelfSized self .exit
    (if capacity != 0 && T.size != 0 then
      Visit.enterUnique ptrName ptrBytes .drop
        ((Visit.slice T items).append
          (Visit.simple unusedCapacityName (Usize.mul (Usize.sub capacity items.length) T.size)))
    else .nil))

/-- `VecDeque<T>`, unsorted.rs:98-112; `front` and `back` are the two slices. -/
def vecDeque [Target] (self T : Ty) (front back : List Value) (capacity : Nat) : Value :=
  sized self (Visit.enterSelfSized self .exit
    (if capacity != 0 && T.size != 0 then
      Visit.enterUnique ptrName ptrBytes .drop
        (((Visit.slice T front).append (Visit.slice T back)).append
          (Visit.simple unusedCapacityName (Usize.mul (Usize.sub capacity (front.length + back.length)) T.size)))
    else .nil))

/-- The type `u8`. Models the bytes of `String` and `PathBuf`, impls/std/unsorted.rs:118, 130. -/
def u8 : Ty := ⟨ascii "u8", 1, false⟩

/-- `String`, unsorted.rs:114-124; `as_bytes` gives `len` values of type `u8`. -/
def string [Target] (self : Ty) (len capacity : Nat) : Value :=
  sized self (Visit.enterSelfSized self .exit
    (Visit.enterUnique ptrName ptrBytes .exit (Visit.vecLikeBody u8 (List.replicate len (plain u8)) capacity)))

/-- `PathBuf`, unsorted.rs:126-139; `len` is `as_os_str().len()`. -/
def pathBuf [Target] (self : Ty) (len capacity : Nat) : Value :=
  sized self (Visit.enterSelfSized self .exit
    (if capacity != 0 then
      Visit.enterUnique ptrName ptrBytes .drop
        ((Visit.simple (Key.new (ascii "path")) len).append (Visit.simple unusedCapacityName (Usize.sub capacity len)))
    else .nil))

/-- What `<[T]>::visit` does, unsorted.rs:220-229. -/
def sliceVisit [Target] (T : Ty) (items : List Value) : Obj :=
  Visit.enter T.key (Usize.mul T.size items.length) .exit (Obj.concat (items.map fun v => Visit.field dataName v))

/-- `[T]`, unsorted.rs:220-229. -/
def slice [Target] (self T : Ty) (items : List Value) : Value := ⟨self, Usize.mul T.size items.length, sliceVisit T items⟩

/-- `[T; N]`, unsorted.rs:231-235: `self.as_slice().visit(visitor)`. -/
def array [Target] (self T : Ty) (items : List Value) : Value := sized self (sliceVisit T items)

/-- Tuples of one to five elements, tuple.rs:21-66; a field is given with its index as a string. -/
def tuple (self : Ty) (fields : List (Str × Value)) : Value :=
  sized self (Visit.enterSelfSized self .drop (Obj.concat (fields.map fun f => Visit.field (Key.new f.1) f.2)))

/-- `ManuallyDrop<T>`, mem.rs:17-23. -/
def manuallyDrop (self : Ty) (v : Value) : Value :=
  ⟨self, v.sizeOfVal, Visit.enterSelf self v.sizeOfVal .exit (Visit.field (Key.new (ascii "inner")) v)⟩

/-- Cells and locks: `RefCell`, `OnceCell`, `OnceLock` (cell.rs:19-47), `RwLock`, `Mutex` (sync.rs:36-44, 209-217),
parking_lot `Mutex`, `RwLock` (lock_api.rs:22-40), tokio `Mutex`, `RwLock` (tokio.rs:20-38).  `content` is what
`try_borrow`, `get`, `try_read`, `try_lock` gave access to. -/
def cell (self : Ty) (content : Option Value) : Value :=
  sized self (Visit.enterSelfSized self .exit
    (match content with
      | some v => Visit.field dataName v
      | none => .nil))

/-- `once_cell`'s `OnceCell` and `Lazy`, sync and unsync (once_cell.rs:16-54): the content is visited without a field. -/
def onceCell (self : Ty) (content : Option Value) : Value :=
  sized self (Visit.enterSelfSized self .exit
    (match content with
      | some v => v.visit
      | none => .nil))

/-- `BTreeMap`, `HashMap` (collections.rs:19-25, 35-42), `SortedVectorMap` (sorted_vector_map.rs:19-26); `entries` in
iteration order. -/
def map [Target] (self : Ty) (entries : List (Value × Value)) : Value :=
  sized self (Visit.enterSelfSized self .exit (Visit.genericMapFields entries))

/-- `BTreeSet`, `HashSet` (collections.rs:27-33, 44-51), `SortedVectorSet` (sorted_vector_map.rs:28-35). -/
def set [Target] (self : Ty) (entries : List Value) : Value :=
  sized self (Visit.enterSelfSized self .exit (Visit.genericSetFields entries))

/-! ### Shared pointers: the pointer, and what is visited inside of `enter_shared` for a heap cell -/

/-- `Layout::new::<RcBox<()>>()`, sync.rs:46-52. -/
def rcBoxHeader [Target] : Layout := ⟨2 * ptrBytes, ptrBytes⟩

/-- `RcBox::layout(val)`, sync.rs:54-64; `none` is the panic of `unwrap`. -/
def rcBoxLayout [Target] (val : Layout) : Option Layout := (rcBoxHeader.extend val).map fun r => r.1.padToAlign

/-- `Arc<T>` and `Rc<T>`, sync.rs:66-91 and 105-129: the part outside of the pointee. -/
def arc (self : Ty) (ptrSize : Nat) (ptr : Ptr) : Value :=
  sized self (Visit.enterSelfSized self .exit (.shared ptrName ptrSize ptr .exit .nil))

/-- Inside of the pointee of an `Arc`, sync.rs:79-86; `size` is `RcBox::layout(val).size()`. -/
def arcInner (size : Nat) (val : Value) : Obj := Visit.enter (Key.new (ascii "ArcInner")) size .exit val.visit

/-- Inside of the pointee of an `Rc`, sync.rs:118-123. -/
def rcInner (size : Nat) (val : Value) : Obj := Visit.enter (Key.new (ascii "RcInner")) size .exit val.visit

/-- `sync::Weak` and `rc::Weak`, sync.rs:93-103 and 131-141; `target` is the result of `upgrade()`. -/
def weak (self : Ty) (target : Option Value) : Value :=
  sized self (Visit.enterSelfSized self .exit
    (match target with
      | some arc => arc.visit
      | none => .nil))

/-- `futures::future::Shared`, futures.rs:23-41; `peek` is the address of the result if there is one. The pointee is
visited with `result.visit`. -/
def futuresShared [Target] (self : Ty) (peek : Option Ptr) : Value :=
  sized self (Visit.enterSelfSized self .exit
    (match peek with
      | some p => .shared ptrName ptrBytes p .exit .nil
      | none => .nil))

/-- `Layout::new::<ArcInnerRepr>()`, triomphe.rs:82-84. -/
def triompheHeader [Target] : Layout := ⟨ptrBytes, ptrBytes⟩

/-- Size of a `triomphe::Arc` allocation, triomphe.rs:95-100. -/
def triompheLayout [Target] (val : Layout) : Option Layout := (triompheHeader.extend val).map fun r => r.1.padToAlign

/-- `any::type_name::<ArcInnerRepr>()`. Models impls/triomphe.rs:82-84, 102. -/
def arcInnerRepr [Target] : Ty := ⟨ascii "allocative::impls::triomphe::ArcInnerRepr", ptrBytes, false⟩

/-- Inside of the pointee of a `triomphe::Arc`, triomphe.rs:101-105 (the pointer itself is visited like `arc`, 86-94). -/
def triompheInner [Target] (size : Nat) (val : Value) : Obj := Visit.enter arcInnerRepr.key size .exit (Visit.field dataName val)

/-- `HeaderSlice<H, T>`, triomphe.rs:27-34. -/
def headerSlice (self : Ty) (sizeOfVal : Nat) (header slice : Value) : Value :=
  ⟨self, sizeOfVal, Visit.enterSelf self sizeOfVal .exit
    ((Visit.field (Key.new (ascii "header")) header).append (Visit.field (Key.new (ascii "slice")) slice))⟩

/-- `HeaderWithLength<H>`, triomphe.rs:36-43. -/
def headerWithLength (self : Ty) (header len : Value) : Value :=
  sized self (Visit.enterSelf self self.size .exit
    ((Visit.field (Key.new (ascii "header")) header).append (Visit.field (Key.new (ascii "len")) len)))

/-- Size of a `ThinArc` allocation, triomphe.rs:63-68; `repr` is the layout of `ThinArcInnerRepr<H>` (45-50), `elem` that of `T`; `none` is
the panic of one of the `unwrap`s. -/
def thinArcLayout [Target] (repr elem : Layout) (len : Nat) : Option Layout :=
  match Layout.array elem len with
  | none => none
  | some slice => (repr.extend slice).map fun r => r.1.padToAlign

/-- Inside of the pointee of a `ThinArc`, triomphe.rs:61-74; `repr` is `ThinArcInnerRepr<H>`. -/
def thinArcInner (repr : Ty) (size : Nat) (data : Value) : Obj := Visit.enter repr.key size .drop (Visit.field dataName data)

/-! ### Other crates -/

/-- `Either<A, B>`, either.rs:19-27. -/
def either (self : Ty) : Sum Value Value → Value
  | .inl v => sized self (Visit.enterSelfSized self .drop (Visit.field (Key.new (ascii "Left")) v))
  | .inr e => sized self (Visit.enterSelfSized self .drop (Visit.field (Key.new (ascii "Right")) e))

/-- `SmallVec<A>`, smallvec.rs:21-42. -/
def smallVec [Target] (self : Ty) (spilled : Bool) (items : List Value) : Value :=
  sized self (Visit.enterSelfSized self .exit
    (if spilled then
      Visit.enterUnique ptrName ptrBytes .exit (Obj.concat (items.map fun v => Visit.field dataName v))
    else
      Obj.concat (items.map fun v => Visit.field dataName v)))

/-- `Slab<T>`, slab.rs:22-41. -/
def slab [Target] (self T : Ty) (items : List Value) (capacity : Nat) : Value :=
  sized self (Visit.enterSelfSized self .exit
    (if capacity != 0 && T.size != 0 then
      Visit.enterUnique ptrName ptrBytes .drop
        ((Visit.iter T items).append
          (Visit.simple unusedCapacityName (Usize.mul (Usize.sub capacity items.length) T.size)))
    else .nil))

/-- `CompactString`, compact_str.rs:21-32. -/
def compactString [Target] (self : Ty) (heapAllocated : Bool) (len capacity : Nat) : Value :=
  sized self (Visit.enterSelfSized self .exit
    (if heapAllocated then
      Visit.enterUnique ptrName ptrBytes .drop
        ((Visit.simple (Key.new (ascii "str")) len).append
          (Visit.simple unusedCapacityName (Usize.sub capacity len)))
    else .nil))

/-- `raw_table_alloc_size_for_len::<T>(len)`, hashbrown_util.rs:15-25. -/
def rawTableAllocSizeForLen [Target] (T : Ty) (len : Nat) : Nat :=
  let buckets := if len == 0 then 0 else if len < 4 then 4 else Usize.nextPowerOfTwo len
  let sizeOfControlByte := 1
  Usize.mul (T.size + sizeOfControlByte) buckets

/-- `HashTable<T>`, hashbrown.rs:23-43; `items` in iteration order. -/
def hashTable [Target] (self T : Ty) (items : List Value) (capacity : Nat) : Value :=
  sized self (Visit.enterSelfSized self .exit
    (Visit.enterUnique dataName ptrBytes .exit
      (Visit.enter capacityName (rawTableAllocSizeForLen T capacity) .exit (Visit.iter T items))))

/-- The type `usize`. Models impls/triomphe.rs:40, 49. -/
def usize [Target] : Ty := ⟨ascii "usize", ptrBytes, false⟩

/-- `add_raw_table_for_len::<T>(visitor, len)`, indexmap.rs:25-33. -/
def addRawTableForLen [Target] (T : Ty) (len : Nat) : Obj :=
  if len != 0 then
    Visit.enterUnique (Key.new (ascii "raw_table")) ptrBytes .exit
      (Visit.simple (Key.new (ascii "alloc")) (rawTableAllocSizeForLen T len))
  else .nil

/-- `IndexSet<T, S>`, indexmap.rs:35-49. -/
def indexSet [Target] (self T : Ty) (items : List Value) (capacity : Nat) : Value :=
  sized self (Visit.enterSelfSized self .drop
    ((Visit.enterUnique (Key.new (ascii "data")) ptrBytes .exit
      ((Obj.concat (items.map fun v => Visit.field (Key.new (ascii "value")) v)).append
        (Visit.simple unusedCapacityName (Usize.mul (Usize.sub capacity items.length) T.size)))).append
      (addRawTableForLen usize items.length)))

/-- `IndexMap<K, V, S>`, indexmap.rs:51-69; `KV` is the type `(K, V)`. -/
def indexMap [Target] (self KV : Ty) (entries : List (Value × Value)) (capacity : Nat) : Value :=
  sized self (Visit.enterSelfSized self .drop
    ((Visit.enterUnique (Key.new (ascii "data")) ptrBytes .exit
      ((Obj.concat (entries.map fun e =>
          (Visit.field (Key.new (ascii "key")) e.1).append (Visit.field (Key.new (ascii "value")) e.2))).append
        (Visit.simple unusedCapacityName (Usize.mul (Usize.sub capacity entries.length) KV.size)))).append
      (addRawTableForLen usize entries.length)))

/-- `DashMap<K, V, S>`, dashmap.rs:29-51.  Other threads may change the map during the visit, so capacity is read
twice (`capacity1`, `capacity2`) and `len` is not tied to `entries`. -/
def dashMap [Target] (self KV : Ty) (capacity1 : Nat) (entries : List (Value × Value)) (capacity2 len : Nat) : Value :=
  sized self (Visit.enterSelfSized self .exit
    (Visit.enterUnique ptrName ptrBytes .exit
      (Visit.enter capacityName (Usize.mul capacity1 KV.size) .exit
        ((Obj.concat (entries.map fun e => (Visit.field keyName e.1).append (Visit.field valueName e.2))).append
          (Visit.simple unusedCapacityName (Usize.mul (Usize.saturatingSub capacity2 len) KV.size))))))

/-- `DashSet<T, S>`, dashmap.rs:53-70. -/
def dashSet [Target] (self T : Ty) (capacity1 : Nat) (items : List Value) (capacity2 len : Nat) : Value :=
  sized self (Visit.enterSelfSized self .drop
    (Visit.enterUnique ptrName ptrBytes .drop
      (Visit.enter capacityName (Usize.mul capacity1 T.size) .exit
        ((Obj.concat (items.map fun v => Visit.field dataName v)).append
          (Visit.simple unusedCapacityName (Usize.mul (Usize.saturatingSub capacity2 len) T.size))))))

/-- `BigInt` and `BigUint`, num_bigint.rs:23-53; `digits` is `iter_u64_digits().count()`. -/
def bigInt [Target] (self : Ty) (digits : Nat) : Value :=
  sized self (Visit.enterSelfSized self .exit
    (Visit.enterUnique ptrName ptrBytes .exit (Visit.simple dataName (Usize.mul digits 8))))

/-- `Bump`, bumpalo.rs:28-52; `chunks` are the sizes of the allocated parts of the chunks. -/
def bump [Target] (self : Ty) (allocatedBytes : Nat) (chunks : List Nat) : Value :=
  let used := chunks.foldl Usize.add 0
  let unused := Usize.sub allocatedBytes used
  sized self (Visit.enterSelfSized self .exit
    (Visit.enterUnique ptrName ptrBytes .exit
      ((Visit.simple dataName used).append (Visit.simple unusedCapacityName unused))))

/-- `serde_json::Map<String, Value>`, serde_json.rs:27-40. -/
def jsonMap [Target] (self : Ty) (entries : List (Value × Value)) : Value :=
  sized self (Visit.enterSelfSized self .exit
    (Visit.enterUnique (Key.new (ascii "data")) ptrBytes .exit
      (Obj.concat (entries.map fun e =>
        (Visit.field (Key.new (ascii "key")) e.1).append (Visit.field (Key.new (ascii "value")) e.2)))))

/-- `serde_json::Value`, serde_json.rs:42-55: `none` for `Null` and `Bool`, otherwise the name of the variant and its
content. -/
def jsonValue (self : Ty) (content : Option (Str × Value)) : Value :=
  sized self (Visit.enterSelfSized self .exit
    (match content with
      | some (variant, v) => Visit.field (Key.new variant) v
      | none => .nil))

end Impl

end Allocative
