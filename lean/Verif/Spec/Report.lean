import Verif.Spec.Datum
/-
What the report of a value looks like (C52): for every supported type the stacks that are entered, with their sizes, written out.  Nothing here refers to the
implementations; sizes are plain natural numbers.
-/
namespace Allocative

/-- A label. -/
def lbl (s : String) : Key := Key.new (ascii s)

/-- The label of a type: its name. -/
def ty (T : Ty) : Key := Key.forTypeName T.name

/-- Something inline. -/
def inl (stack : Path) (size : Nat) : Rec := ⟨stack, size, false⟩
/-- A unique pointer. -/
def uniq (stack : Path) (size : Nat) : Rec := ⟨stack, size, true⟩

/-- The table of indices of `IndexMap` and `IndexSet`. -/
def reportIndices [Target] (len : Nat) (cur : Path) : List Rec :=
  if len = 0 then [] else [uniq (cur ++ [lbl "raw_table"]) ptrBytes, inl (cur ++ [lbl "raw_table", lbl "alloc"]) (tableBytes ptrBytes len)]

/-- An element of a collection, a field, ...: its size and its report. -/
structure Part where
  size : Nat
  report : Path → List Rec

/-- Elements of type `T`: one after another if they have drop glue and are not of size zero, otherwise only their total size. -/
def reportElements (T : Ty) (items : List Part) (cur : Path) : List Rec :=
  if T.needsDrop = true ∧ T.size ≠ 0 then items.flatMap fun x => x.report cur else [inl (cur ++ [ty T]) (T.size * items.length)]

/-- A field below a label. -/
def reportField (label : Key) (x : Part) (cur : Path) : List Rec := inl (cur ++ [label]) x.size :: x.report (cur ++ [label])

/-- Each below the same label. -/
def reportFields (label : Key) (items : List Part) (cur : Path) : List Rec := items.flatMap fun x => reportField label x cur

/-- Each below its index, starting with `i`. -/
def reportTuple (i : Nat) : List Part → Path → List Rec
  | [], _ => []
  | x :: xs, cur => reportField (Key.new (decimal i)) x cur ++ reportTuple (i + 1) xs cur

/-- Keys below `key`, values below `value`, in turn. -/
def reportPairs (keys values : List Part) (cur : Path) : List Rec :=
  (keys.zip values).flatMap fun x => reportField (lbl "key") x.1 cur ++ reportField (lbl "value") x.2 cur

/-- Fields of a struct or enum variant below their names, except for those marked `skip`. -/
def reportDerived (labels : List (Str × Bool)) (fields : List Part) (cur : Path) : List Rec :=
  (labels.zip fields).flatMap fun x => if x.1.2 then [] else reportField (Key.new x.1.1) x.2 cur

mutual
/-- The records of a value that is visited at stack `cur`. -/
def Datum.report [Target] : Datum → Path → List Rec
  | .plain self, cur => [inl (cur ++ [ty self]) self.size]
  | .hollow _ _, _ => []
  | .str _ len, cur => [inl (cur ++ [lbl "str"]) len]
  | .osStr _ len, cur => [inl (cur ++ [lbl "OsStr"]) len]
  | .box self ptrSize v, cur =>
    inl (cur ++ [ty self]) self.size :: uniq (cur ++ [ty self, lbl "ptr"]) ptrSize :: v.report (cur ++ [ty self, lbl "ptr"])
  | .ok self v, cur => inl (cur ++ [ty self]) self.size :: inl (cur ++ [ty self, lbl "Ok"]) v.size :: v.report (cur ++ [ty self, lbl "Ok"])
  | .err self v, cur => inl (cur ++ [ty self]) self.size :: inl (cur ++ [ty self, lbl "Err"]) v.size :: v.report (cur ++ [ty self, lbl "Err"])
  | .none self, cur => [inl (cur ++ [ty self]) self.size]
  | .some self v, cur => inl (cur ++ [ty self]) self.size :: inl (cur ++ [ty self, lbl "Some"]) v.size :: v.report (cur ++ [ty self, lbl "Some"])
  | .left self v, cur => inl (cur ++ [ty self]) self.size :: inl (cur ++ [ty self, lbl "Left"]) v.size :: v.report (cur ++ [ty self, lbl "Left"])
  | .right self v, cur => inl (cur ++ [ty self]) self.size :: inl (cur ++ [ty self, lbl "Right"]) v.size :: v.report (cur ++ [ty self, lbl "Right"])
  | .vec self T items capacity, cur => inl (cur ++ [ty self]) self.size ::
      if capacity = 0 ∨ T.size = 0 then [] else
        uniq (cur ++ [ty self, lbl "ptr"]) ptrBytes :: reportElements T (Datum.parts items) (cur ++ [ty self, lbl "ptr"]) ++
          [inl (cur ++ [ty self, lbl "ptr", lbl "unused_capacity"]) ((capacity - items.length) * T.size)]
  | .vecDeque self T front back capacity, cur => inl (cur ++ [ty self]) self.size ::
      if capacity = 0 ∨ T.size = 0 then [] else
        uniq (cur ++ [ty self, lbl "ptr"]) ptrBytes :: reportElements T (Datum.parts front) (cur ++ [ty self, lbl "ptr"]) ++
          reportElements T (Datum.parts back) (cur ++ [ty self, lbl "ptr"]) ++
          [inl (cur ++ [ty self, lbl "ptr", lbl "unused_capacity"]) ((capacity - (front.length + back.length)) * T.size)]
  | .string self len capacity, cur =>
    [inl (cur ++ [ty self]) self.size, uniq (cur ++ [ty self, lbl "ptr"]) ptrBytes, inl (cur ++ [ty self, lbl "ptr", lbl "capacity"]) capacity,
      inl (cur ++ [ty self, lbl "ptr", lbl "capacity", Key.forTypeName (ascii "u8")]) len,
      inl (cur ++ [ty self, lbl "ptr", lbl "capacity", lbl "unused_capacity"]) (capacity - len)]
  | .pathBuf self len capacity, cur => inl (cur ++ [ty self]) self.size ::
      if capacity = 0 then [] else
        [uniq (cur ++ [ty self, lbl "ptr"]) ptrBytes, inl (cur ++ [ty self, lbl "ptr", lbl "path"]) len,
          inl (cur ++ [ty self, lbl "ptr", lbl "unused_capacity"]) (capacity - len)]
  | .compactString self heapAllocated len capacity, cur => inl (cur ++ [ty self]) self.size ::
      if heapAllocated then
        [uniq (cur ++ [ty self, lbl "ptr"]) ptrBytes, inl (cur ++ [ty self, lbl "ptr", lbl "str"]) len,
          inl (cur ++ [ty self, lbl "ptr", lbl "unused_capacity"]) (capacity - len)]
      else []
  -- slices and arrays are labelled with the type of their elements
  | .slice _ T items, cur => inl (cur ++ [ty T]) (T.size * items.length) :: reportFields (lbl "data") (Datum.parts items) (cur ++ [ty T])
  | .array _ T items, cur => inl (cur ++ [ty T]) (T.size * items.length) :: reportFields (lbl "data") (Datum.parts items) (cur ++ [ty T])
  | .tuple self fields, cur => inl (cur ++ [ty self]) self.size :: reportTuple 0 (Datum.parts fields) (cur ++ [ty self])
  | .manuallyDrop self v, cur => inl (cur ++ [ty self]) v.size :: inl (cur ++ [ty self, lbl "inner"]) v.size :: v.report (cur ++ [ty self, lbl "inner"])
  | .cell self accessible v, cur => inl (cur ++ [ty self]) self.size ::
      if accessible then inl (cur ++ [ty self, lbl "data"]) v.size :: v.report (cur ++ [ty self, lbl "data"]) else []
  | .cellEmpty self, cur => [inl (cur ++ [ty self]) self.size]
  | .onceCell self v, cur => inl (cur ++ [ty self]) self.size :: v.report (cur ++ [ty self])
  | .onceCellEmpty self, cur => [inl (cur ++ [ty self]) self.size]
  | .map self _ keys values, cur => inl (cur ++ [ty self]) self.size :: inl (cur ++ [ty self, lbl "data"]) ptrBytes ::
      reportPairs (Datum.parts keys) (Datum.parts values) (cur ++ [ty self, lbl "data"])
  | .set self _ items, cur => inl (cur ++ [ty self]) self.size :: inl (cur ++ [ty self, lbl "data"]) ptrBytes ::
      reportFields (lbl "key") (Datum.parts items) (cur ++ [ty self, lbl "data"])
  | .smallVecInline self _ items, cur => inl (cur ++ [ty self]) self.size :: reportFields (lbl "data") (Datum.parts items) (cur ++ [ty self])
  | .smallVecSpilled self _ items _, cur => inl (cur ++ [ty self]) self.size :: uniq (cur ++ [ty self, lbl "ptr"]) ptrBytes ::
      reportFields (lbl "data") (Datum.parts items) (cur ++ [ty self, lbl "ptr"])
  | .slab self T _ items capacity, cur => inl (cur ++ [ty self]) self.size ::
      if capacity = 0 ∨ T.size = 0 then [] else
        uniq (cur ++ [ty self, lbl "ptr"]) ptrBytes :: reportElements T (Datum.parts items) (cur ++ [ty self, lbl "ptr"]) ++
          [inl (cur ++ [ty self, lbl "ptr", lbl "unused_capacity"]) ((capacity - items.length) * T.size)]
  -- the pointer only: the pointee is reported at the top, once
  | .arc self ptrSize _, cur => [inl (cur ++ [ty self]) self.size, inl (cur ++ [ty self, lbl "ptr"]) ptrSize]
  | .weakDangling self, cur => [inl (cur ++ [ty self]) self.size]
  | .weak self strong ptrSize _, cur =>
    [inl (cur ++ [ty self]) self.size, inl (cur ++ [ty self, ty strong]) strong.size, inl (cur ++ [ty self, ty strong, lbl "ptr"]) ptrSize]
  | .hashTable self T items capacity _, cur =>
    inl (cur ++ [ty self]) self.size :: uniq (cur ++ [ty self, lbl "data"]) ptrBytes ::
      inl (cur ++ [ty self, lbl "data", lbl "capacity"]) (tableBytes T.size capacity) ::
        reportElements T (Datum.parts items) (cur ++ [ty self, lbl "data", lbl "capacity"])
  | .indexSet self T items capacity _ _, cur =>
    inl (cur ++ [ty self]) self.size :: uniq (cur ++ [ty self, lbl "data"]) ptrBytes ::
      reportFields (lbl "value") (Datum.parts items) (cur ++ [ty self, lbl "data"]) ++
      [inl (cur ++ [ty self, lbl "data", lbl "unused_capacity"]) ((capacity - items.length) * T.size)] ++ reportIndices items.length (cur ++ [ty self])
  | .indexMap self _ _ KV keys values capacity _ _, cur =>
    inl (cur ++ [ty self]) self.size :: uniq (cur ++ [ty self, lbl "data"]) ptrBytes ::
      reportPairs (Datum.parts keys) (Datum.parts values) (cur ++ [ty self, lbl "data"]) ++
      [inl (cur ++ [ty self, lbl "data", lbl "unused_capacity"]) ((capacity - keys.length) * KV.size)] ++ reportIndices keys.length (cur ++ [ty self])
  | .dashMap self _ _ KV capacity keys values capacityLater len _, cur =>
    inl (cur ++ [ty self]) self.size :: uniq (cur ++ [ty self, lbl "ptr"]) ptrBytes ::
      inl (cur ++ [ty self, lbl "ptr", lbl "capacity"]) (capacity * KV.size) ::
        reportPairs (Datum.parts keys) (Datum.parts values) (cur ++ [ty self, lbl "ptr", lbl "capacity"]) ++
        [inl (cur ++ [ty self, lbl "ptr", lbl "capacity", lbl "unused_capacity"]) ((capacityLater - len) * KV.size)]
  | .dashSet self T capacity items capacityLater len _, cur =>
    inl (cur ++ [ty self]) self.size :: uniq (cur ++ [ty self, lbl "ptr"]) ptrBytes ::
      inl (cur ++ [ty self, lbl "ptr", lbl "capacity"]) (capacity * T.size) ::
        reportFields (lbl "data") (Datum.parts items) (cur ++ [ty self, lbl "ptr", lbl "capacity"]) ++
        [inl (cur ++ [ty self, lbl "ptr", lbl "capacity", lbl "unused_capacity"]) ((capacityLater - len) * T.size)]
  | .bigInt self digits _, cur =>
    [inl (cur ++ [ty self]) self.size, uniq (cur ++ [ty self, lbl "ptr"]) ptrBytes, inl (cur ++ [ty self, lbl "ptr", lbl "data"]) (digits * 8)]
  | .bump self allocated chunks _, cur =>
    [inl (cur ++ [ty self]) self.size, uniq (cur ++ [ty self, lbl "ptr"]) ptrBytes, inl (cur ++ [ty self, lbl "ptr", lbl "data"]) chunks.sum,
      inl (cur ++ [ty self, lbl "ptr", lbl "unused_capacity"]) (allocated - chunks.sum)]
  | .jsonMap self _ keys values, cur =>
    inl (cur ++ [ty self]) self.size :: uniq (cur ++ [ty self, lbl "data"]) ptrBytes :: reportPairs (Datum.parts keys) (Datum.parts values) (cur ++ [ty self, lbl "data"])
  | .jsonLeaf self, cur => [inl (cur ++ [ty self]) self.size]
  | .json self variant v, cur =>
    inl (cur ++ [ty self]) self.size :: inl (cur ++ [ty self, Key.new variant]) v.size :: v.report (cur ++ [ty self, Key.new variant])
  | .futuresPending self, cur => [inl (cur ++ [ty self]) self.size]
  | .futuresShared self _, cur => [inl (cur ++ [ty self]) self.size, inl (cur ++ [ty self, lbl "ptr"]) ptrBytes]
  | .headerSlice self sizeOfVal header tail, cur =>
    inl (cur ++ [ty self]) sizeOfVal :: inl (cur ++ [ty self, lbl "header"]) header.size :: header.report (cur ++ [ty self, lbl "header"]) ++
      inl (cur ++ [ty self, lbl "slice"]) tail.size :: tail.report (cur ++ [ty self, lbl "slice"])
  | .headerWithLength self header len, cur =>
    inl (cur ++ [ty self]) self.size :: inl (cur ++ [ty self, lbl "header"]) header.size :: header.report (cur ++ [ty self, lbl "header"]) ++
      inl (cur ++ [ty self, lbl "len"]) len.size :: len.report (cur ++ [ty self, lbl "len"])
  | .struct self size labels fields, cur => inl (cur ++ [ty self]) size :: reportDerived labels (Datum.parts fields) (cur ++ [ty self])
  | .enum self variant labels fields, cur =>
    inl (cur ++ [ty self]) self.size :: inl (cur ++ [ty self, Key.new variant]) self.size ::
      reportDerived labels (Datum.parts fields) (cur ++ [ty self, Key.new variant])
  | .unit self size _, cur => [inl (cur ++ [ty self]) size]
/-- Pointwise. -/
def Datum.parts [Target] : List Datum → List Part
  | [] => []
  | d :: ds => ⟨d.size, d.report⟩ :: Datum.parts ds
end

/-- Elements counted in bulk are not looked at. -/
def pointersElements (T : Ty) (items : List (List Ptr)) : List Ptr := if T.needsDrop = true ∧ T.size ≠ 0 then items.flatten else []

/-- Keys and values in turn. -/
def pointersPairs (keys values : List (List Ptr)) : List Ptr := (keys.zip values).flatMap fun x => x.1 ++ x.2

/-- Skipped fields are not looked at. -/
def pointersDerived (labels : List (Str × Bool)) (fields : List (List Ptr)) : List Ptr :=
  (labels.zip fields).flatMap fun x => if x.1.2 then [] else x.2

mutual
/-- The addresses of the shared pointers in a value that are found by the visit, in this order. -/
def Datum.pointers : Datum → List Ptr
  | .arc _ _ ptr => [ptr]
  | .weak _ _ _ ptr => [ptr]
  | .futuresShared _ ptr => [ptr]
  | .box _ _ v => v.pointers
  | .ok _ v => v.pointers
  | .err _ v => v.pointers
  | .some _ v => v.pointers
  | .left _ v => v.pointers
  | .right _ v => v.pointers
  | .vec _ T items _ => pointersElements T (Datum.pointersEach items)
  | .vecDeque _ T front back _ => pointersElements T (Datum.pointersEach front) ++ pointersElements T (Datum.pointersEach back)
  | .slice _ _ items => (Datum.pointersEach items).flatten
  | .array _ _ items => (Datum.pointersEach items).flatten
  | .tuple _ fields => (Datum.pointersEach fields).flatten
  | .manuallyDrop _ v => v.pointers
  | .cell _ accessible v => if accessible then v.pointers else []
  | .onceCell _ v => v.pointers
  | .map _ _ keys values => pointersPairs (Datum.pointersEach keys) (Datum.pointersEach values)
  | .set _ _ items => (Datum.pointersEach items).flatten
  | .smallVecInline _ _ items => (Datum.pointersEach items).flatten
  | .smallVecSpilled _ _ items _ => (Datum.pointersEach items).flatten
  | .slab _ T _ items _ => pointersElements T (Datum.pointersEach items)
  | .hashTable _ T items _ _ => pointersElements T (Datum.pointersEach items)
  | .indexSet _ _ items _ _ _ => (Datum.pointersEach items).flatten
  | .indexMap _ _ _ _ keys values _ _ _ => pointersPairs (Datum.pointersEach keys) (Datum.pointersEach values)
  | .dashMap _ _ _ _ _ keys values _ _ _ => pointersPairs (Datum.pointersEach keys) (Datum.pointersEach values)
  | .dashSet _ _ _ items _ _ _ => (Datum.pointersEach items).flatten
  | .jsonMap _ _ keys values => pointersPairs (Datum.pointersEach keys) (Datum.pointersEach values)
  | .json _ _ v => v.pointers
  | .headerSlice _ _ header tail => header.pointers ++ tail.pointers
  | .headerWithLength _ header len => header.pointers ++ len.pointers
  | .struct _ _ labels fields => pointersDerived labels (Datum.pointersEach fields)
  | .enum _ _ labels fields => pointersDerived labels (Datum.pointersEach fields)
  | _ => []
/-- Pointwise. -/
def Datum.pointersEach : List Datum → List (List Ptr)
  | [] => []
  | d :: ds => d.pointers :: Datum.pointersEach ds
end

/-- The records of a shared allocation, reported at the top. -/
def Cell.report [Target] : Cell → List Rec
  | .arc size v => inl [lbl "ArcInner"] size :: v.report [lbl "ArcInner"]
  | .rc size v => inl [lbl "RcInner"] size :: v.report [lbl "RcInner"]
  | .triomphe size v =>
    let inner := Key.forTypeName (ascii "allocative::impls::triomphe::ArcInnerRepr")
    inl [inner] size :: inl [inner, lbl "data"] v.size :: v.report [inner, lbl "data"]
  | .thin repr size v => inl [ty repr] size :: inl [ty repr, lbl "data"] v.size :: v.report [ty repr, lbl "data"]
  | .future v => v.report []

/-- Allocations reachable from some values. -/
inductive ReachableCell (cells : Ptr → Cell) (roots : List Datum) : Ptr → Prop
  | root {d p} : d ∈ roots → p ∈ d.pointers → ReachableCell cells roots p
  | step {q p} : ReachableCell cells roots q → p ∈ (cells q).datum.pointers → ReachableCell cells roots p

end Allocative
