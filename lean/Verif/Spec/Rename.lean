import Verif.Spec.Object
import Verif.Spec.Events
import Verif.Spec.Totals
import Verif.Model.Session
import Verif.Model.Datum
/-
Specification vocabulary for C63: the same program, call, object or memory at other addresses.
-/
namespace Allocative

/-- The same visit program with every address replaced. -/
def Prog.move (f : Ptr → Ptr) : Prog → Prog
  | .done => .done
  | .panic => .panic
  | .enter k n fate body rest => .enter k n fate (body.move f) (rest.move f)
  | .enterUnique k n fate body rest => .enterUnique k n fate (body.move f) (rest.move f)
  | .enterShared k n p fate body restSome restNone => .enterShared k n (f p) fate (body.move f) (restSome.move f) (restNone.move f)
  | .catchUnwind body rest => .catchUnwind (body.move f) (rest.move f)

/-- The same operation with the address replaced. -/
def Op.move (f : Ptr → Ptr) : Op → Op
  | .enterShared k n p => .enterShared k n (f p)
  | op => op

/-- The address an operation passes. -/
def Op.addrs : Op → List Ptr
  | .enterShared _ _ p => [p]
  | _ => []

/-- The same call with the address replaced; what `enter_shared` returned is part of the event. -/
def Event.move (f : Ptr → Ptr) : Event → Event
  | .shared k n p r => .shared k n (f p) r
  | ev => ev

/-- The same object with the addresses of its pointees replaced. -/
def Obj.move (f : Ptr → Ptr) : Obj → Obj
  | .nil => .nil
  | .inline k n e inside rest => .inline k n e (inside.move f) (rest.move f)
  | .unique k n e inside rest => .unique k n e (inside.move f) (rest.move f)
  | .shared k n p e rest => .shared k n (f p) e (rest.move f)

mutual
/-- The same value, its shared pointers pointing elsewhere. -/
def Datum.move (f : Ptr → Ptr) : Datum → Datum
  | .plain self => .plain self
  | .hollow self owned => .hollow self owned
  | .str self len => .str self len
  | .osStr self len => .osStr self len
  | .box self ptrSize v => .box self ptrSize (v.move f)
  | .ok self v => .ok self (v.move f)
  | .err self v => .err self (v.move f)
  | .none self => .none self
  | .some self v => .some self (v.move f)
  | .left self v => .left self (v.move f)
  | .right self v => .right self (v.move f)
  | .vec self T items capacity => .vec self T (Datum.moveEach f items) capacity
  | .vecDeque self T front back capacity => .vecDeque self T (Datum.moveEach f front) (Datum.moveEach f back) capacity
  | .string self len capacity => .string self len capacity
  | .pathBuf self len capacity => .pathBuf self len capacity
  | .compactString self heapAllocated len capacity => .compactString self heapAllocated len capacity
  | .slice self T items => .slice self T (Datum.moveEach f items)
  | .array self T items => .array self T (Datum.moveEach f items)
  | .tuple self fields => .tuple self (Datum.moveEach f fields)
  | .manuallyDrop self v => .manuallyDrop self (v.move f)
  | .cell self accessible v => .cell self accessible (v.move f)
  | .cellEmpty self => .cellEmpty self
  | .onceCell self v => .onceCell self (v.move f)
  | .map self table keys values => .map self table (Datum.moveEach f keys) (Datum.moveEach f values)
  | .set self table items => .set self table (Datum.moveEach f items)
  | .smallVecInline self T items => .smallVecInline self T (Datum.moveEach f items)
  | .smallVecSpilled self T items capacity => .smallVecSpilled self T (Datum.moveEach f items) capacity
  | .slab self T entry items capacity => .slab self T entry (Datum.moveEach f items) capacity
  | .arc self ptrSize ptr => .arc self ptrSize (f ptr)
  | .weakDangling self => .weakDangling self
  | .weak self strong ptrSize ptr => .weak self strong ptrSize (f ptr)
  | .struct self size labels fields => .struct self size labels (Datum.moveEach f fields)
  | .enum self variant labels fields => .enum self variant labels (Datum.moveEach f fields)
  | .onceCellEmpty self => .onceCellEmpty self
  | .hashTable self T items capacity table => .hashTable self T (Datum.moveEach f items) capacity table
  | .indexSet self T items capacity bucket table => .indexSet self T (Datum.moveEach f items) capacity bucket table
  | .indexMap self K V KV keys values capacity bucket table => .indexMap self K V KV (Datum.moveEach f keys) (Datum.moveEach f values) capacity bucket table
  | .dashMap self K V KV capacity keys values capacityLater len table => .dashMap self K V KV capacity (Datum.moveEach f keys) (Datum.moveEach f values) capacityLater len table
  | .dashSet self T capacity items capacityLater len table => .dashSet self T capacity (Datum.moveEach f items) capacityLater len table
  | .bigInt self digits heap => .bigInt self digits heap
  | .bump self allocated chunks heap => .bump self allocated chunks heap
  | .jsonMap self table keys values => .jsonMap self table (Datum.moveEach f keys) (Datum.moveEach f values)
  | .jsonLeaf self => .jsonLeaf self
  | .json self variant v => .json self variant (v.move f)
  | .futuresPending self => .futuresPending self
  | .futuresShared self ptr => .futuresShared self (f ptr)
  | .headerSlice self sizeOfVal header tail => .headerSlice self sizeOfVal (header.move f) (tail.move f)
  | .headerWithLength self header len => .headerWithLength self (header.move f) (len.move f)
  | .unit self size owned => .unit self size owned
/-- Pointwise. -/
def Datum.moveEach (f : Ptr → Ptr) : List Datum → List Datum
  | [] => []
  | d :: ds => d.move f :: Datum.moveEach f ds
end

/-- The same allocation, the shared pointers in it pointing elsewhere. -/
def Cell.move (f : Ptr → Ptr) : Cell → Cell
  | .arc size v => .arc size (v.move f)
  | .rc size v => .rc size (v.move f)
  | .triomphe size v => .triomphe size (v.move f)
  | .thin repr size v => .thin repr size (v.move f)
  | .future v => .future (v.move f)

/-- `f` does not map two of the addresses to one. -/
def Apart (f : Ptr → Ptr) (addrs : List Ptr) : Prop := ∀ p ∈ addrs, ∀ q ∈ addrs, f p = f q → p = q

end Allocative
