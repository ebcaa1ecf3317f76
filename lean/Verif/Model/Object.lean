import Verif.Model.Visitor
/-
Object graphs: data whose shared pointers (`Arc`, `Rc`, `Weak`, `triomphe::Arc`) refer to heap cells, and the visit
of such data.
-/
namespace Allocative

/-- How an implementation ends a visitor: `visitor.exit()`, or letting it go out of scope (C15: no difference).
Models visitor.rs:65-69, 253-257. -/
inductive Ending where
  | exit | drop
deriving DecidableEq

/-- The corresponding fate. Models visitor.rs:65-69, 253-257. -/
def Ending.fate : Ending → Fate
  | .exit => .exit
  | .drop => .drop

/-- The part of an object graph that is owned without shared pointers: a forest (list of trees, in the order in
which they are visited).  A shared pointer is a leaf with the address of its pointee.
Models what `Allocative::visit` implementations do: visitor.rs:72-118, impls/std/sync.rs:66-91. -/
inductive Obj where
  | nil
  /-- something visited with `visitor.enter(name, size)` (a value, a field, ...), then the rest of the list -/
  | inline (name : Key) (size : Nat) (ending : Ending) (inside rest : Obj)
  /-- `visitor.enter_unique(name, size)` -/
  | unique (name : Key) (size : Nat) (ending : Ending) (inside rest : Obj)
  /-- `visitor.enter_shared(name, size, ptr)` -/
  | shared (name : Key) (size : Nat) (ptr : Ptr) (ending : Ending) (rest : Obj)
deriving DecidableEq

/-- The shared memory: what the visit of a pointee does inside of the visitor returned by `enter_shared`.
Models impls/std/sync.rs:79-86, 118-124. -/
abbrev Heap := Ptr → Obj

/-- Visit of an object when the visit of the pointee of address `p` is `content p`.  The pattern of all shared pointers
(impls/std/sync.rs:69-90 and 108-126, impls/triomphe.rs:55-78 and 89-110, impls/futures.rs:29-43) is
`if let Some(mut visitor) = visitor.enter_shared(..) { <visit pointee>; visitor.exit(); }`. -/
def Obj.visitWith (content : Ptr → Prog) : Obj → Prog
  | .nil => .done
  | .inline k n e inside rest => .enter k n e.fate (inside.visitWith content) (rest.visitWith content)
  | .unique k n e inside rest => .enterUnique k n e.fate (inside.visitWith content) (rest.visitWith content)
  | .shared k n p e rest => .enterShared k n p e.fate (content p) (rest.visitWith content) (rest.visitWith content)

/-- Visit of an object of an object graph.  Shared pointers may form cycles, so the visit is a recursive function that is
not obviously terminating; `fuel` bounds how deep pointees are nested, and exceeding it is a `panic` (think: stack overflow).
C09 shows how much fuel is needed for it not to happen. Models impls/std/sync.rs:66-91, 105-129. -/
def Heap.visit (heap : Heap) : Nat → Obj → Prog
  | 0, o => o.visitWith fun _ => .panic
  | fuel + 1, o => o.visitWith fun p => heap.visit fuel (heap p)

end Allocative
