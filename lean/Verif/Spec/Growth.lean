import Verif.Spec.Object
import Verif.Spec.Events
/-
Specification vocabulary for C64 and C65.
-/
namespace Allocative

/-- Number of `enter`, `enter_unique` and `enter_shared` calls of the visit of an object, pointees of its shared pointers not included. -/
def Obj.calls : Obj → Nat
  | .nil => 0
  | .inline _ _ _ inside rest => 1 + inside.calls + rest.calls
  | .unique _ _ _ inside rest => 1 + inside.calls + rest.calls
  | .shared _ _ _ _ rest => 1 + rest.calls

/-- Is this one of the three enter calls? -/
def Event.enters : Event → Bool
  | .inline _ _ => true
  | .unique _ _ => true
  | .shared _ _ _ _ => true
  | _ => false

/-- Sum of the declared sizes. -/
def declaredBytes (recs : List Rec) : Nat := (recs.map Rec.size).sum

/-- Number of paths from an address to nowhere, following shared pointers at most `n` deep: what a visitor without a set of visited addresses would walk. -/
def Heap.paths (heap : Heap) : Nat → Ptr → Nat
  | 0, _ => 1
  | n + 1, p => if (heap p).ptrs = [] then 1 else ((heap p).ptrs.map (heap.paths n)).sum

end Allocative
