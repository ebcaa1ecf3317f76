import Verif.Spec.Object
import Verif.Spec.Events
/-
Specification vocabulary for the depth of recursion (C67).
-/
namespace Allocative

/-- How many visitors are alive after a call, if `live` were before. -/
def Event.live (e : Event) (live : Nat) : Nat := if e.creates then live + 1 else if e.ends then live - 1 else live

/-- The largest number of visitors that are alive at the same time, over the times before, between and after the calls of
a log; `live` are alive at the beginning. -/
def peakLive : Nat → List Event → Nat
  | live, [] => live
  | live, e :: es => max live (peakLive (e.live live) es)

/-- How deep the calls that visit an object nest, without following shared pointers. -/
def Obj.height : Obj → Nat
  | .nil => 0
  | .inline _ _ _ inside rest => max (1 + inside.height) rest.height
  | .unique _ _ _ inside rest => max (1 + inside.height) rest.height
  | .shared _ _ _ _ rest => max 1 rest.height

/-- `chain` is a path through the heap: its first cell is pointed to by `o`, each next cell by the content of the previous one. -/
def Heap.Chain (heap : Heap) : Obj → List Ptr → Prop
  | _, [] => True
  | o, p :: chain => p ∈ o.ptrs ∧ heap.Chain (heap p) chain

/-- Length of the longest stack anything was entered at. -/
def longestStack (recs : List Rec) : Nat := recs.foldr (fun r n => max r.path.length n) 0

end Allocative
