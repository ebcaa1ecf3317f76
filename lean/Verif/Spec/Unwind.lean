import Verif.Model.Unwind
import Verif.Spec.Stack
/-
Flame graphs of a debug build whose user catches overflow panics.
-/
namespace Allocative

/-- The flame graphs a program can hold in a debug build: made with `default`, `add_self`, `add_child`, `add`, where any call may have
panicked and the panic been caught.  (What `finish` returns is made by `add_child` and by setting self sizes, too.) -/
inductive Caught [Target] : FlameGraph → Prop
  | default : Caught .default
  | addSelf {g r : FlameGraph} {n : Nat} {ctl : Ctl} : Caught g → n < Usize.modulus → Machine.addSelfU g n = (r, ctl) → Caught r
  | addChild {g c r : FlameGraph} (k : Key) {ctl : Ctl} : Caught g → Caught c → Machine.addChildU g k c = (r, ctl) → Caught r
  | add {a b r : FlameGraph} {ctl : Ctl} : Caught a → Caught b → Machine.addU a b = (r, ctl) → Caught r

/-- Bytes of all proper descendants of the root: all stacks except the empty one. -/
def FlameGraph.sumBelow (fg : FlameGraph) : Nat := fg.sumNodes - (fg.selfAt []).getD 0

end Allocative
