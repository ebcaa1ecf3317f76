import Verif.Spec.Stack
import Verif.Spec.Parse
/-
Client code of `FlameGraph`: a flame graph put together from (stack, size) pairs, and read back from text, with the public operations `default`, `add_self`, `add_child`, `add`.
-/
namespace Allocative

/-- A flame graph with one stack, of `size` bytes: innermost node first, then `add_child` outwards. -/
def FlameGraph.ofStack : Path → Nat → FlameGraph
  | [], size => FlameGraph.default.addSelf size
  | k :: p, size => FlameGraph.default.addChild k (FlameGraph.ofStack p size)

/-- The flame graph of some (stack, size) pairs, added one after the other. -/
def FlameGraph.ofLines (lines : List (Path × Nat)) : FlameGraph := lines.foldl (fun fg l => fg.add (FlameGraph.ofStack l.1 l.2)) .default

/-- The bytes given for a stack. -/
def bytesAt (lines : List (Path × Nat)) (p : Path) : Nat := (lines.map fun l => if l.1 = p then l.2 else 0).sum

/-- Reading lines one after the other; `none` if one is malformed. -/
def FlameGraph.readLines (fg : FlameGraph) : List (Option (List Str × Nat)) → Option FlameGraph
  | [] => some fg
  | none :: _ => none
  | some (names, size) :: rest => (fg.add (FlameGraph.ofStack (names.map Key.new) size)).readLines rest

/-- Reading a text. -/
def FlameGraph.read (text : Str) : Option FlameGraph := FlameGraph.default.readLines (Parse.text text)

end Allocative
