import Verif.Model.Collections
/-
Model of `FlameGraph` (allocative/src/flamegraph.rs:26-96).
-/
namespace Allocative

/-- `struct FlameGraph`, flamegraph.rs:29-36. -/
inductive FlameGraph where
  | mk (children : List (Key × FlameGraph)) (childrenSize nodeSize : Nat)

namespace FlameGraph

/-- Models flamegraph.rs:31. -/
def children : FlameGraph → HMap FlameGraph
  | .mk ch _ _ => ch
/-- Models flamegraph.rs:33. -/
def childrenSize : FlameGraph → Nat
  | .mk _ cs _ => cs
/-- Models flamegraph.rs:35. -/
def nodeSize : FlameGraph → Nat
  | .mk _ _ n => n

/-- `#[derive(Default)]`, flamegraph.rs:29. -/
def default : FlameGraph := .mk [] 0 0

/-- `total_size`, flamegraph.rs:39-41. -/
def totalSize (self : FlameGraph) : Nat := self.nodeSize + self.childrenSize

/-- `add_self`, flamegraph.rs:65-67. -/
def addSelf : FlameGraph → Nat → FlameGraph
  | .mk ch cs n, size => .mk ch cs (n + size)

mutual
/-- `add`, flamegraph.rs:44-49.  `self` is `&mut`, the new value is returned.  The iteration order of
`other.children` is the order of the list; irrelevance of that order is a theorem. -/
def add (self : FlameGraph) : FlameGraph → FlameGraph
  | .mk ch _ n => addAll (self.addSelf n) ch

/-- The loop `for (key, child) in other.children { self.add_child(key, child) }`,
flamegraph.rs:46-48, with the body of `add_child` (flamegraph.rs:52-62) inlined:
`children_size += child.total_size()`, then merge into the occupied entry or insert. -/
def addAll (self : FlameGraph) : List (Key × FlameGraph) → FlameGraph
  | [] => self
  | (key, child) :: rest =>
    addAll
      (.mk (HMap.upsert key (fun e => add e child) child self.children)
        (self.childrenSize + child.totalSize) self.nodeSize)
      rest
end

/-- `add_child`, flamegraph.rs:52-62. -/
def addChild (self : FlameGraph) (key : Key) (child : FlameGraph) : FlameGraph :=
  .mk (HMap.upsert key (fun e => add e child) child self.children)
    (self.childrenSize + child.totalSize) self.nodeSize

mutual
/-- `write_flame_graph_impl`, flamegraph.rs:69-85; returns the text appended to `w`.
`writeln!(w, "{} {}", stack.join(";"), self.node_size)` is skipped for size 0 and for the empty stack.
Simplification: the children's texts are produced first and then ordered (instead of ordering
the children first); the literal version is `writeLoopImpl` in Model/Write.lean, and C02_literal says that they agree. -/
def writeImpl (ord : HashOrder (List Str)) : FlameGraph → List Str → Str
  | .mk ch _ n, stack =>
    (if n ≠ 0 then
      if stack ≠ [] then joinSemi stack ++ 32 :: decimal n ++ [10] else []
     else [])
    ++ (sortByKey (ord.run stack (writeChildren ord ch stack))).flatMap (fun kt => kt.2)

/-- Texts of the children: `stack.push(key); child.write_flame_graph_impl(&stack, w); stack.pop()`,
flamegraph.rs:80-84. -/
def writeChildren (ord : HashOrder (List Str)) :
    List (Key × FlameGraph) → List Str → List (Key × Str)
  | [], _ => []
  | (key, child) :: rest, stack =>
    (key, writeImpl ord child (stack ++ [key.deref])) :: writeChildren ord rest stack
end

/-- `write`, flamegraph.rs:91-95. -/
def write (ord : HashOrder (List Str)) (self : FlameGraph) : Str := writeImpl ord self []

end FlameGraph
end Allocative
