import Verif.Lemmas.Order
import Verif.Model.Builder
set_option linter.unusedSimpArgs false
/-
`write_flame_graph_impl` word by word (flamegraph.rs:69-85).  `FlameGraph.writeImpl` produces the texts of the children first and sorts them afterwards, which
makes it structurally recursive; here the references to the children are collected in hash order, sorted, and written one after another into the same buffer, on
one stack that is pushed to and popped from.  C02_literal says that the two agree.
-/
namespace Allocative
namespace FlameGraph

/-- `Vec::from_iter(self.children.iter())` and `children.sort_by_key(|(key, _)| *key)`, flamegraph.rs:78-79; `at` identifies the map that is iterated. -/
def sortedChildren (ord : HashOrder (List Str)) (at_ : List Str) (self : FlameGraph) : List (Key × FlameGraph) :=
  sortByKey (ord.run at_ self.children)

theorem mem_sortedChildren {ord : HashOrder (List Str)} {at_ : List Str} {self : FlameGraph} {kc : Key × FlameGraph}
    (h : kc ∈ sortedChildren ord at_ self) : kc ∈ self.children :=
  (ord.perm _ _).mem_iff.1 ((sortByKey_perm _).mem_iff.1 h)

/-- `write_flame_graph_impl`, flamegraph.rs:69-85.  `w` is the `&mut String`; its new value is returned.  The local `stack` (flamegraph.rs:77) is a variable of the
loop: `stack.push(key)` before and `stack.pop().unwrap()` after each child (the `unwrap` cannot fail right after a push and is not modelled). -/
def writeLoopImpl (ord : HashOrder (List Str)) (self : FlameGraph) (stack : List Str) (w : Str) : Str :=
  let w := if self.nodeSize ≠ 0 then
      if stack ≠ [] then w ++ (joinSemi stack ++ 32 :: decimal self.nodeSize ++ [10]) else w
    else w
  let state := (sortedChildren ord stack self).attach.foldl (init := (stack, w)) fun (state : List Str × Str) kc =>
    let stack := state.1 ++ [kc.1.1.deref]
    let w := writeLoopImpl ord kc.1.2 stack state.2
    (stack.dropLast, w)
  state.2
termination_by self
decreasing_by
  have := mem_sortedChildren kc.2
  cases self with
  | mk ch cs n =>
    have h : kc.1 ∈ ch := this
    have h1 := List.sizeOf_lt_of_mem h
    have h2 : sizeOf kc.1.2 < sizeOf kc.1 := by
      obtain ⟨⟨k, c⟩, _⟩ := kc
      simp only [Prod.mk.sizeOf_spec]
      omega
    simp only [mk.sizeOf_spec]
    omega

/-- `write`, flamegraph.rs:91-95: `let mut r = String::new(); self.write_flame_graph_impl(&[], &mut r); r`. -/
def writeLoop (ord : HashOrder (List Str)) (self : FlameGraph) : Str := writeLoopImpl ord self [] []

end FlameGraph

/-- `finish_and_write_flame_graph`, flamegraph.rs:395-397: `self.finish().flamegraph.write()`. -/
def Builder.finishAndWriteFlameGraph (ord : HashOrder TreeId) (ord' : HashOrder (List Str)) (self : Builder) : Except Panic Str :=
  match self.finish ord with
  | .error e => .error e
  | .ok output => .ok (output.flamegraph.writeLoop ord')
end Allocative
