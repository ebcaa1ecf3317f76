import Verif.Model.FlameGraph
import Verif.Lemmas.Order
/-
Specification vocabulary for flame graphs: stacks, self sizes, text lines.
-/
namespace Allocative

/-- A stack: the list of keys from the top level down. -/
abbrev Path := List Key

/-- The names on a stack. -/
def Path.names (p : Path) : List Str := p.map Key.s

/-- A key obtained from `Key::new`, `ident_key!`, `Key::for_type_name` (or the derive macro, see C26). -/
def Key.Proper (k : Key) : Prop := k = Key.new k.s

/-- The node at a stack of a flame graph. -/
def FlameGraph.find? : FlameGraph → Path → Option FlameGraph
  | fg, [] => some fg
  | fg, k :: p =>
    match HMap.get? k fg.children with
    | none => none
    | some c => c.find? p

/-- Self size of the node at a stack, `none` if there is no such node. -/
def FlameGraph.selfAt (fg : FlameGraph) (p : Path) : Option Nat := (fg.find? p).map FlameGraph.nodeSize

/-- Flame graphs obtainable through the public operations `default`, `add_self`, `add_child`, `add`
from keys satisfying `Q` (`clone` and `finish` yield nothing else: see `finish_built`). -/
inductive FlameGraph.Built (Q : Key → Prop) : FlameGraph → Prop
  | default : Built Q .default
  | addSelf {fg} (n : Nat) : Built Q fg → Built Q (fg.addSelf n)
  | addChild {fg c} (k : Key) : Q k → Built Q fg → Built Q c → Built Q (fg.addChild k c)
  | add {a b} : Built Q a → Built Q b → Built Q (a.add b)

mutual
/-- Sum of the self sizes of all nodes. -/
def FlameGraph.sumNodes : FlameGraph → Nat
  | .mk ch _ n => n + sumNodesList ch
def FlameGraph.sumNodesList : List (Key × FlameGraph) → Nat
  | [] => 0
  | (_, c) :: rest => FlameGraph.sumNodes c + sumNodesList rest
end

/-- `k1;k2;...;kn size\n`. -/
def renderLine (e : Path × Nat) : Str :=
  joinSemi e.1.names ++ [32] ++ decimal e.2 ++ [10]

end Allocative
