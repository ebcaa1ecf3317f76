import Verif.Spec.Nested
import Verif.Spec.Rebuild
import Verif.Spec.SizeOf
/-
Specification for C77: the names of a history are changed.
-/
namespace Allocative

/-- The key of the changed name. -/
def Key.renamed (f : Str → Str) (k : Key) : Key := Key.new (f k.s)

/-- The stack of the changed names. -/
def Path.renamed (f : Str → Str) (p : Path) : Path := p.map (Key.renamed f)

/-- The same history, with other names. -/
def renamedHist (f : Str → Str) (hist : List (Prog × Fate)) : List (Prog × Fate) := hist.map fun x => (x.1.rename (Key.renamed f) fun a => a, x.2)

/-- The sum of the lines whose stack becomes `p`. -/
def mergedAt (f : Str → Str) (lines : List (Path × Nat)) (p : Path) : Nat := (lines.map fun l => if Path.renamed f l.1 = p then l.2 else 0).sum

/-- The lines, the warnings and the total are those of the profile of the history: what they are made of, and in which order. -/
structure IsProfile (hist : List (Prog × Fate)) (lines : List (Path × Nat)) (ws : List Warning) (total : Nat) : Prop where
  sorted : lines.Pairwise fun a b => pathLt a.1.names b.1.names
  lines_iff : ∀ p n, (p, n) ∈ lines ↔ p ≠ [] ∧ n ≠ 0 ∧ entered (records hist) p ∧ n = selfSpec (records hist) p
  ws_sorted : ws.Pairwise fun a b => pathLt a.stack.names b.stack.names
  ws_iff : ∀ p m n, ⟨p, m, n⟩ ∈ ws ↔ overfull (records hist) p ∧ m = sizeAt (records hist) p ∧ n = childrenAt (records hist) p
  total_eq : total = (lines.map Prod.snd).sum

/-- All stacks entered in the history that become `p` are of one kind: either all were at least once entered with `enter_unique`, or none was. -/
def SameKind (f : Str → Str) (hist : List (Prog × Fate)) (p : Path) : Prop :=
  ∀ q q', entered (records hist) q → entered (records hist) q' → Path.renamed f q = p → Path.renamed f q' = p → uniqueAt (records hist) q = uniqueAt (records hist) q'

end Allocative
