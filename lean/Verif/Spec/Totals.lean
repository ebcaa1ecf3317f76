import Verif.Spec.Records
/-
Specification vocabulary for totals: C16, C19, C22.
-/
namespace Allocative

/-- Bytes that are not inside a non-unique parent: the sizes declared at top-level stacks plus those declared
directly below stacks that are unique. -/
def attributed (recs : List Rec) : Nat :=
  (recs.map fun r => if r.path.dropLast = [] ∨ uniqueAt recs r.path.dropLast = true then r.size else 0).sum

/-- The largest sum of sizes of direct children a program can enter on its own visitor, whatever `enter_shared`
answers. -/
def Prog.direct : Prog → Nat
  | .done => 0
  | .panic => 0
  | .enter _ n _ _ rest => n + rest.direct
  | .enterUnique _ n _ _ rest => n + rest.direct
  | .enterShared _ n _ _ _ rs rn => n + max rs.direct rn.direct
  | .catchUnwind body rest => body.direct + rest.direct

/-- Every node entered with `enter` declares at least the sum of its direct children.  Nodes
entered with `enter_unique` and the contents of shared pointers are unconstrained. -/
def Prog.Consistent : Prog → Prop
  | .done => True
  | .panic => True
  | .enter _ n _ body rest => body.direct ≤ n ∧ body.Consistent ∧ rest.Consistent
  | .enterUnique _ _ _ body rest => body.Consistent ∧ rest.Consistent
  | .enterShared _ _ _ _ body rs rn => body.Consistent ∧ rs.Consistent ∧ rn.Consistent
  | .catchUnwind body rest => body.Consistent ∧ rest.Consistent

/-- Addresses a program may pass to `enter_shared`. -/
def Prog.ptrs : Prog → List Ptr
  | .done => []
  | .panic => []
  | .enter _ _ _ body rest => body.ptrs ++ rest.ptrs
  | .enterUnique _ _ _ body rest => body.ptrs ++ rest.ptrs
  | .enterShared _ _ p _ body rs rn => p :: (body.ptrs ++ rs.ptrs ++ rn.ptrs)
  | .catchUnwind body rest => body.ptrs ++ rest.ptrs

/-- Addresses of a history. -/
def histPtrs (hist : List (Prog × Fate)) : List Ptr := hist.flatMap fun x => x.1.ptrs

end Allocative
