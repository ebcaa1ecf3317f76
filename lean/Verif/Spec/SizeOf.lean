import Verif.Spec.Events
import Verif.Model.SizeOf
/-
Specification vocabulary for `size_of_unique_allocated_data` (C23-C25).
-/
namespace Allocative

/-- All visitors of the program are exited or dropped. -/
def Prog.Closes : Prog → Prop
  | .done => True
  | .panic => True
  | .enter _ _ f body rest => (f = .exit ∨ f = .drop) ∧ body.Closes ∧ rest.Closes
  | .enterUnique _ _ f body rest => (f = .exit ∨ f = .drop) ∧ body.Closes ∧ rest.Closes
  | .enterShared _ _ _ f body rs rn => (f = .exit ∨ f = .drop) ∧ body.Closes ∧ rs.Closes ∧ rn.Closes
  | .catchUnwind body rest => body.Closes ∧ rest.Closes

/-- The program uses no shared pointers. -/
def Prog.NoShared : Prog → Prop
  | .done => True
  | .panic => True
  | .enter _ _ _ body rest => body.NoShared ∧ rest.NoShared
  | .enterUnique _ _ _ body rest => body.NoShared ∧ rest.NoShared
  | .enterShared .. => False
  | .catchUnwind body rest => body.NoShared ∧ rest.NoShared

/-- `enter_unique` is never called directly on a visitor that itself comes from `enter_unique`; the flag says whether the
program's own visitor does. -/
def Prog.UniqueApart : Prog → Bool → Prop
  | .done, _ => True
  | .panic, _ => True
  | .enter _ _ _ body rest, u => body.UniqueApart false ∧ rest.UniqueApart u
  | .enterUnique _ _ _ body rest, u => u = false ∧ body.UniqueApart true ∧ rest.UniqueApart u
  | .enterShared _ _ _ _ body rs rn, u => body.UniqueApart false ∧ rs.UniqueApart u ∧ rn.UniqueApart u
  | .catchUnwind body rest, u => body.UniqueApart u ∧ rest.UniqueApart u

/-- The program with keys and addresses renamed. -/
def Prog.rename (f : Key → Key) (g : Ptr → Ptr) : Prog → Prog
  | .done => .done
  | .panic => .panic
  | .enter k n fate body rest => .enter (f k) n fate (body.rename f g) (rest.rename f g)
  | .enterUnique k n fate body rest => .enterUnique (f k) n fate (body.rename f g) (rest.rename f g)
  | .enterShared k n p fate body rs rn =>
    .enterShared (f k) n (g p) fate (body.rename f g) (rs.rename f g) (rn.rename f g)
  | .catchUnwind body rest => .catchUnwind (body.rename f g) (rest.rename f g)

end Allocative
