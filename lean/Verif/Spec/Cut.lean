import Verif.Spec.Records
/-
Specification vocabulary for C14 and C15: programs that differ in a panic, or in how visitors are ended.
-/
namespace Allocative

/-- `CutTo P Q`: `Q` does the same as `P` but may panic at any points instead of going on (at points where no `catch_unwind`
of the program itself is active: the panic gets out of the program). -/
inductive CutTo : Prog → Prog → Prop
  | panics (P : Prog) : CutTo P .panic
  | done : CutTo .done .done
  | enter (k n f) {body body' rest rest'} : CutTo body body' → CutTo rest rest' →
      CutTo (.enter k n f body rest) (.enter k n f body' rest')
  | enterUnique (k n f) {body body' rest rest'} : CutTo body body' → CutTo rest rest' →
      CutTo (.enterUnique k n f body rest) (.enterUnique k n f body' rest')
  | enterShared (k n p f) {body body' rs rs' rn rn'} : CutTo body body' → CutTo rs rs' → CutTo rn rn' →
      CutTo (.enterShared k n p f body rs rn) (.enterShared k n p f body' rs' rn')
  | catchUnwind (body) {rest rest'} : CutTo rest rest' → CutTo (.catchUnwind body rest) (.catchUnwind body rest')

/-- `exit` instead of `drop`, everywhere. -/
def Fate.dropToExit : Fate → Fate
  | .drop => .exit
  | f => f

/-- The program with every scope-end drop of a visitor replaced by a call of `exit`. -/
def Prog.dropToExit : Prog → Prog
  | .done => .done
  | .panic => .panic
  | .enter k n f body rest => .enter k n f.dropToExit body.dropToExit rest.dropToExit
  | .enterUnique k n f body rest => .enterUnique k n f.dropToExit body.dropToExit rest.dropToExit
  | .enterShared k n p f body rs rn => .enterShared k n p f.dropToExit body.dropToExit rs.dropToExit rn.dropToExit
  | .catchUnwind body rest => .catchUnwind body.dropToExit rest.dropToExit

end Allocative
