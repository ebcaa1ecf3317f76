import Verif.Spec.Run
/-
Specification vocabulary for C35: visiting `n` elements at once.
-/
namespace Allocative

/-- `n` times `visit_simple(k, size)`, then `rest`. -/
def Prog.leaves (k : Key) (size : Nat) : Nat → Prog → Prog
  | 0, rest => rest
  | n + 1, rest => .enter k size .exit .done (Prog.leaves k size n rest)

/-- `Bulk a b`: the visits are the same, except that in some places where `a` calls `visit_simple(k, size * n)`, `b` calls
`visit_simple(k, size)` `n` times. -/
inductive Bulk : Prog → Prog → Prop
  | bulk (k size n) {rest rest'} : Bulk rest rest' → Bulk (.enter k (size * n) .exit .done rest) (Prog.leaves k size n rest')
  | done : Bulk .done .done
  | panic : Bulk .panic .panic
  | enter (k n f) {body body' rest rest'} : Bulk body body' → Bulk rest rest' → Bulk (.enter k n f body rest) (.enter k n f body' rest')
  | enterUnique (k n f) {body body' rest rest'} : Bulk body body' → Bulk rest rest' →
      Bulk (.enterUnique k n f body rest) (.enterUnique k n f body' rest')
  | enterShared (k n p f) {body body' rs rs' rn rn'} : Bulk body body' → Bulk rs rs' → Bulk rn rn' →
      Bulk (.enterShared k n p f body rs rn) (.enterShared k n p f body' rs' rn')
  | catchUnwind {body body' rest rest'} : Bulk body body' → Bulk rest rest' → Bulk (.catchUnwind body rest) (.catchUnwind body' rest')

/-- The same for histories. -/
inductive BulkHist : List (Prog × Fate) → List (Prog × Fate) → Prop
  | nil : BulkHist [] []
  | cons (f) {a b h h'} : Bulk a b → BulkHist h h' → BulkHist ((a, f) :: h) ((b, f) :: h')

end Allocative
