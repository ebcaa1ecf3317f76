import Verif.Spec.Run
import Verif.Model.Object
/-
Specification vocabulary for object graphs (C08-C10): which cells are reachable, what each cell owns.
-/
namespace Allocative

/-- Addresses of the shared pointers an object contains. -/
def Obj.ptrs : Obj → List Ptr
  | .nil => []
  | .inline _ _ _ inside rest => inside.ptrs ++ rest.ptrs
  | .unique _ _ _ inside rest => inside.ptrs ++ rest.ptrs
  | .shared _ _ p _ rest => p :: rest.ptrs

/-- The records of an object at a stack, without following shared pointers: each value, field and pointer once. -/
def Obj.own : Obj → Path → List Rec
  | .nil, _ => []
  | .inline k n _ inside rest, cur => ⟨cur ++ [k], n, false⟩ :: inside.own (cur ++ [k]) ++ rest.own cur
  | .unique k n _ inside rest, cur => ⟨cur ++ [k], n, true⟩ :: inside.own (cur ++ [k]) ++ rest.own cur
  | .shared k n _ _ rest, cur => ⟨cur ++ [k], n, false⟩ :: rest.own cur

/-- Cells reachable from some roots through shared pointers. -/
inductive Reachable (heap : Heap) (roots : List Obj) : Ptr → Prop
  | root {o p} : o ∈ roots → p ∈ o.ptrs → Reachable heap roots p
  | step {q p} : Reachable heap roots q → p ∈ (heap q).ptrs → Reachable heap roots p

/-- Visits that end, without any bound on the recursion: `o.Runs impl heap kind s s'` has a (finite) derivation if the visit of `o` with a visitor of kind `kind`,
started when the visitor implementation is in state `s`, returns and leaves it in state `s'`. -/
inductive Obj.Runs {σ : Type} (impl : VisitorImpl σ) (heap : Heap) : Obj → NodeKind → σ → σ → Prop
  | nil {kind s} : Runs impl heap .nil kind s s
  | inline {k n e inside rest kind s s1 s2 s3 s4} : impl.enterInlineImpl s k n kind = .ok s1 → Runs impl heap inside .inline s1 s2 →
      impl.finishChild .inline e.fate .returned s2 = .ok s3 → Runs impl heap rest kind s3 s4 → Runs impl heap (.inline k n e inside rest) kind s s4
  | unique {k n e inside rest kind s s1 s2 s3 s4} : impl.enterUniqueImpl s k n kind = .ok s1 → Runs impl heap inside .unique s1 s2 →
      impl.finishChild .unique e.fate .returned s2 = .ok s3 → Runs impl heap rest kind s3 s4 → Runs impl heap (.unique k n e inside rest) kind s s4
  | known {k n p e rest kind s s1 s2} : impl.enterSharedImpl s k n p kind = .ok (false, s1) → Runs impl heap rest kind s1 s2 →
      Runs impl heap (.shared k n p e rest) kind s s2
  | first {k n p e rest kind s s1 s2 s3 s4} : impl.enterSharedImpl s k n p kind = .ok (true, s1) → Runs impl heap (heap p) .shared s1 s2 →
      impl.finishChild .shared e.fate .returned s2 = .ok s3 → Runs impl heap rest kind s3 s4 → Runs impl heap (.shared k n p e rest) kind s s4

/-- `builder.visit_root(o)` for each of the roots, one after the other, from one builder to another, without a bound. -/
inductive Obj.RunsRoots (heap : Heap) : Builder → List Obj → Builder → Prop
  | nil {b} : RunsRoots heap b [] b
  | cons {b b1 b2 b3 b' o rest} : b.rootVisitor = .ok b1 → o.Runs Builder.visitorImpl heap .root b1 b2 → Builder.visitorImpl.exit .root b2 = .ok b3 →
      RunsRoots heap b3 rest b' → RunsRoots heap b (o :: rest) b'

/-- `builder.visit_root(o)` for each of the roots. -/
def visits (heap : Heap) (fuel : Nat) (roots : List Obj) : List (Prog × Fate) := roots.map fun o => (heap.visit fuel o, .exit)

/-- The same object with the members of each list of fields in another order. -/
inductive Obj.Shuffle : Obj → Obj → Prop
  | nil : Shuffle .nil .nil
  | inline (k n e) {a a' r r'} : Shuffle a a' → Shuffle r r' → Shuffle (.inline k n e a r) (.inline k n e a' r')
  | unique (k n e) {a a' r r'} : Shuffle a a' → Shuffle r r' → Shuffle (.unique k n e a r) (.unique k n e a' r')
  | shared (k n p e) {r r'} : Shuffle r r' → Shuffle (.shared k n p e r) (.shared k n p e r')
  | swapII (k n e a k' n' e' a' r) : Shuffle (.inline k n e a (.inline k' n' e' a' r)) (.inline k' n' e' a' (.inline k n e a r))
  | swapIU (k n e a k' n' e' a' r) : Shuffle (.inline k n e a (.unique k' n' e' a' r)) (.unique k' n' e' a' (.inline k n e a r))
  | swapUU (k n e a k' n' e' a' r) : Shuffle (.unique k n e a (.unique k' n' e' a' r)) (.unique k' n' e' a' (.unique k n e a r))
  | swapIS (k n e a k' n' p e' r) : Shuffle (.inline k n e a (.shared k' n' p e' r)) (.shared k' n' p e' (.inline k n e a r))
  | swapUS (k n e a k' n' p e' r) : Shuffle (.unique k n e a (.shared k' n' p e' r)) (.shared k' n' p e' (.unique k n e a r))
  | swapSS (k n p e k' n' p' e' r) : Shuffle (.shared k n p e (.shared k' n' p' e' r)) (.shared k' n' p' e' (.shared k n p e r))
  | symm {a b} : Shuffle a b → Shuffle b a
  | trans {a b c} : Shuffle a b → Shuffle b c → Shuffle a c

/-- Two lists of objects of the same length, each object shuffled. -/
inductive Obj.ShuffleEach : List Obj → List Obj → Prop
  | nil : ShuffleEach [] []
  | cons {a a' l l'} : Obj.Shuffle a a' → ShuffleEach l l' → ShuffleEach (a :: l) (a' :: l')

/-- All keys of an object satisfy `Q`. -/
def Obj.KeysAre (Q : Key → Prop) : Obj → Prop
  | .nil => True
  | .inline k _ _ inside rest => Q k ∧ inside.KeysAre Q ∧ rest.KeysAre Q
  | .unique k _ _ inside rest => Q k ∧ inside.KeysAre Q ∧ rest.KeysAre Q
  | .shared k _ _ _ rest => Q k ∧ rest.KeysAre Q

/-- Sum of the sizes of the outermost calls. -/
def Obj.direct : Obj → Nat
  | .nil => 0
  | .inline _ n _ _ rest => n + rest.direct
  | .unique _ n _ _ rest => n + rest.direct
  | .shared _ n _ _ rest => n + rest.direct

/-- Everything entered with `enter` declares at least the sizes of what is directly in it. -/
def Obj.Consistent : Obj → Prop
  | .nil => True
  | .inline _ n _ inside rest => inside.direct ≤ n ∧ inside.Consistent ∧ rest.Consistent
  | .unique _ _ _ inside rest => inside.Consistent ∧ rest.Consistent
  | .shared _ _ _ _ rest => rest.Consistent

end Allocative
