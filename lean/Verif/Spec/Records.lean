import Verif.Spec.Stack
import Verif.Model.Visitor
/-
Specification of what a builder history means, independent of the arena, the tree stacks and the
saved `shared` stacks: a history is a list of records `(stack, declared size, unique?)`.
-/
namespace Allocative

/-- One `enter`, `enter_unique` or `enter_shared` call: the stack it is made at (including the entered name), the
declared size, and whether it was `enter_unique`. -/
structure Rec where
  path : Path
  size : Nat
  unique : Bool
deriving DecidableEq

/-- Sum of the sizes declared at a stack. -/
def sizeAt (recs : List Rec) (p : Path) : Nat :=
  (recs.map fun r => if r.path = p then r.size else 0).sum

/-- Was the stack ever entered with `enter_unique`? -/
def uniqueAt (recs : List Rec) (p : Path) : Bool :=
  recs.any fun r => r.path = p && r.unique

/-- Is `q` a direct child stack of `p`, i.e. `q = p ++ [k]` (`isChild_iff`)? -/
def isChild (p q : Path) : Bool := q ≠ [] && q.dropLast = p

/-- Sum of the sizes declared at the direct child stacks of a stack. -/
def childrenAt (recs : List Rec) (p : Path) : Nat :=
  (recs.map fun r => if isChild p r.path then r.size else 0).sum

/-- Was the stack entered at all? -/
def entered (recs : List Rec) (p : Path) : Prop := ∃ r ∈ recs, r.path = p

instance (recs : List Rec) (p : Path) : Decidable (entered recs p) := by unfold entered; infer_instance

/-- `S - C`, with `C = 0` for unique stacks. -/
def remAt (recs : List Rec) (p : Path) : Int :=
  (sizeAt recs p : Int) - (if uniqueAt recs p then 0 else (childrenAt recs p : Int))

/-- Self size of a stack in the flame graph: `max 0 (S - C)`; the empty stack has none. -/
def selfSpec (recs : List Rec) (p : Path) : Nat := if p = [] then 0 else (remAt recs p).toNat

/-- Is the stack over-full: never unique, and the children declare more than the stack itself? -/
def overfull (recs : List Rec) (p : Path) : Prop :=
  p ≠ [] ∧ entered recs p ∧ uniqueAt recs p = false ∧ sizeAt recs p < childrenAt recs p

/-- The warning for a stack. -/
def renderWarning (recs : List Rec) (p : Path) : Str :=
  ascii "Incorrect size declaration for node `" ++ joinSemi p.names ++ ascii "`, size of self: "
    ++ decimal (sizeAt recs p) ++ ascii ", size of inline children: " ++ decimal (childrenAt recs p) ++ [10]

/-- Result of a visit as the specification sees it. -/
structure Trace where
  /-- records in the order they were made (meaningful if nothing is leaked) -/
  recs : List Rec
  /-- addresses for which `enter_shared` returned `Some`, latest first -/
  visited : List Ptr
  /-- how the visit ended -/
  ctl : Ctl
  /-- number of visitors that were never exited nor dropped -/
  leaked : Nat

/-- Number of visitors (0 or 1) that a fate leaks when its scope ends this way: `ManuallyDrop` always, `mem::forget` unless
a panic came before it. -/
def Fate.leaks : Fate → Ctl → Nat
  | .leak, _ => 1
  | .forget, .returned => 1
  | _, _ => 0

/-- Meaning of a visit program that runs at stack `cur` when `visited` have been entered before.
The contents of a shared pointer are visited at the empty stack; a shared pointer
already visited is not entered; a panic ends every enclosing scope up to the next `catch_unwind`. -/
def Prog.trace : Prog → Path → List Ptr → Trace
  | .done, _, vis => ⟨[], vis, .returned, 0⟩
  | .panic, _, vis => ⟨[], vis, .unwinding, 0⟩
  | .enter name size fate body rest, cur, vis =>
    let t := body.trace (cur ++ [name]) vis
    match t.ctl with
    | .unwinding => ⟨⟨cur ++ [name], size, false⟩ :: t.recs, t.visited, .unwinding, t.leaked + fate.leaks .unwinding⟩
    | .returned =>
      let t' := rest.trace cur t.visited
      ⟨⟨cur ++ [name], size, false⟩ :: t.recs ++ t'.recs, t'.visited, t'.ctl,
        t.leaked + fate.leaks .returned + t'.leaked⟩
  | .enterUnique name size fate body rest, cur, vis =>
    let t := body.trace (cur ++ [name]) vis
    match t.ctl with
    | .unwinding => ⟨⟨cur ++ [name], size, true⟩ :: t.recs, t.visited, .unwinding, t.leaked + fate.leaks .unwinding⟩
    | .returned =>
      let t' := rest.trace cur t.visited
      ⟨⟨cur ++ [name], size, true⟩ :: t.recs ++ t'.recs, t'.visited, t'.ctl,
        t.leaked + fate.leaks .returned + t'.leaked⟩
  | .enterShared name size ptr fate body restSome restNone, cur, vis =>
    if ptr ∈ vis then
      let t' := restNone.trace cur vis
      ⟨⟨cur ++ [name], size, false⟩ :: t'.recs, t'.visited, t'.ctl, t'.leaked⟩
    else
      let t := body.trace [] (ptr :: vis)
      match t.ctl with
      | .unwinding => ⟨⟨cur ++ [name], size, false⟩ :: t.recs, t.visited, .unwinding, t.leaked + fate.leaks .unwinding⟩
      | .returned =>
        let t' := restSome.trace cur t.visited
        ⟨⟨cur ++ [name], size, false⟩ :: t.recs ++ t'.recs, t'.visited, t'.ctl,
          t.leaked + fate.leaks .returned + t'.leaked⟩
  | .catchUnwind body rest, cur, vis =>
    let t := body.trace cur vis
    let t' := rest.trace cur t.visited
    ⟨t.recs ++ t'.recs, t'.visited, t'.ctl, t.leaked + t'.leaked⟩

/-- A list of root visits, each from the empty stack; the visited addresses carry over,
and a panic of one root does not affect the others. -/
def traceRoots : List (Prog × Fate) → List Ptr → Trace
  | [], vis => ⟨[], vis, .returned, 0⟩
  | (prog, fate) :: rest, vis =>
    let t := prog.trace [] vis
    let t' := traceRoots rest t.visited
    ⟨t.recs ++ t'.recs, t'.visited, .returned, t.leaked + fate.leaks t.ctl + t'.leaked⟩

/-- All records of a history of a fresh builder. -/
def records (hist : List (Prog × Fate)) : List Rec := (traceRoots hist []).recs

/-- Every visitor obtained in the history, root visitors included, is exited or dropped (C13 is about the other histories). -/
def NoLeaks (hist : List (Prog × Fate)) : Prop := (traceRoots hist []).leaked = 0

instance (hist : List (Prog × Fate)) : Decidable (NoLeaks hist) := by unfold NoLeaks; infer_instance

/-- All keys used by a program satisfy `Q`. -/
def Prog.KeysAre (Q : Key → Prop) : Prog → Prop
  | .done => True
  | .panic => True
  | .enter k _ _ body rest => Q k ∧ body.KeysAre Q ∧ rest.KeysAre Q
  | .enterUnique k _ _ body rest => Q k ∧ body.KeysAre Q ∧ rest.KeysAre Q
  | .enterShared k _ _ _ body rs rn => Q k ∧ body.KeysAre Q ∧ rs.KeysAre Q ∧ rn.KeysAre Q
  | .catchUnwind body rest => body.KeysAre Q ∧ rest.KeysAre Q

/-- All keys of a history come from `Key::new`, `ident_key!`, `Key::for_type_name` or derive. -/
def ProperKeys (hist : List (Prog × Fate)) : Prop := ∀ x ∈ hist, x.1.KeysAre Key.Proper

end Allocative
