import Verif.Spec.Run
/-
A log of the calls a visit makes on the `Visitor` API, and what the log means.  The log is written by a
wrapper around the visitor implementation that knows nothing about stacks; the stacks are recovered
from the log alone.
-/
namespace Allocative

/-- One call. -/
inductive Event where
  /-- `root_visitor()` -/
  | root
  /-- `enter(name, size)` -/
  | inline (name : Key) (size : Nat)
  /-- `enter_unique(name, size)` -/
  | unique (name : Key) (size : Nat)
  /-- `enter_shared(name, size, ptr)`, and whether it returned `Some` -/
  | shared (name : Key) (size : Nat) (ptr : Ptr) (returnedSome : Bool)
  /-- a visitor of this kind is exited or dropped -/
  | exit (kind : NodeKind)
deriving DecidableEq

/-- A visitor implementation that forwards every call to `impl` and logs it. -/
def VisitorImpl.logged {σ : Type} (impl : VisitorImpl σ) : VisitorImpl (σ × List Event) where
  enterInlineImpl := fun (s, evs) k n kind =>
    match impl.enterInlineImpl s k n kind with
    | .error e => .error e
    | .ok s => .ok (s, evs ++ [.inline k n])
  enterUniqueImpl := fun (s, evs) k n kind =>
    match impl.enterUniqueImpl s k n kind with
    | .error e => .error e
    | .ok s => .ok (s, evs ++ [.unique k n])
  enterSharedImpl := fun (s, evs) k n ptr kind =>
    match impl.enterSharedImpl s k n ptr kind with
    | .error e => .error e
    | .ok (r, s) => .ok (r, (s, evs ++ [.shared k n ptr r]))
  exitInlineImpl := fun (s, evs) =>
    match impl.exitInlineImpl s with
    | .error e => .error e
    | .ok s => .ok (s, evs ++ [.exit .inline])
  exitUniqueImpl := fun (s, evs) =>
    match impl.exitUniqueImpl s with
    | .error e => .error e
    | .ok s => .ok (s, evs ++ [.exit .unique])
  exitSharedImpl := fun (s, evs) =>
    match impl.exitSharedImpl s with
    | .error e => .error e
    | .ok s => .ok (s, evs ++ [.exit .shared])
  exitRootImpl := fun (s, evs) =>
    match impl.exitRootImpl s with
    | .error e => .error e
    | .ok s => .ok (s, evs ++ [.exit .root])

/-- `Builder.useRoot` with a log. -/
def Builder.useRootLogged (b : Builder) (evs : List Event) (prog : Prog) (fate : Fate) :
    Except Panic (Builder × List Event) :=
  match b.rootVisitor with
  | .error e => .error e
  | .ok b =>
    match exec Builder.visitorImpl.logged prog .root (b, evs ++ [.root]) with
    | .error e => .error e
    | .ok (s, ctl) => Builder.visitorImpl.logged.finishChild .root fate ctl s

/-- `Builder.useRoots` with a log. -/
def Builder.useRootsLogged (b : Builder) (evs : List Event) : List (Prog × Fate) → Except Panic (Builder × List Event)
  | [] => .ok (b, evs)
  | (prog, fate) :: rest =>
    match b.useRootLogged evs prog fate with
    | .error e => .error e
    | .ok (b, evs) => b.useRootsLogged evs rest

/-- Addresses passed to `enter_shared`. -/
def sharedPtrs : List Event → List Ptr
  | [] => []
  | .shared _ _ p _ :: es => p :: sharedPtrs es
  | _ :: es => sharedPtrs es

/-- Does this call create a visitor? -/
def Event.creates : Event → Bool
  | .exit _ => false
  | .shared _ _ _ r => r
  | _ => true

/-- Is this the end of a visitor? -/
def Event.ends : Event → Bool
  | .exit _ => true
  | _ => false

/-- A live visitor: its kind and the name it was entered with. -/
structure Frame where
  kind : NodeKind
  name : Key
deriving DecidableEq

/-- The stack of the innermost live visitor (live visitors are listed innermost first): the names entered since the
innermost shared or root visitor. -/
def stackOf : List Frame → Path
  | [] => []
  | ⟨.inline, k⟩ :: fs => stackOf fs ++ [k]
  | ⟨.unique, k⟩ :: fs => stackOf fs ++ [k]
  | ⟨.shared, _⟩ :: _ => []
  | ⟨.root, _⟩ :: _ => []

/-- Replays a log: the live visitors after it, and the records `(stack, size, unique?)` of its enter calls.
`none` if the log is not well formed: a visitor is created without a parent or a root inside a root, or the
visitor that ends is not of the kind of the innermost live visitor. -/
def replay : List Frame → List Event → Option (List Frame × List Rec)
  | fs, [] => some (fs, [])
  | fs, .root :: es => if fs = [] then replay [⟨.root, Key.new []⟩] es else none
  | fs, .inline k n :: es =>
    if fs = [] then none else
    (replay (⟨.inline, k⟩ :: fs) es).map fun r => (r.1, ⟨stackOf fs ++ [k], n, false⟩ :: r.2)
  | fs, .unique k n :: es =>
    if fs = [] then none else
    (replay (⟨.unique, k⟩ :: fs) es).map fun r => (r.1, ⟨stackOf fs ++ [k], n, true⟩ :: r.2)
  | fs, .shared k n _ r :: es =>
    if fs = [] then none else
    (replay (if r then ⟨.shared, k⟩ :: fs else fs) es).map fun r => (r.1, ⟨stackOf fs ++ [k], n, false⟩ :: r.2)
  | fs, .exit kind :: es =>
    match fs with
    | [] => none
    | f :: fs => if f.kind = kind then replay fs es else none

/-- An enter call together with the visitor it is made on. -/
structure Call where
  /-- kind of the visitor the call is made on -/
  parent : NodeKind
  /-- stack of that visitor -/
  stack : Path
  name : Key
  size : Nat
  /-- which of `enter`, `enter_unique`, `enter_shared` it is -/
  kind : NodeKind
deriving DecidableEq

/-- The record of a call. -/
def Call.toRec (c : Call) : Rec := ⟨c.stack ++ [c.name], c.size, c.kind = .unique⟩

/-- The visitor a call is made on: the innermost live one. -/
def parentKind : List Frame → NodeKind
  | [] => .root
  | f :: _ => f.kind

/-- The enter calls of a log, each with the visitor it is made on (the innermost live one). -/
def calls : List Frame → List Event → List Call
  | _, [] => []
  | fs, .root :: es => calls (⟨.root, Key.new []⟩ :: fs) es
  | fs, .inline k n :: es => ⟨parentKind fs, stackOf fs, k, n, .inline⟩ :: calls (⟨.inline, k⟩ :: fs) es
  | fs, .unique k n :: es => ⟨parentKind fs, stackOf fs, k, n, .unique⟩ :: calls (⟨.unique, k⟩ :: fs) es
  | fs, .shared k n _ r :: es => ⟨parentKind fs, stackOf fs, k, n, .shared⟩ :: calls (if r then ⟨.shared, k⟩ :: fs else fs) es
  | fs, .exit _ :: es => calls fs.tail es

/-- Sum of the sizes of the calls satisfying `p`. -/
def sumCalls (p : Call → Bool) (cs : List Call) : Nat := (cs.map fun c => if p c then c.size else 0).sum

end Allocative
