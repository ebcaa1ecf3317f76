import Verif.Spec.Events
/-
Arbitrary user code on several builders: any sequence of calls of the `Visitor` API that the borrow checker admits (flamegraph.rs:349-356, visitor.rs:59-118,
244-257).  Nothing is assumed about where the calls come from: the code may be nondeterministic, may never end, may run several visits of different builders at the
same time, and may exchange the visitors of different builders with each other (`mem::swap`).
-/
namespace Allocative

/-- An operation of user code on a builder or on the innermost live visitor of that builder.
Models flamegraph.rs:349-356, visitor.rs:65-118, 253-257. -/
inductive Op where
  /-- `builder.root_visitor()` -/
  | root
  /-- `visitor.enter(name, size)` -/
  | enter (name : Key) (size : Nat)
  /-- `visitor.enter_unique(name, size)` -/
  | enterUnique (name : Key) (size : Nat)
  /-- `visitor.enter_shared(name, size, ptr)` -/
  | enterShared (name : Key) (size : Nat) (ptr : Ptr)
  /-- `visitor.exit()` -/
  | exit
  /-- `drop(visitor)`, end of its scope, or unwinding -/
  | drop
  /-- `mem::forget(visitor)` -/
  | forget
deriving DecidableEq

/-- A builder and the `node_kind`s of the visitors of it that exist, innermost first.  The borrow checker: a visitor borrows its parent (visitor.rs:72-118) or the
builder (flamegraph.rs:349), so only the innermost one can be used or ended, and the builder itself only if there is none. -/
structure Session where
  builder : Builder
  live : List NodeKind

/-- A fresh builder. Models flamegraph.rs:330-346. -/
def Session.start : Session := ⟨Builder.default, []⟩

/-- One operation: `none` if the borrow checker does not admit it, otherwise the panic, or the new state and the call made on the builder (`forget` makes none).
Models flamegraph.rs:349-356, visitor.rs:65-118, 244-257. -/
def Session.step (s : Session) : Op → Option (Except Panic (Session × List Event))
  | .root =>
    match s.live with
    | [] => some (match s.builder.rootVisitor with
      | .error e => .error e
      | .ok b => .ok (⟨b, [.root]⟩, [.root]))
    | _ :: _ => none
  | .enter name size =>
    match s.live with
    | [] => none
    | kind :: live => some (match Builder.visitorImpl.enterInlineImpl s.builder name size kind with
      | .error e => .error e
      | .ok b => .ok (⟨b, .inline :: kind :: live⟩, [.inline name size]))
  | .enterUnique name size =>
    match s.live with
    | [] => none
    | kind :: live => some (match Builder.visitorImpl.enterUniqueImpl s.builder name size kind with
      | .error e => .error e
      | .ok b => .ok (⟨b, .unique :: kind :: live⟩, [.unique name size]))
  | .enterShared name size ptr =>
    match s.live with
    | [] => none
    | kind :: live => some (match Builder.visitorImpl.enterSharedImpl s.builder name size ptr kind with
      | .error e => .error e
      | .ok (true, b) => .ok (⟨b, .shared :: kind :: live⟩, [.shared name size ptr true])
      | .ok (false, b) => .ok (⟨b, kind :: live⟩, [.shared name size ptr false]))
  | .exit =>
    match s.live with
    | [] => none
    | kind :: live => some (match Builder.visitorImpl.exit kind s.builder with
      | .error e => .error e
      | .ok b => .ok (⟨b, live⟩, [.exit kind]))
  | .drop =>
    match s.live with
    | [] => none
    | kind :: live => some (match Builder.visitorImpl.drop kind s.builder with
      | .error e => .error e
      | .ok b => .ok (⟨b, live⟩, [.exit kind]))
  | .forget =>
    match s.live with
    | [] => none
    | _ :: live => some (.ok (⟨s.builder, live⟩, []))

/-- All builders, numbered. Models several values of flamegraph.rs:310-323. -/
abbrev World := Nat → Session

/-- All builders fresh. Models flamegraph.rs:330-346. -/
def World.start : World := fun _ => .start

/-- Operations on the builders, one after the other, each on any builder: the state and the log of the calls at the end.  A panic of the library ends it.
Models flamegraph.rs:349-356, visitor.rs:65-118, 244-257. -/
def World.run (w : World) : List (Nat × Op) → Option (Except Panic (World × List (Nat × Event)))
  | [] => some (.ok (w, []))
  | (i, op) :: ops =>
    match (w i).step op with
    | none => none
    | some (.error e) => some (.error e)
    | some (.ok (s, evs)) =>
      match World.run (fun j => if j = i then s else w j) ops with
      | none => none
      | some (.error e) => some (.error e)
      | some (.ok (w', log)) => some (.ok (w', evs.map (fun ev => (i, ev)) ++ log))

/-- The calls of one builder. Models visitor.rs:72-118. -/
def callsOf (i : Nat) (log : List (Nat × Event)) : List Event := (log.filter fun x => x.1 = i).map Prod.snd

end Allocative
