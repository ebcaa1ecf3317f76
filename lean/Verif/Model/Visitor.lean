import Verif.Model.Collections
/-
Model of allocative/src/visitor.rs: the `VisitorImpl` trait, the `Visitor` handle and the programs
(`Allocative::visit` implementations) which use it.
-/
namespace Allocative

/-- Ways a call can panic. Models flamegraph.rs:80-83, 223, 229, 257, 350, 374-376, 427, 433, size_of.rs:70. -/
inductive Panic where
  /-- `Index`/`IndexMut for Trees`, flamegraph.rs:219-231. -/
  | indexOutOfBounds
  /-- `assert_eq!(child, next_tree_id)`, flamegraph.rs:257. -/
  | assertChildId
  /-- `assert!(!self.entered_root_visitor)`, flamegraph.rs:350. -/
  | assertRootNotEntered
  /-- `assert!(self.shared.is_empty())` and the two following, flamegraph.rs:374-376. -/
  | assertFinish
  /-- `assert!(self.entered_root_visitor)`, flamegraph.rs:427. -/
  | assertRootEntered
  /-- `assert!(self.current().up())`, flamegraph.rs:433. -/
  | assertUp
  /-- `unreachable!("shared pointers are not visited")`, size_of.rs:70. -/
  | unreachableShared
  /-- "attempt to add/subtract with overflow": `+`, `+=`, `-` and `sum` on `usize`/`isize` in builds with overflow checks
  (only in `Verif/Model/Machine.lean`). -/
  | arithOverflow
  /-- Artefact of the model: recursion deeper than the fuel.  Proved not to happen. -/
  | outOfFuel
deriving DecidableEq

/-- `enum NodeKind`, visitor.rs:51-57. -/
inductive NodeKind where
  | inline | unique | shared | root
deriving DecidableEq

/-- `*const ()`: an address. Models visitor.rs:38, flamegraph.rs:276. -/
abbrev Ptr := Nat

/-- `trait VisitorImpl`, visitor.rs:25-49, as operations on a state `σ` (`&mut self`). -/
structure VisitorImpl (σ : Type) where
  enterInlineImpl : σ → Key → Nat → NodeKind → Except Panic σ
  enterUniqueImpl : σ → Key → Nat → NodeKind → Except Panic σ
  enterSharedImpl : σ → Key → Nat → Ptr → NodeKind → Except Panic (Bool × σ)
  exitInlineImpl : σ → Except Panic σ
  exitUniqueImpl : σ → Except Panic σ
  exitSharedImpl : σ → Except Panic σ
  exitRootImpl : σ → Except Panic σ

variable {σ : Type}

/-- `Visitor::exit_impl`, visitor.rs:244-251. -/
def VisitorImpl.exitImpl (impl : VisitorImpl σ) : NodeKind → σ → Except Panic σ
  | .inline => impl.exitInlineImpl
  | .unique => impl.exitUniqueImpl
  | .shared => impl.exitSharedImpl
  | .root => impl.exitRootImpl

/-- `impl Drop for Visitor`, visitor.rs:65-69. -/
def VisitorImpl.drop (impl : VisitorImpl σ) (kind : NodeKind) (s : σ) : Except Panic σ :=
  impl.exitImpl kind s

/-- End of the scope of a variable holding a `Visitor`: the drop glue runs if the variable still owns it.
Models visitor.rs:65-69. -/
def VisitorImpl.endScope (impl : VisitorImpl σ) (kind : NodeKind) (owned : Bool) (s : σ) : Except Panic σ :=
  if owned then impl.drop kind s else .ok s

/-- `Visitor::exit(mut self)`, visitor.rs:253-257: `self.exit_impl(); mem::forget(self);` and the end of the scope of `self`,
which `mem::forget` has emptied. -/
def VisitorImpl.exit (impl : VisitorImpl σ) (kind : NodeKind) (s : σ) : Except Panic σ :=
  match impl.exitImpl kind s with
  | .error e => .error e
  | .ok s =>
    let selfOwned := false
    impl.endScope kind selfOwned s

/-- What a program does with a `Visitor` it obtained once it has finished using it. Models visitor.rs:65-69, 253-257. -/
inductive Fate where
  /-- calls `visitor.exit()` -/
  | exit
  /-- lets it go out of scope -/
  | drop
  /-- `mem::forget(visitor)` after use (an earlier panic still drops it) -/
  | forget
  /-- keeps it in a `ManuallyDrop`: never exited, not even by unwinding -/
  | leak
deriving DecidableEq

/-- A visit program: what an arbitrary safe, terminating `fn visit(&self, visitor: &mut Visitor)` does with
its visitor, for given data.  The only thing such a function can observe about the visitor is
whether `enter_shared` returned `Some`, hence the two continuations.  The borrow checker guarantees that the parent is
not used while a child visitor is alive, hence the nesting.
Models the calls of visitor.rs:71-258 that an `Allocative::visit` makes. -/
inductive Prog where
  /-- return -/
  | done
  /-- panic -/
  | panic
  /-- `let v = visitor.enter(name, size); body(v); <fate of v>; rest` -/
  | enter (name : Key) (size : Nat) (fate : Fate) (body rest : Prog)
  /-- the same with `enter_unique` -/
  | enterUnique (name : Key) (size : Nat) (fate : Fate) (body rest : Prog)
  /-- `match visitor.enter_shared(name, size, ptr) { Some(v) => { body(v); <fate of v>; restSome }, None => restNone }` -/
  | enterShared (name : Key) (size : Nat) (ptr : Ptr) (fate : Fate) (body restSome restNone : Prog)
  /-- `let _ = catch_unwind(|| body(visitor)); rest` -/
  | catchUnwind (body rest : Prog)

/-- How a program ended. Models return or unwind of `root.visit(..)`, flamegraph.rs:361, size_of.rs:81. -/
inductive Ctl where
  | returned | unwinding
deriving DecidableEq

/-- End of life of a child visitor: `exit`, `drop` or nothing; during unwinding live visitors are dropped.
Models visitor.rs:65-69, 244-257. -/
def VisitorImpl.finishChild (impl : VisitorImpl σ) (kind : NodeKind) (fate : Fate) (ctl : Ctl) (s : σ) :
    Except Panic σ :=
  match fate, ctl with
  | .leak, _ => .ok s
  | .forget, .returned => .ok s
  | .exit, .returned => impl.exit kind s
  | .drop, .returned => impl.drop kind s
  | .forget, .unwinding => impl.drop kind s
  | .exit, .unwinding => impl.drop kind s
  | .drop, .unwinding => impl.drop kind s

/-- Execution of a visit program with a visitor of kind `kind`: `Visitor::enter`, `enter_unique`,
`enter_shared`, visitor.rs:72-118 (each calls the impl with `self.node_kind` as parent and creates a visitor of
the new kind). A panic of the visitor implementation itself is an `.error`. -/
def exec (impl : VisitorImpl σ) : Prog → NodeKind → σ → Except Panic (σ × Ctl)
  | .done, _, s => .ok (s, .returned)
  | .panic, _, s => .ok (s, .unwinding)
  | .enter name size fate body rest, kind, s =>
    match impl.enterInlineImpl s name size kind with
    | .error e => .error e
    | .ok s =>
      match exec impl body .inline s with
      | .error e => .error e
      | .ok (s, ctl) =>
        match impl.finishChild .inline fate ctl s with
        | .error e => .error e
        | .ok s =>
          match ctl with
          | .unwinding => .ok (s, .unwinding)
          | .returned => exec impl rest kind s
  | .enterUnique name size fate body rest, kind, s =>
    match impl.enterUniqueImpl s name size kind with
    | .error e => .error e
    | .ok s =>
      match exec impl body .unique s with
      | .error e => .error e
      | .ok (s, ctl) =>
        match impl.finishChild .unique fate ctl s with
        | .error e => .error e
        | .ok s =>
          match ctl with
          | .unwinding => .ok (s, .unwinding)
          | .returned => exec impl rest kind s
  | .enterShared name size ptr fate body restSome restNone, kind, s =>
    match impl.enterSharedImpl s name size ptr kind with
    | .error e => .error e
    | .ok (false, s) => exec impl restNone kind s
    | .ok (true, s) =>
      match exec impl body .shared s with
      | .error e => .error e
      | .ok (s, ctl) =>
        match impl.finishChild .shared fate ctl s with
        | .error e => .error e
        | .ok s =>
          match ctl with
          | .unwinding => .ok (s, .unwinding)
          | .returned => exec impl restSome kind s
  | .catchUnwind body rest, kind, s =>
    match exec impl body kind s with
    | .error e => .error e
    | .ok (s, _) => exec impl rest kind s

end Allocative
