import Verif.Spec.Events
import Verif.Model.Locks
/-
A log of the calls of visits beside other threads: as `Builder.useRootsL`, with the visitor implementation that logs.
-/
namespace Allocative

/-- `Builder.useRootL` with a log. -/
noncomputable def Builder.useRootLLogged (env : Env) (b : Builder) (evs : List Event) (prog : LProg) (fate : Fate) (st : Store) (n : Nat) : LResult (Builder × List Event) :=
  match b.rootVisitor with
  | .error e => .failed e
  | .ok b =>
    match execL Builder.visitorImpl.logged env prog .root (b, evs ++ [.root]) st n with
    | .failed e => .failed e
    | .stuck a => .stuck a
    | .ended s st n ctl =>
      match Builder.visitorImpl.logged.finishChild .root fate ctl s with
      | .error e => .failed e
      | .ok s => .ended s st n ctl

/-- `Builder.useRootsL` with a log. -/
noncomputable def Builder.useRootsLLogged (env : Env) (b : Builder) (evs : List Event) : List (LProg × Fate) → Store → Nat → LResult (Builder × List Event)
  | [], st, n => .ended (b, evs) st n .returned
  | (prog, fate) :: rest, st, n =>
    match b.useRootLLogged env evs prog fate st n with
    | .failed e => .failed e
    | .stuck a => .stuck a
    | .ended (b, evs) st n _ => b.useRootsLLogged env evs rest st n

end Allocative
