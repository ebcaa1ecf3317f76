import Verif.Model.Machine
import Verif.Model.Locks
/-
Visits of data that other threads change (`Verif/Model/Locks.lean`) with the builder of machine arithmetic (`Verif/Model/Machine.lean`).
-/
namespace Allocative.Machine

/-- Execution of a visit program beside other threads, `execL` of `Verif/Model/Locks.lean` for the builder with machine arithmetic.  An overflow panics inside an enter function,
before the child visitor exists; the guards and references that are held are dropped by unwinding.
Models visitor.rs:71-118, 244-257, flamegraph.rs:441-495 and the calls cited at `Access`. -/
noncomputable def execL [Target] (c : Checks) (env : Env) : LProg → NodeKind → Builder → Store → Nat → LResult Builder
  | .done, _, s, st, n => .ended s st n .returned
  | .panic, _, s, st, n => .ended s st n .unwinding
  | .enter name size fate body rest, kind, s, st, n =>
    match enterInlineImpl c s name size with
    | .error e => .failed e
    | .ok (s, .unwinding) => .ended s st n .unwinding
    | .ok (s, .returned) => (execL c env body .inline s st n).thenFinish Builder.visitorImpl .inline fate (execL c env rest kind)
  | .enterUnique name size fate body rest, kind, s, st, n =>
    match enterUniqueImpl c s name size with
    | .error e => .failed e
    | .ok (s, .unwinding) => .ended s st n .unwinding
    | .ok (s, .returned) => (execL c env body .unique s st n).thenFinish Builder.visitorImpl .unique fate (execL c env rest kind)
  | .enterShared name size ptr fate body restSome restNone, kind, s, st, n =>
    match enterSharedImpl c s name size ptr with
    | .error e => .failed e
    | .ok (_, s, .unwinding) => .ended s st n .unwinding
    | .ok (false, s, .returned) => execL c env restNone kind s st n
    | .ok (true, s, .returned) => (execL c env body .shared s st n).thenFinish Builder.visitorImpl .shared fate (execL c env restSome kind)
  | .catchUnwind body rest, kind, s, st, n =>
    match execL c env body kind s st n with
    | .failed e => .failed e
    | .stuck a => .stuck a
    | .ended s st n _ => execL c env rest kind s st n
  | .access how a inside rest, kind, s, st, n =>
    match how.call env a n st with
    | none => .stuck a
    | some (st, n) =>
      if how.granted (st.lock a) then
        (execL c env inside kind s { st with lock := setAt st.lock a (how.acquire (st.lock a)) } n).thenRelease
          (fun n st ctl => let st := env n st; { st with lock := setAt st.lock a (how.release (st.lock a) ctl) })
          (execL c env rest kind)
      else execL c env rest kind s st n
  | .upgrade p inside rest, kind, s, st, n =>
    let st := env n st
    if (st.count p).alive then
      (execL c env inside kind s { st with count := setAt st.count p { st.count p with held := (st.count p).held + 1 } } (n + 1)).thenRelease
        (fun n st _ => let st := env n st; { st with count := setAt st.count p (st.count p).drop })
        (execL c env rest kind)
    else execL c env rest kind s st (n + 1)
  | .load a next, kind, s, st, n =>
    let st := env n st
    execL c env (next (st.mem a)) kind s st (n + 1)

/-- `let v = b.root_visitor(); prog(v); <fate of v>`. Models flamegraph.rs:349-363. -/
noncomputable def useRootL [Target] (c : Checks) (env : Env) (b : Builder) (prog : LProg) (fate : Fate) (st : Store) (n : Nat) : LResult Builder :=
  match b.rootVisitor with
  | .error e => .failed e
  | .ok b =>
    match execL c env prog .root b st n with
    | .failed e => .failed e
    | .stuck a => .stuck a
    | .ended b st n ctl =>
      match Builder.visitorImpl.finishChild .root fate ctl b with
      | .error e => .failed e
      | .ok b => .ended b st n ctl

/-- Several uses one after the other, panics caught in between. Models flamegraph.rs:359-371. -/
noncomputable def useRootsL [Target] (c : Checks) (env : Env) (b : Builder) : List (LProg × Fate) → Store → Nat → LResult Builder
  | [], st, n => .ended b st n .returned
  | (prog, fate) :: rest, st, n =>
    match useRootL c env b prog fate st n with
    | .failed e => .failed e
    | .stuck a => .stuck a
    | .ended b st n _ => useRootsL c env b rest st n

/-- A visit with `SizeOfUniqueAllocatedDataVisitor` beside other threads: `execL` for `Machine.sizeOfInline`.
Models size_of.rs:46-74 and the calls cited at `Access`. -/
noncomputable def sizeOfExecL [Target] (c : Checks) (env : Env) : LProg → NodeKind → Nat → Store → Nat → LResult Nat
  | .done, _, s, st, n => .ended s st n .returned
  | .panic, _, s, st, n => .ended s st n .unwinding
  | .enter _ size fate body rest, kind, s, st, n =>
    match sizeOfInline c s size kind with
    | (s, .unwinding) => .ended s st n .unwinding
    | (s, .returned) => (sizeOfExecL c env body .inline s st n).thenFinish SizeOf.visitorImpl .inline fate (sizeOfExecL c env rest kind)
  | .enterUnique _ _ fate body rest, kind, s, st, n =>
    (sizeOfExecL c env body .unique s st n).thenFinish SizeOf.visitorImpl .unique fate (sizeOfExecL c env rest kind)
  | .enterShared _ _ _ _ _ _ restNone, kind, s, st, n => sizeOfExecL c env restNone kind s st n
  | .catchUnwind body rest, kind, s, st, n =>
    match sizeOfExecL c env body kind s st n with
    | .failed e => .failed e
    | .stuck a => .stuck a
    | .ended s st n _ => sizeOfExecL c env rest kind s st n
  | .access how a inside rest, kind, s, st, n =>
    match how.call env a n st with
    | none => .stuck a
    | some (st, n) =>
      if how.granted (st.lock a) then
        (sizeOfExecL c env inside kind s { st with lock := setAt st.lock a (how.acquire (st.lock a)) } n).thenRelease
          (fun n st ctl => let st := env n st; { st with lock := setAt st.lock a (how.release (st.lock a) ctl) })
          (sizeOfExecL c env rest kind)
      else sizeOfExecL c env rest kind s st n
  | .upgrade p inside rest, kind, s, st, n =>
    let st := env n st
    if (st.count p).alive then
      (sizeOfExecL c env inside kind s { st with count := setAt st.count p { st.count p with held := (st.count p).held + 1 } } (n + 1)).thenRelease
        (fun n st _ => let st := env n st; { st with count := setAt st.count p (st.count p).drop })
        (sizeOfExecL c env rest kind)
    else sizeOfExecL c env rest kind s st (n + 1)
  | .load a next, kind, s, st, n =>
    let st := env n st
    sizeOfExecL c env (next (st.mem a)) kind s st (n + 1)

/-- `size_of_unique_allocated_data`, size_of.rs:40-84, beside other threads. -/
noncomputable def sizeOfUniqueAllocatedDataL [Target] (c : Checks) (env : Env) (root : LProg) (st : Store) (n : Nat) : LResult Nat :=
  match sizeOfExecL c env root .root 0 st n with
  | .failed e => .failed e
  | .stuck a => .stuck a
  | .ended s st n ctl =>
    match SizeOf.visitorImpl.finishChild .root .exit ctl s with
    | .error e => .failed e
    | .ok s => .ended s st n ctl

/-- `size_of_unique`, size_of.rs:107-112, beside other threads; `sizeOfT` is `size_of::<T>()`. -/
noncomputable def sizeOfUniqueL [Target] (c : Checks) (env : Env) (sizeOfT : Nat) (root : LProg) (st : Store) (n : Nat) : LResult Nat :=
  match sizeOfUniqueAllocatedDataL c env root st n with
  | .failed e => .failed e
  | .stuck a => .stuck a
  | .ended s st n .unwinding => .ended s st n .unwinding
  | .ended s st n .returned =>
    match addUsize c sizeOfT s with
    | .error _ => .ended s st n .unwinding
    | .ok s => .ended s st n .returned

end Allocative.Machine
