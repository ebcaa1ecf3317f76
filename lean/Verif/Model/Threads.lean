import Verif.Model.Locks
import Verif.Model.Live
set_option linter.unusedSimpArgs false
/-
Several threads that profile the same data at the same time, each with its own `FlameGraphBuilder`, beside threads of the program.  The visits are those of Model/Locks.lean,
cut into single looks at what the threads share; between two looks of a thread all others may do anything.
-/
namespace Allocative
variable {σ : Type}

/-- One look of a visit at what it shares with other threads.
Models impls/std/sync.rs:39, 41, 97, 99, 135, 137, 212, 214, impls/std/cell.rs:22-24, 32-34, impls/lock_api.rs:25-27, 35-37, impls/tokio.rs:23-25, 33-35, impls/dashmap.rs:37-44. -/
inductive Action where
  /-- `try_lock()` and the like -/
  | call (how : Access) (a : Ptr)
  /-- drop of a guard, by return or by unwinding -/
  | release (how : Access) (a : Ptr) (ctl : Ctl)
  /-- `Weak::upgrade` -/
  | upgrade (p : Ptr)
  /-- drop of an upgraded pointer -/
  | dropRef (p : Ptr)
  | load (a : Ptr)

/-- Can the look take place?  All but a `read()` of a shard that is locked exclusively. Models impls/dashmap.rs:37-38, 44. -/
def Action.ready (st : Store) : Action → Bool
  | .call how a => how.granted (st.lock a) || !how.blocking
  | _ => true

/-- Its effect, on the store as the thread sees it. Models the lines cited at `Action`. -/
def Action.act (st : Store) : Action → Store
  | .call how a => if how.granted (st.lock a) then { st with lock := setAt st.lock a (how.acquire (st.lock a)) } else st
  | .release how a ctl => { st with lock := setAt st.lock a (how.release (st.lock a) ctl) }
  | .upgrade p => if (st.count p).alive then { st with count := setAt st.count p { st.count p with held := (st.count p).held + 1 } } else st
  | .dropRef p => { st with count := setAt st.count p (st.count p).drop }
  | .load _ => st

/-- What is left to do of a visit: it has ended, or it looks next, and goes on depending on what it sees.
Models the state of a thread inside of flamegraph.rs:359-363. -/
inductive Run (σ : Type) where
  /-- a panic of the visitor implementation -/
  | failed (e : Panic)
  | ended (s : σ) (ctl : Ctl)
  | look (a : Action) (next : Store → Run σ)

/-- End of the life of a child visitor, as `LResult.thenFinish`. Models visitor.rs:65-69, 244-257. -/
def Run.afterChild (impl : VisitorImpl σ) (kind : NodeKind) (fate : Fate) (ctl : Ctl) (s : σ) (unwinding returned : σ → Run σ) : Run σ :=
  match impl.finishChild kind fate ctl s with
  | .error e => .failed e
  | .ok s =>
    match ctl with
    | .unwinding => unwinding s
    | .returned => returned s

/-- The looks of a visit, as `execL`; `k` is what is done after it. Models visitor.rs:71-118, 244-257 and the calls cited at `Access`. -/
def LProg.run (impl : VisitorImpl σ) : LProg → NodeKind → σ → (σ → Ctl → Run σ) → Run σ
  | .done, _, s, k => k s .returned
  | .panic, _, s, k => k s .unwinding
  | .enter name size fate body rest, kind, s, k =>
    match impl.enterInlineImpl s name size kind with
    | .error e => .failed e
    | .ok s => body.run impl .inline s fun s ctl => Run.afterChild impl .inline fate ctl s (k · .unwinding) fun s => rest.run impl kind s k
  | .enterUnique name size fate body rest, kind, s, k =>
    match impl.enterUniqueImpl s name size kind with
    | .error e => .failed e
    | .ok s => body.run impl .unique s fun s ctl => Run.afterChild impl .unique fate ctl s (k · .unwinding) fun s => rest.run impl kind s k
  | .enterShared name size ptr fate body restSome restNone, kind, s, k =>
    match impl.enterSharedImpl s name size ptr kind with
    | .error e => .failed e
    | .ok (false, s) => restNone.run impl kind s k
    | .ok (true, s) => body.run impl .shared s fun s ctl => Run.afterChild impl .shared fate ctl s (k · .unwinding) fun s => restSome.run impl kind s k
  | .catchUnwind body rest, kind, s, k => body.run impl kind s fun s _ => rest.run impl kind s k
  | .access how a inside rest, kind, s, k =>
    .look (.call how a) fun st =>
      if how.granted (st.lock a) then
        inside.run impl kind s fun s ctl => .look (.release how a ctl) fun _ =>
          match ctl with
          | .unwinding => k s .unwinding
          | .returned => rest.run impl kind s k
      else rest.run impl kind s k
  | .upgrade p inside rest, kind, s, k =>
    .look (.upgrade p) fun st =>
      if (st.count p).alive then
        inside.run impl kind s fun s ctl => .look (.dropRef p) fun _ =>
          match ctl with
          | .unwinding => k s .unwinding
          | .returned => rest.run impl kind s k
      else rest.run impl kind s k
  | .load a next, kind, s, k => .look (.load a) fun st => (next (st.mem a)).run impl kind s k

/-- `let v = b.root_visitor(); prog(v); <fate of v>`, then `k`; as `Builder.useRootL`. Models flamegraph.rs:349-363. -/
def Builder.runRoot (b : Builder) (prog : LProg) (fate : Fate) (k : Builder → Run Builder) : Run Builder :=
  match b.rootVisitor with
  | .error e => .failed e
  | .ok b => prog.run Builder.visitorImpl .root b fun b ctl =>
    match Builder.visitorImpl.finishChild .root fate ctl b with
    | .error e => .failed e
    | .ok b => k b

/-- Several uses one after the other, as `Builder.useRootsL`. Models flamegraph.rs:359-371. -/
def Builder.runRoots (b : Builder) : List (LProg × Fate) → Run Builder
  | [] => .ended b .returned
  | (prog, fate) :: rest => b.runRoot prog fate fun b => b.runRoots rest

/-- `b.visit_global_roots()`: one look at the registry (`ROOTS` is locked only while it is cloned), then a visit of each root found in it.  `reg` is where the registry is, and
`registered x` are the visits of the roots in it while it is in state `x`. Models flamegraph.rs:367-371, global_root.rs:24-26. -/
def Builder.runGlobalRoots (b : Builder) (reg : Ptr) (registered : Nat → List (LProg × Fate)) : Run Builder :=
  .look (.load reg) fun st => b.runRoots (registered (st.mem reg))

/-- `size_of_unique_allocated_data`, as `SizeOf.sizeOfUniqueAllocatedDataL`. Models size_of.rs:40-84. -/
def SizeOf.runSizeOf (prog : LProg) : Run Nat :=
  prog.run SizeOf.visitorImpl .root 0 fun s ctl =>
    match SizeOf.visitorImpl.finishChild .root .exit ctl s with
    | .error e => .failed e
    | .ok s => .ended s ctl

/-- The same thread with another kind of result, for threads that do different things.
Models the results of flamegraph.rs:359-363 and size_of.rs:40-84 beside each other. -/
def Run.map {τ : Type} (f : σ → τ) : Run σ → Run τ
  | .failed e => .failed e
  | .ended s ctl => .ended (f s) ctl
  | .look a next => .look a fun st => (next st).map f

/-- A lock or cell that several profiling threads (numbered) and others use; compare `LockState`.
Models impls/std/cell.rs:19-47, impls/std/sync.rs:36-44, 209-217, impls/lock_api.rs:22-40, impls/tokio.rs:20-38. -/
structure SharedLock where
  /-- a guard of a thread that does not profile -/
  outsideExclusive : Bool
  outsideShared : Nat
  refuses : Bool
  poisoned : Bool
  init : Bool
  /-- guards of the profiling threads -/
  exclusive : Nat → Bool
  shared : Nat → Nat

/-- The strong count of a shared allocation; compare `CountState`. Models impls/std/sync.rs:97, 135. -/
structure SharedCount where
  outside : Nat
  held : Nat → Nat
  destroyed : Nat → Nat

/-- What the threads share. Models what impls/std/sync.rs:39, 97, 135, 212, impls/std/cell.rs:22, 32, 42, impls/dashmap.rs:37-44 read. -/
structure Shared where
  lock : Ptr → SharedLock
  count : Ptr → SharedCount
  mem : Ptr → Nat

/-- What the profiling thread `i` of `k` sees: the guards and references of all other threads are those of others.
Models impls/std/sync.rs:39, 97, 135, 212 when several threads run. -/
def Shared.view (k : Nat) (g : Shared) (i : Nat) : Store where
  lock a :=
    { othersExclusive := (g.lock a).outsideExclusive || (List.range k).any fun j => j != i && (g.lock a).exclusive j
      othersShared := (g.lock a).outsideShared + (((List.range k).filter (· != i)).map (g.lock a).shared).sum
      refuses := (g.lock a).refuses
      poisoned := (g.lock a).poisoned
      init := (g.lock a).init
      heldExclusive := (g.lock a).exclusive i
      heldShared := (g.lock a).shared i }
  count p :=
    { others := (g.count p).outside + (((List.range k).filter (· != i)).map (g.count p).held).sum
      held := (g.count p).held i
      destroyed := (g.count p).destroyed i }
  mem := g.mem

/-- What the threads share after the thread `i` has made `st` of what it saw: visits change only their own guards and references, and poison mutexes.
Models impls/std/sync.rs:39, 41, 97, 99, 135, 137, 212, 214. -/
def Shared.put (g : Shared) (i : Nat) (st : Store) : Shared where
  lock a := { g.lock a with
    poisoned := (st.lock a).poisoned
    exclusive := fun j => if j = i then (st.lock a).heldExclusive else (g.lock a).exclusive j
    shared := fun j => if j = i then (st.lock a).heldShared else (g.lock a).shared j }
  count p := { g.count p with
    held := fun j => if j = i then (st.count p).held else (g.count p).held j
    destroyed := fun j => if j = i then (st.count p).destroyed else (g.count p).destroyed j }
  mem := g.mem

/-- Other threads do not own the guards and references of the profiling threads. Models threads beside flamegraph.rs:361. -/
def Shared.SameProfilers (g g' : Shared) : Prop :=
  (∀ a, (g'.lock a).exclusive = (g.lock a).exclusive ∧ (g'.lock a).shared = (g.lock a).shared) ∧
  ∀ p, (g'.count p).held = (g.count p).held ∧ (g'.count p).destroyed = (g.count p).destroyed

/-- All threads. Models several threads inside of flamegraph.rs:359-363. -/
structure Sys (σ : Type) where
  shared : Shared
  threads : Nat → Run σ

/-- A step: a profiling thread (`some i`) looks, or others (`none`) do something.  (A thread that waits is one that does not look.)
Models the interleaving of threads, flamegraph.rs:361. -/
inductive Sys.Step (k : Nat) : Option Nat → Sys σ → Sys σ → Prop
  | look {y : Sys σ} {i : Nat} {a : Action} {next : Store → Run σ} : i < k → y.threads i = .look a next → a.ready (y.shared.view k i) = true →
      Step k (some i) y ⟨y.shared.put i (a.act (y.shared.view k i)), fun j => if j = i then next (y.shared.view k i) else y.threads j⟩
  | others {y : Sys σ} {g : Shared} : y.shared.SameProfilers g → Step k none y ⟨g, y.threads⟩

/-- `y.Reaches k gs y'`: some steps lead from `y` to `y'`, and `gs` are the states of what is shared on the way (the last one first). Models the interleaving of threads, flamegraph.rs:361. -/
inductive Sys.Reaches (k : Nat) (y : Sys σ) : List Shared → Sys σ → Prop
  | start : Reaches k y [y.shared] y
  | step {gs y₁ y₂ who} : Reaches k y gs y₁ → Step k who y₁ y₂ → Reaches k y (y₂.shared :: gs) y₂

end Allocative
