import Verif.Model.Impls
import Verif.Model.Builder
/-
Visits of data behind locks, cells and weak pointers (impls/std/cell.rs, impls/std/sync.rs, impls/lock_api.rs, impls/tokio.rs,
impls/once_cell.rs, impls/dashmap.rs): here the visit reads and changes the state of the locks, and other threads do so too.
-/
namespace Allocative

/-- The calls by which implementations get access to what is in a lock or cell.
Models the files cited at each constructor, all in impls/: std/cell.rs, std/sync.rs, lock_api.rs, tokio.rs, once_cell.rs, dashmap.rs. -/
inductive Access where
  /-- `std::sync::Mutex::try_lock` (sync.rs:209-217): exclusive; poisoned by a panic, and refuses if poisoned -/
  | stdTryLock
  /-- `std::sync::RwLock::try_read` (sync.rs:36-44): shared; refuses if poisoned (a reader does not poison) -/
  | stdTryRead
  /-- `lock_api::Mutex::try_lock` (parking_lot; lock_api.rs:22-30), `tokio::sync::Mutex::try_lock` (tokio.rs:30-38): exclusive -/
  | tryLock
  /-- `lock_api::RwLock::try_read` (lock_api.rs:32-40), `tokio::sync::RwLock::try_read` (tokio.rs:20-28),
  `RefCell::try_borrow` (cell.rs:19-27): shared -/
  | tryRead
  /-- `OnceCell::get`, `OnceLock::get`, `Lazy::get` (cell.rs:29-47, once_cell.rs:16-54): no guard -/
  | get
  /-- not used by allocative itself except inside of `DashMap::iter` (dashmap.rs:38): a `read()` that waits -/
  | read
deriving DecidableEq

/-- State of a lock or cell as seen by the visiting thread.
Models impls/std/cell.rs:19-47, impls/std/sync.rs:36-44, 209-217, impls/lock_api.rs:22-40, impls/tokio.rs:20-38. -/
structure LockState where
  /-- an exclusive guard (mutex guard, write guard, `RefMut`) exists that the visit does not own; it may belong to another thread or to a
  caller of the visit -/
  othersExclusive : Bool
  /-- number of shared guards the visit does not own -/
  othersShared : Nat
  /-- any other reason for which a `try_*` call refuses (waiting writers, closed semaphore, too many readers) -/
  refuses : Bool
  poisoned : Bool
  /-- a `OnceCell` that has a value -/
  init : Bool
  /-- the visit itself holds an exclusive guard -/
  heldExclusive : Bool
  /-- number of shared guards the visit itself holds -/
  heldShared : Nat

/-- State of the strong count of a shared allocation. Models impls/std/sync.rs:97, 135. -/
structure CountState where
  /-- strong references that the visit does not own -/
  others : Nat
  /-- strong references created by `Weak::upgrade` in the visit and not yet dropped -/
  held : Nat
  /-- how many times a reference dropped by the visit was the last one, i.e. the visit ran the destructor of the contents -/
  destroyed : Nat

/-- All locks, cells and counters, and the other shared memory that visits read (contents of locks and cells, lengths, capacities,
atomics, ..), by address.
Models what impls/std/sync.rs:39, 97, 135, 212, impls/std/cell.rs:22, 32, 42, impls/dashmap.rs:37-44 read. -/
structure Store where
  lock : Ptr → LockState
  count : Ptr → CountState
  mem : Ptr → Nat

/-- Set one entry of a function.
Models assignment to one lock or counter; used for the effects of impls/std/sync.rs:39, 97, 135, 212. -/
def setAt {α : Type} (f : Ptr → α) (a : Ptr) (x : α) : Ptr → α := fun b => if b = a then x else f b

/-- Nobody has an exclusive guard.
Models `try_read`, `try_borrow`: impls/std/sync.rs:39, impls/std/cell.rs:22, impls/lock_api.rs:35, impls/tokio.rs:23. -/
def LockState.readable (s : LockState) : Bool := !s.othersExclusive && !s.heldExclusive

/-- Nobody has a guard. Models `try_lock`: impls/std/sync.rs:212, impls/lock_api.rs:25, impls/tokio.rs:33. -/
def LockState.free (s : LockState) : Bool := s.readable && s.othersShared == 0 && s.heldShared == 0

/-- Does the call return access?  (`stdTryLock` on a free poisoned mutex returns `Err(Poisoned(guard))`, and the guard is dropped at once.)
Models the `if let` of impls/std/sync.rs:39, 212, impls/std/cell.rs:22, 32, 42, impls/lock_api.rs:25, 35, impls/tokio.rs:23, 33, impls/once_cell.rs:19, 29, 39, 49. -/
def Access.granted (s : LockState) : Access → Bool
  | .stdTryLock => s.free && !s.refuses && !s.poisoned
  | .stdTryRead => s.readable && !s.refuses && !s.poisoned
  | .tryLock => s.free && !s.refuses
  | .tryRead => s.readable && !s.refuses
  | .get => s.init
  | .read => s.readable

/-- Can the call wait? Models impls/dashmap.rs:38, 60. -/
def Access.blocking : Access → Bool
  | .read => true
  | _ => false

/-- Effect of a successful call.
Models impls/std/sync.rs:39, 212, impls/std/cell.rs:22, impls/lock_api.rs:25, 35, impls/tokio.rs:23, 33. -/
def Access.acquire (s : LockState) : Access → LockState
  | .stdTryLock => { s with heldExclusive := true }
  | .stdTryRead => { s with heldShared := s.heldShared + 1 }
  | .tryLock => { s with heldExclusive := true }
  | .tryRead => { s with heldShared := s.heldShared + 1 }
  | .get => s
  | .read => { s with heldShared := s.heldShared + 1 }

/-- Effect of dropping the guard, normally or by unwinding.  (Not modelled: a visit that runs while the thread is already
panicking does not poison.)
Models end of the `if let` at impls/std/sync.rs:41, 214, impls/std/cell.rs:24, impls/lock_api.rs:27, 37, impls/tokio.rs:25, 35. -/
def Access.release (s : LockState) : Access → Ctl → LockState
  | .stdTryLock, .returned => { s with heldExclusive := false }
  | .stdTryLock, .unwinding => { s with heldExclusive := false, poisoned := true }
  | .stdTryRead, _ => { s with heldShared := s.heldShared - 1 }
  | .tryLock, _ => { s with heldExclusive := false }
  | .tryRead, _ => { s with heldShared := s.heldShared - 1 }
  | .get, _ => s
  | .read, _ => { s with heldShared := s.heldShared - 1 }

/-- `Weak::upgrade` succeeds. Models impls/std/sync.rs:97, 135. -/
def CountState.alive (c : CountState) : Bool := c.others + c.held != 0

/-- Drop of an `Arc` or `Rc` obtained from `upgrade`. Models impls/std/sync.rs:99, 137. -/
def CountState.drop (c : CountState) : CountState :=
  { c with held := c.held - 1, destroyed := if c.others + (c.held - 1) = 0 then c.destroyed + 1 else c.destroyed }

/-- Visit programs that also use locks, weak pointers and shared memory: `Prog` with three more statements.
Models visitor.rs:71-258 with the calls of impls/std/sync.rs:39, 97, 135, 212, impls/std/cell.rs:22, 32, 42, impls/dashmap.rs:37-44. -/
inductive LProg where
  | done
  | panic
  | enter (name : Key) (size : Nat) (fate : Fate) (body rest : LProg)
  | enterUnique (name : Key) (size : Nat) (fate : Fate) (body rest : LProg)
  | enterShared (name : Key) (size : Nat) (ptr : Ptr) (fate : Fate) (body restSome restNone : LProg)
  | catchUnwind (body rest : LProg)
  /-- `if let Ok(guard) = lock.try_lock() { inside }; rest`, the guard being dropped after `inside` -/
  | access (how : Access) (lock : Ptr) (inside rest : LProg)
  /-- `if let Some(arc) = weak.upgrade() { inside }; rest` -/
  | upgrade (ptr : Ptr) (inside rest : LProg)
  /-- a read of shared memory, on which everything that follows may depend -/
  | load (addr : Ptr) (next : Nat → LProg)

/-- Result of the execution of a visit. Models outcome of `root.visit(&mut visitor)`, flamegraph.rs:361. -/
inductive LResult (σ : Type) where
  /-- a panic of the visitor implementation -/
  | failed (e : Panic)
  /-- the visit waits for a lock for ever -/
  | stuck (lock : Ptr)
  | ended (s : σ) (store : Store) (time : Nat) (ctl : Ctl)

/-- Other threads: what they did to the store before the `n`-th time the visit looks at it.
Models threads beside flamegraph.rs:361. -/
abbrev Env := Nat → Store → Store

/-- What the visit finds if it looks at time `n`, and again and again without doing anything: at its first look, at the next, ..
Models the threads beside a `read()` that waits, impls/dashmap.rs:37-38, 44. -/
def Env.looksAgain (env : Env) (n : Nat) (st : Store) : Nat → Store
  | 0 => env n st
  | k + 1 => env (n + (k + 1)) (env.looksAgain n st k)

open Classical in
/-- A call returns, with what answer the state of the lock says; a call that waits looks again and again until it gets access.  The result is the state of the store and the time
when it returns, or `none` if it never does.  (A thread that waits may sleep: what others do between two looks is one step of theirs, so a look that comes too late
is included.  A waiting thread that is never woken up again is not.)
Models impls/dashmap.rs:37-38, 44, 60, 65 (`self.shards[i].read()`), and the calls cited at `Access`. -/
noncomputable def Access.call (env : Env) (how : Access) (a : Ptr) (n : Nat) (st : Store) : Option (Store × Nat) :=
  if how.granted ((env n st).lock a) then some (env n st, n + 1)
  else if how.blocking then
    if h : ∃ k, how.granted ((env.looksAgain n st k).lock a) = true ∧ ∀ j, j < k → how.granted ((env.looksAgain n st j).lock a) = false then
      some (env.looksAgain n st h.choose, n + h.choose + 1)
    else none
  else some (env n st, n + 1)

variable {σ : Type}

/-- End of the life of a child visitor, after the child. Models visitor.rs:65-69, 244-257. -/
def LResult.thenFinish (impl : VisitorImpl σ) (kind : NodeKind) (fate : Fate) (r : LResult σ)
    (k : σ → Store → Nat → LResult σ) : LResult σ :=
  match r with
  | .failed e => .failed e
  | .stuck a => .stuck a
  | .ended s st n ctl =>
    match impl.finishChild kind fate ctl s with
    | .error e => .failed e
    | .ok s =>
      match ctl with
      | .unwinding => .ended s st n .unwinding
      | .returned => k s st n

/-- Drop of the guard or reference after `inside`: `f` is its effect on the store.
Models impls/std/sync.rs:39-41, 97-99, 212-214, impls/std/cell.rs:22-24. -/
def LResult.thenRelease (r : LResult σ) (f : Nat → Store → Ctl → Store) (k : σ → Store → Nat → LResult σ) : LResult σ :=
  match r with
  | .failed e => .failed e
  | .stuck a => .stuck a
  | .ended s st n ctl =>
    match ctl with
    | .unwinding => .ended s (f n st .unwinding) (n + 1) .unwinding
    | .returned => k s (f n st .returned) (n + 1)

/-- Execution of a visit program.  The builder (`σ`) belongs to the visit, the store is shared with other threads.
Models visitor.rs:71-118, 244-257 and the calls cited at `Access`. -/
noncomputable def execL (impl : VisitorImpl σ) (env : Env) : LProg → NodeKind → σ → Store → Nat → LResult σ
  | .done, _, s, st, n => .ended s st n .returned
  | .panic, _, s, st, n => .ended s st n .unwinding
  | .enter name size fate body rest, kind, s, st, n =>
    match impl.enterInlineImpl s name size kind with
    | .error e => .failed e
    | .ok s => (execL impl env body .inline s st n).thenFinish impl .inline fate (execL impl env rest kind)
  | .enterUnique name size fate body rest, kind, s, st, n =>
    match impl.enterUniqueImpl s name size kind with
    | .error e => .failed e
    | .ok s => (execL impl env body .unique s st n).thenFinish impl .unique fate (execL impl env rest kind)
  | .enterShared name size ptr fate body restSome restNone, kind, s, st, n =>
    match impl.enterSharedImpl s name size ptr kind with
    | .error e => .failed e
    | .ok (false, s) => execL impl env restNone kind s st n
    | .ok (true, s) => (execL impl env body .shared s st n).thenFinish impl .shared fate (execL impl env restSome kind)
  | .catchUnwind body rest, kind, s, st, n =>
    match execL impl env body kind s st n with
    | .failed e => .failed e
    | .stuck a => .stuck a
    | .ended s st n _ => execL impl env rest kind s st n
  | .access how a inside rest, kind, s, st, n =>
    match how.call env a n st with
    | none => .stuck a
    | some (st, n) =>
      if how.granted (st.lock a) then
        (execL impl env inside kind s { st with lock := setAt st.lock a (how.acquire (st.lock a)) } n).thenRelease
          (fun n st ctl => let st := env n st; { st with lock := setAt st.lock a (how.release (st.lock a) ctl) })
          (execL impl env rest kind)
      else execL impl env rest kind s st n
  | .upgrade p inside rest, kind, s, st, n =>
    let st := env n st
    if (st.count p).alive then
      (execL impl env inside kind s { st with count := setAt st.count p { st.count p with held := (st.count p).held + 1 } } (n + 1)).thenRelease
        (fun n st _ => let st := env n st; { st with count := setAt st.count p (st.count p).drop })
        (execL impl env rest kind)
    else execL impl env rest kind s st (n + 1)
  | .load a next, kind, s, st, n =>
    let st := env n st
    execL impl env (next (st.mem a)) kind s st (n + 1)

/-- `let v = b.root_visitor(); prog(v); <fate of v>`, as `Builder.useRoot`. Models flamegraph.rs:349-363. -/
noncomputable def Builder.useRootL (env : Env) (b : Builder) (prog : LProg) (fate : Fate) (st : Store) (n : Nat) : LResult Builder :=
  match b.rootVisitor with
  | .error e => .failed e
  | .ok b =>
    match execL Builder.visitorImpl env prog .root b st n with
    | .failed e => .failed e
    | .stuck a => .stuck a
    | .ended b st n ctl =>
      match Builder.visitorImpl.finishChild .root fate ctl b with
      | .error e => .failed e
      | .ok b => .ended b st n ctl

/-- Several uses one after the other, as `Builder.useRoots`; panics are caught in between. Models flamegraph.rs:359-371. -/
noncomputable def Builder.useRootsL (env : Env) (b : Builder) : List (LProg × Fate) → Store → Nat → LResult Builder
  | [], st, n => .ended b st n .returned
  | (prog, fate) :: rest, st, n =>
    match b.useRootL env prog fate st n with
    | .failed e => .failed e
    | .stuck a => .stuck a
    | .ended b st n _ => useRootsL env b rest st n

/-! ### Implementations.  `content` is the visit of what is inside. -/

namespace LImpl

/-- Cells and locks whose content is a field: `RefCell`, `OnceCell`, `OnceLock` (cell.rs:19-47), `RwLock`, `Mutex` (sync.rs:36-44,
209-217), parking_lot `Mutex`, `RwLock` (lock_api.rs:22-40), tokio `RwLock`, `Mutex` (tokio.rs:20-38); `size` is the size of the content. -/
def cell (how : Access) (a : Ptr) (self : Ty) (size : Nat) (content : LProg) : LProg :=
  .enter self.key self.size .exit (.access how a (.enter dataName size .exit content .done) .done) .done

/-- `once_cell`'s `OnceCell` and `Lazy` (once_cell.rs:16-54): the content is not a field. -/
def onceCell (a : Ptr) (self : Ty) (content : LProg) : LProg :=
  .enter self.key self.size .exit (.access .get a content .done) .done

/-- `sync::Weak`, `rc::Weak` (sync.rs:93-103, 131-141); `strong` is the visit of the `Arc` or `Rc` that `upgrade` returned. -/
def weak (p : Ptr) (self : Ty) (strong : LProg) : LProg :=
  .enter self.key self.size .exit (.upgrade p strong .done) .done

/-- `Arc` and `Rc` (sync.rs:66-91, 105-129); `inner` is what is done with the visitor returned by `enter_shared`. -/
def arc (self : Ty) (ptrSize : Nat) (p : Ptr) (inner : LProg) : LProg :=
  .enter self.key self.size .exit (.enterShared ptrName ptrSize p .exit inner .done .done) .done

/-- A number in memory: where it is, and what it is, given the value of the memory there.
Models impls/dashmap.rs:37, 44, 59, 65 (the fields of the table of a shard that `capacity()` and `len()` are computed from). -/
structure Number where
  addr : Ptr
  decode : Nat → Nat

/-- The number, in a state of the store. Models impls/dashmap.rs:37, 44, 59, 65. -/
def Number.get (x : Number) (st : Store) : Nat := x.decode (st.mem x.addr)

/-- A shard of a `DashMap`: its lock, its capacity and its length, and the visit of its entries (which will usually
`load`). Models impls/dashmap.rs:37-44. -/
structure Shard where
  lock : Ptr
  capacity : Number
  len : Number
  entries : LProg

/-- `DashMap::capacity`, `DashMap::len`: `self.shards.iter().map(|s| s.read().capacity()).sum()`.  `num` says which number; `acc` is
the running sum, `next` is what is done with the sum.  (Simplification: the number is read just after the lock has been released, not just
before; other threads may change it then, so this allows more.) Models impls/dashmap.rs:37, 44, 59, 65. -/
def sumShards [Target] (num : Shard → Number) (next : Nat → LProg) : Nat → List Shard → LProg
  | acc, [] => next acc
  | acc, x :: l => .access .read x.lock .done (.load (num x).addr fun n => sumShards num next (Usize.add acc ((num x).decode n)) l)

/-- `a; b`. Models two statements one after the other, as in impls/dashmap.rs:38-44. -/
def _root_.Allocative.LProg.seq : LProg → LProg → LProg
  | .done, b => b
  | .panic, _ => .panic
  | .enter k n f body rest, b => .enter k n f body (rest.seq b)
  | .enterUnique k n f body rest, b => .enterUnique k n f body (rest.seq b)
  | .enterShared k n p f body rs rn, b => .enterShared k n p f body (rs.seq b) (rn.seq b)
  | .catchUnwind body rest, b => .catchUnwind body (rest.seq b)
  | .access how a inside rest, b => .access how a inside (rest.seq b)
  | .upgrade p inside rest, b => .upgrade p inside (rest.seq b)
  | .load a next, b => .load a fun x => (next x).seq b

/-- `DashMap::iter` asks for the read lock of the next shard when it has come to the end of one, and only then drops the guard of that one.
Models impls/dashmap.rs:38, 60. -/
def ahead : List Shard → LProg
  | [] => .done
  | x :: _ => .access .read x.lock .done .done

/-- A `for` loop over shards of a `DashMap` and the entries in each: `DashMap::iter` holds the read lock of a shard while its entries are
visited, and while it waits for the next shard.  (Simplification: guards are nested here, so the guard of the next shard is dropped and taken again when the
guard of this one is dropped; others may get the lock in between, so this allows more.) Models impls/dashmap.rs:38-41, 60-62. -/
def shards : List Shard → LProg → LProg
  | [], rest => rest
  | x :: l, rest => .access .read x.lock (x.entries.seq (ahead l)) (shards l rest)

/-- What `DashMap` and `DashSet` do inside of `ptr` (dashmap.rs:35-47, 57-69), where `entrySize` is the size of `(K, V)` or `T`. -/
def dashBody [Target] (entrySize : Nat) (l : List Shard) : LProg :=
  sumShards Shard.capacity (fun capacity =>
    .enter capacityName (Usize.mul capacity entrySize) .exit
      (shards l
        (sumShards Shard.capacity (fun capacity' =>
          sumShards Shard.len (fun len =>
            .enter unusedCapacityName (Usize.mul (Usize.saturatingSub capacity' len) entrySize) .exit .done .done) 0 l) 0 l)) .done) 0 l

/-- `DashMap<K, V, S>`, dashmap.rs:29-51, where `entrySize` is the size of `(K, V)`. -/
def dashMap [Target] (self : Ty) (entrySize : Nat) (l : List Shard) : LProg :=
  .enter self.key self.size .exit (.enterUnique ptrName ptrBytes .exit (dashBody entrySize l) .done) .done

/-- `DashSet<T, S>`, dashmap.rs:53-70, where `entrySize` is the size of `T`: as `DashMap`, but two visitors are dropped instead of exited. -/
def dashSet [Target] (self : Ty) (entrySize : Nat) (l : List Shard) : LProg :=
  .enter self.key self.size .drop (.enterUnique ptrName ptrBytes .drop (dashBody entrySize l) .done) .done

end LImpl

end Allocative
