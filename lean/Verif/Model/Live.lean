import Verif.Model.Locks
import Verif.Model.Datum
import Verif.Model.SizeOf
/-
Data that changes while it is visited: values with locks, cells, weak pointers and `DashMap`s in them, nested in any way, whose contents other threads may replace
whenever the visit does not hold a guard.  The visit combines the implementations of Model/Impls.lean (through `Datum.value`) with the statements for locks of
Model/Locks.lean.
-/
namespace Allocative

/-- What is at a place of a live value.
Models impls/std/cell.rs:19-47, impls/std/sync.rs:36-44, 93-103, 131-141, 209-217, impls/lock_api.rs:22-40, impls/tokio.rs:20-38, impls/once_cell.rs:16-54, impls/dashmap.rs:29-70. -/
inductive PlaceKind where
  /-- a lock or cell whose content is visited as a field: `RefCell`, `OnceCell`, `OnceLock` (cell.rs:19-47), `RwLock`, `Mutex` (sync.rs:36-44, 209-217),
  lock_api.rs:22-40, tokio.rs:20-38 -/
  | cell (how : Access)
  /-- `once_cell`'s `OnceCell` and `Lazy`, whose content is visited directly (once_cell.rs:16-54) -/
  | once
  /-- a `Weak` to the allocation `target`; `strong` is the type of the upgraded pointer (sync.rs:93-103, 131-141) -/
  | weak (strong : Ty) (ptrSize : Nat) (target : Ptr)
  /-- a `DashMap<K, V>`, where `KV` is `(K, V)` (dashmap.rs:29-51).  The shards are numbered like places: that with number `q` has its lock at `addr q`, and if the memory there has the
  value `x`, its entries are those of the map `content q x`, its capacity and length are `capacity q x` and `len q x`, and its table has `bytes q x` bytes (which the
  visit does not see). -/
  | dashMap (K V KV : Ty) (shards : List Ptr) (capacity len bytes : Ptr → Nat → Nat)
  /-- a `DashSet<T>` (dashmap.rs:53-70), as `DashMap`; the entries are the items of the set `content q x`.  (Simplification: its own visitor is ended by `exit`, while the code drops
  it; the same for every visitor, C15_exit_drop_same.) -/
  | dashSet (T : Ty) (shards : List Ptr) (capacity len bytes : Ptr → Nat → Nat)

/-- A value that may change.  A live value has a `shape`, a `Datum` in which certain pointers `p` of the form `.arc self _ p` are only placeholders: those with `kind p ≠ none`.
At such a place is a lock, cell, `Weak`, `DashMap` or `DashSet` of type `self`; the lock is at address `addr p`, and its content, when the memory there has the value `x`, is `content p x`
(so the content depends on the memory in an arbitrary way).  (Places are numbered like pointers only to reuse `Datum`; the numbers mean nothing.)
Models values with what is listed at `PlaceKind` inside, e.g. impls/std/sync.rs:36-44, 209-217. -/
inductive LiveDatum where
  /-- a value without locks in it (or none that are looked at) -/
  | still (d : Datum)
  | live (shape : Datum) (kind : Ptr → Option PlaceKind) (addr : Ptr → Ptr) (content : Ptr → Nat → LiveDatum)

/-- The shape.
Models the part of the value that is not behind a lock: impls/std/sync.rs:38, 211, impls/std/cell.rs:21, 31, 41. -/
def LiveDatum.shape : LiveDatum → Datum
  | .still d => d
  | .live shape _ _ _ => shape

/-- Visit of an object of which some pointers are places: `place p` is what is done at a place, given what is done after it; `cont` is the visit of a pointee.  At all
other pointers as `Obj.visitWith`. Models impls/std/cell.rs:19-47, impls/std/sync.rs:36-44, 66-141, 209-217. -/
def Obj.visitLive (cont : Ptr → LProg) (place : Ptr → Option (LProg → LProg)) : Obj → LProg
  | .nil => .done
  | .inline k n e inside rest => .enter k n e.fate (inside.visitLive cont place) (rest.visitLive cont place)
  | .unique k n e inside rest => .enterUnique k n e.fate (inside.visitLive cont place) (rest.visitLive cont place)
  | .shared k n p e rest =>
    match place p with
    | some g => g (rest.visitLive cont place)
    | none => .enterShared k n p e.fate (cont p) (rest.visitLive cont place) (rest.visitLive cont place)

/-- Visit of the entries of a map or set. Models impls/dashmap.rs:38-41, 60-62. -/
def Datum.entriesVisit [Target] : Datum → Obj
  | .map _ _ keys values =>
    Obj.concat (((Datum.values keys).zip (Datum.values values)).map fun e => (Visit.field keyName e.1).append (Visit.field valueName e.2))
  | .set _ _ items => Obj.concat ((Datum.values items).map fun v => Visit.field dataName v)
  | _ => .nil

/-- What is done at the places of a live value.  For locks and cells: `if let Ok(guard) = lock.try_lock() { visitor.visit_field(data, &*guard) }`, where the content is read
once the guard is there (it does not change while the guard is held, except for what is in further locks).
Models `if let Ok(data) = self.try_lock() { .. }` and the like: impls/std/sync.rs:39-41, 97-99, 135-137, 212-214, impls/std/cell.rs:22-24, 32-34, impls/lock_api.rs:25-27, 35-37, impls/tokio.rs:23-25, 33-35, impls/once_cell.rs:19-21, impls/dashmap.rs:34-47, 56-68. -/
def LiveDatum.places [Target] : LiveDatum → (Ptr → LProg) → Ptr → Option (LProg → LProg)
  | .still _, _, _ => none
  | .live _ kind addr content, cont, p =>
    match kind p with
    | none => none
    | some (.cell how) => some fun rest =>
      .access how (addr p)
        (.load (addr p) fun x =>
          .enter dataName (content p x).shape.value.sizeOfVal .exit
            ((content p x).shape.value.visit.visitLive cont ((content p x).places cont)) .done) rest
    | some .once => some fun rest =>
      .access .get (addr p)
        (.load (addr p) fun x => (content p x).shape.value.visit.visitLive cont ((content p x).places cont)) rest
    | some (.weak strong ptrSize target) => some fun rest =>
      .upgrade target ((Impl.arc strong ptrSize target).visit.visitLive cont fun _ => none) rest
    | some (.dashMap _ _ KV shards capacity len _) => some fun rest =>
      .enterUnique ptrName ptrBytes .exit
        (LImpl.dashBody KV.size (shards.map fun q =>
          { lock := addr q, capacity := ⟨addr q, capacity q⟩, len := ⟨addr q, len q⟩,
            entries := .load (addr q) fun x => (content q x).shape.entriesVisit.visitLive cont ((content q x).places cont) })) rest
    | some (.dashSet T shards capacity len _) => some fun rest =>
      .enterUnique ptrName ptrBytes .drop
        (LImpl.dashBody T.size (shards.map fun q =>
          { lock := addr q, capacity := ⟨addr q, capacity q⟩, len := ⟨addr q, len q⟩,
            entries := .load (addr q) fun x => (content q x).shape.entriesVisit.visitLive cont ((content q x).places cont) })) rest

/-- Visit of a live value. Models allocative_trait.rs:141, `Allocative::visit` for such values. -/
def LiveDatum.visit [Target] (cont : Ptr → LProg) (v : LiveDatum) : LProg := v.shape.value.visit.visitLive cont (v.places cont)

/-- The same allocation with another value in it. Models impls/std/sync.rs:79-85, 118-123, impls/triomphe.rs:68-74, 102-104. -/
def Cell.with : Cell → Datum → Cell
  | .arc size _, v => .arc size v
  | .rc size _, v => .rc size v
  | .triomphe size _, v => .triomphe size v
  | .thin repr size _, v => .thin repr size v
  | .future _, v => .future v

/-- A shared allocation with a live value: `frame` says what kind of allocation and how large; its own value is not used.
Models impls/std/sync.rs:78-87, 117-125, impls/triomphe.rs:60-76, 94-107, impls/futures.rs:34-37. -/
structure LiveCell where
  frame : Cell
  value : LiveDatum

/-- What is visited inside of `enter_shared`, as `Cell.visit`.
Models impls/std/sync.rs:79-85, 118-123, impls/triomphe.rs:67-74, 101-105, impls/futures.rs:35. -/
def LiveCell.visit [Target] (cont : Ptr → LProg) (c : LiveCell) : LProg :=
  (c.frame.with c.value.shape).visit.visitLive cont (c.value.places cont)

/-- Visit of the pointee at an address, with bounded nesting of pointees (as `Heap.visit`).
Models impls/std/sync.rs:78-87, 117-125. -/
def liveCont [Target] (cells : Ptr → LiveCell) : Nat → Ptr → LProg
  | 0, _ => .panic
  | fuel + 1, p => (cells p).visit (liveCont cells fuel)

/-- `builder.visit_root(v)` for each of some live values. Models flamegraph.rs:359-363. -/
def liveVisits [Target] (cells : Ptr → LiveCell) (fuel : Nat) (roots : List LiveDatum) : List (LProg × Fate) :=
  roots.map fun v => (v.visit (liveCont cells fuel), .exit)

/-- `size_of_unique_allocated_data` (size_of.rs:40-84) of a value that may change: as `SizeOf.sizeOfUniqueAllocatedData`, with the store. -/
noncomputable def SizeOf.sizeOfUniqueAllocatedDataL (env : Env) (root : LProg) (st : Store) (n : Nat) : LResult Nat :=
  match execL SizeOf.visitorImpl env root .root 0 st n with
  | .failed e => .failed e
  | .stuck a => .stuck a
  | .ended s st n ctl =>
    match SizeOf.visitorImpl.finishChild .root .exit ctl s with
    | .error e => .failed e
    | .ok s => .ended s st n ctl

end Allocative
