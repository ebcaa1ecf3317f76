import Verif.Model.Live
import Verif.Spec.Report
import Verif.Spec.Locks
import Verif.Model.Alloc
/-
Specification for C61: what a visit can see of a value that changes.
-/
namespace Allocative

mutual
/-- Put values at the places of a shape: at a place `p` of type `self` the value `f p self`. -/
def Datum.fill (f : Ptr → Option (Ty → Datum)) : Datum → Datum
  | .arc self ptrSize p => match f p with
    | Option.some g => g self
    | Option.none => .arc self ptrSize p
  | .futuresShared self p => match f p with
    | Option.some g => g self
    | Option.none => .futuresShared self p
  -- not a place in real data
  | .weak self strong ptrSize p => match f p with
    | Option.some g => .onceCell self (g strong)
    | Option.none => .weak self strong ptrSize p
  | .box self ptrSize v => .box self ptrSize (v.fill f)
  | .ok self v => .ok self (v.fill f)
  | .err self v => .err self (v.fill f)
  | .some self v => .some self (v.fill f)
  | .left self v => .left self (v.fill f)
  | .right self v => .right self (v.fill f)
  | .vec self T items capacity => .vec self T (Datum.fillAll f items) capacity
  | .vecDeque self T front back capacity => .vecDeque self T (Datum.fillAll f front) (Datum.fillAll f back) capacity
  | .slice self T items => .slice self T (Datum.fillAll f items)
  | .array self T items => .array self T (Datum.fillAll f items)
  | .tuple self fields => .tuple self (Datum.fillAll f fields)
  | .manuallyDrop self v => .manuallyDrop self (v.fill f)
  | .cell self accessible v => .cell self accessible (v.fill f)
  | .onceCell self v => .onceCell self (v.fill f)
  | .map self table keys values => .map self table (Datum.fillAll f keys) (Datum.fillAll f values)
  | .set self table items => .set self table (Datum.fillAll f items)
  | .smallVecInline self T items => .smallVecInline self T (Datum.fillAll f items)
  | .smallVecSpilled self T items capacity => .smallVecSpilled self T (Datum.fillAll f items) capacity
  | .slab self T entry items capacity => .slab self T entry (Datum.fillAll f items) capacity
  | .struct self size labels fields => .struct self size labels (Datum.fillAll f fields)
  | .enum self variant labels fields => .enum self variant labels (Datum.fillAll f fields)
  | .hashTable self T items capacity table => .hashTable self T (Datum.fillAll f items) capacity table
  | .indexSet self T items capacity bucket table => .indexSet self T (Datum.fillAll f items) capacity bucket table
  | .indexMap self K V KV keys values capacity bucket table => .indexMap self K V KV (Datum.fillAll f keys) (Datum.fillAll f values) capacity bucket table
  | .dashMap self K V KV capacity keys values capacityLater len table =>
    .dashMap self K V KV capacity (Datum.fillAll f keys) (Datum.fillAll f values) capacityLater len table
  | .dashSet self T capacity items capacityLater len table => .dashSet self T capacity (Datum.fillAll f items) capacityLater len table
  | .jsonMap self table keys values => .jsonMap self table (Datum.fillAll f keys) (Datum.fillAll f values)
  | .json self variant v => .json self variant (v.fill f)
  | .headerSlice self sizeOfVal header tail => .headerSlice self sizeOfVal (header.fill f) (tail.fill f)
  | .headerWithLength self header len => .headerWithLength self (header.fill f) (len.fill f)
  | .plain self => .plain self
  | .hollow self owned => .hollow self owned
  | .str self len => .str self len
  | .osStr self len => .osStr self len
  | .none self => .none self
  | .string self len capacity => .string self len capacity
  | .pathBuf self len capacity => .pathBuf self len capacity
  | .compactString self heapAllocated len capacity => .compactString self heapAllocated len capacity
  | .cellEmpty self => .cellEmpty self
  | .onceCellEmpty self => .onceCellEmpty self
  | .weakDangling self => .weakDangling self
  | .bigInt self digits heap => .bigInt self digits heap
  | .bump self allocated chunks heap => .bump self allocated chunks heap
  | .jsonLeaf self => .jsonLeaf self
  | .futuresPending self => .futuresPending self
  | .unit self size owned => .unit self size owned
/-- Pointwise. -/
def Datum.fillAll (f : Ptr → Option (Ty → Datum)) : List Datum → List Datum
  | [] => []
  | d :: ds => d.fill f :: Datum.fillAll f ds
end

/-- What is seen of a `DashMap` or `DashSet`, by shard: the values that the memory had when the capacity was read, when it was read again, and when the length was read; and the entries. -/
structure DashSeen where
  capacity : Ptr → Nat
  capacityLater : Ptr → Nat
  len : Ptr → Nat
  entries : Ptr → Datum

/-- The keys of a map. -/
def Datum.keysOf : Datum → List Datum
  | .map _ _ keys _ => keys
  | _ => []

/-- The values of a map. -/
def Datum.valuesOf : Datum → List Datum
  | .map _ _ _ values => values
  | _ => []

/-- The items of a set. -/
def Datum.itemsOf : Datum → List Datum
  | .set _ _ items => items
  | _ => []

/-- What is seen at a place: with `granted = false` (lock held, poisoned or otherwise refusing, cell without content, target of the `Weak` gone) nothing inside; otherwise
the content `d`, or the target of the `Weak`.  A `DashMap` or `DashSet` is seen as `m` says. -/
def PlaceKind.seen (granted : Bool) (d : Datum) (m : DashSeen) (self : Ty) : PlaceKind → Datum
  | .cell _ => if granted then .cell self true d else .cellEmpty self
  | .once => if granted then .onceCell self d else .onceCellEmpty self
  | .weak strong ptrSize target => if granted then .weak self strong ptrSize target else .weakDangling self
  | .dashMap K V KV shards capacity len bytes =>
    .dashMap self K V KV (shards.map fun q => capacity q (m.capacity q)).sum
      (shards.flatMap fun q => (m.entries q).keysOf) (shards.flatMap fun q => (m.entries q).valuesOf)
      (shards.map fun q => capacity q (m.capacityLater q)).sum (shards.map fun q => len q (m.len q)).sum (shards.map fun q => bytes q (m.capacity q)).sum
  | .dashSet T shards capacity len bytes =>
    .dashSet self T (shards.map fun q => capacity q (m.capacity q)).sum (shards.flatMap fun q => (m.entries q).itemsOf)
      (shards.map fun q => capacity q (m.capacityLater q)).sum (shards.map fun q => len q (m.len q)).sum (shards.map fun q => bytes q (m.capacity q)).sum

/-- Does the call that an implementation makes at a place (at address `addr`) get access, in a state of the store?  (That for a `DashMap` or `DashSet` waits until it does.) -/
def PlaceKind.answer (addr : Ptr) (st : Store) : PlaceKind → Bool
  | .cell how => how.granted (st.lock addr)
  | .once => Access.get.granted (st.lock addr)
  | .weak _ _ target => (st.count target).alive
  | .dashMap .. => true
  | .dashSet .. => true

/-- The call by which access to the content of a place is asked for; a `Weak` has no content of its own, and a `DashMap` or `DashSet` has it in its shards. -/
def PlaceKind.how : PlaceKind → Option Access
  | .cell how => some how
  | .once => some .get
  | .weak _ _ _ => none
  | .dashMap .. => none
  | .dashSet .. => none

/-- The shards of a `DashMap` or `DashSet`. -/
def PlaceKind.shards : PlaceKind → List Ptr
  | .dashMap _ _ _ shards _ _ _ => shards
  | .dashSet _ shards _ _ _ => shards
  | _ => []

/-- The moments at which a visit may look at something, as states of the store. -/
structure Looks where
  /-- any moment of the visit -/
  moment : Store → Prop
  /-- a moment at which it may ask for access to the lock or cell at an address -/
  asks : Ptr → Store → Prop
  /-- a moment at which it has access, of this kind, to the lock or cell at an address, and may read what is in it -/
  reads : Access → Ptr → Store → Prop

/-- The moments at which a visit may ask for access to a place. -/
def Looks.asksFor (L : Looks) (addr : Ptr) : PlaceKind → Store → Prop
  | .weak _ _ _ => L.moment
  | .dashMap .. => L.moment
  | .dashSet .. => L.moment
  | _ => L.asks addr

/-- The moments of visits that begin at time `n` in the store `st`, among other threads that do `env`.  If `oneOwner` (below), then a visit does not ask for access to a lock to
which it has access already. -/
def Env.looks (oneOwner : Prop) (env : Env) (st : Store) (n : Nat) : Looks where
  moment st' := ∃ hs, env.Occurs False st n hs st'
  asks a st' := ∃ hs, env.Occurs False st n hs st' ∧ (oneOwner → ∀ how, .lock how a ∉ hs)
  reads how a st' := ∃ hs, env.Occurs False st n hs st' ∧ .lock how a ∈ hs

/-- `m` and `y` can be seen of the shards `l` of a `DashMap` or `DashSet`: the capacity and the length of each shard are those of some moments, and its entries are in `y q`, the value that the memory has at some
moment at which the visit has the read lock of the shard. -/
def Looks.SeesShards (L : Looks) (addr : Ptr → Ptr) (l : List Ptr) (m : DashSeen) (y : Ptr → Nat) : Prop := ∀ q ∈ l,
  (∃ st, L.moment st ∧ st.mem (addr q) = m.capacity q) ∧ (∃ st, L.moment st ∧ st.mem (addr q) = m.capacityLater q) ∧ (∃ st, L.moment st ∧ st.mem (addr q) = m.len q) ∧
    ∃ st, L.reads .read (addr q) st ∧ st.mem (addr q) = y q

/-- `v.Sees L d`: `d` is what a visit can see of `v` if its moments are `L`: at each place either nothing, and then at some moment at which it may ask, access
to the place is refused; or what can be seen of its content, and then at some such moment access is granted, and the content is that of some moment at which the visit has access
to it.  Of a `DashMap` or `DashSet` the entries that can be seen in each shard, with capacities and lengths as they are at some moments. -/
inductive LiveDatum.Sees (L : Looks) : LiveDatum → Datum → Prop
  | still (d : Datum) : Sees L (.still d) d
  | live (shape kind addr content) (granted : Ptr → Bool) (x : Ptr → Nat) (d : Ptr → Datum) (m : Ptr → DashSeen) (y : Ptr → Ptr → Nat) :
      (∀ p k, kind p = some k → ∃ st, L.asksFor (addr p) k st ∧ k.answer (addr p) st = granted p) →
      (∀ p k how, kind p = some k → k.how = some how → granted p = true → ∃ st, L.reads how (addr p) st ∧ st.mem (addr p) = x p) →
      (∀ p k how, kind p = some k → k.how = some how → granted p = true → Sees L (content p (x p)) (d p)) →
      (∀ p k, kind p = some k → L.SeesShards addr k.shards (m p) (y p)) →
      (∀ p k q, kind p = some k → q ∈ k.shards → Sees L (content q (y p q)) ((m p).entries q)) →
      Sees L (.live shape kind addr content) (shape.fill fun p => (kind p).map fun k self => k.seen (granted p) (d p) (m p) self)

/-- What is there now, in one state of the store: each place that grants access with its content. -/
def LiveDatum.now (st : Store) : LiveDatum → Datum
  | .still d => d
  | .live shape kind addr content =>
    shape.fill fun p => (kind p).map fun k self => k.seen (k.answer (addr p) st) ((content p (st.mem (addr p))).now st)
      ⟨fun q => st.mem (addr q), fun q => st.mem (addr q), fun q => st.mem (addr q), fun q => (content q (st.mem (addr q))).now st⟩ self

/-- Each value of a list. -/
inductive LiveDatum.SeesEach (L : Looks) : List LiveDatum → List Datum → Prop
  | nil : SeesEach L [] []
  | cons {v d l l'} : LiveDatum.Sees L v d → SeesEach L l l' → SeesEach L (v :: l) (d :: l')

/-- Two allocations of the same kind, size and name, perhaps with different values. -/
def Cell.SameFrame : Cell → Cell → Prop
  | .arc size _, .arc size' _ => size = size'
  | .rc size _, .rc size' _ => size = size'
  | .triomphe size _, .triomphe size' _ => size = size'
  | .thin repr size _, .thin repr' size' _ => repr = repr' ∧ size = size'
  | .future _, .future _ => True
  | _, _ => False

/-- The same allocation with another value in it. -/
def Alloc.with : Alloc → Datum → Alloc
  | .arc align _, v => .arc align v
  | .rc align _, v => .rc align v
  | .triomphe align _, v => .triomphe align v
  | .thin header elem reprLayout repr len _, v => .thin header elem reprLayout repr len v
  | .future _, v => .future v

/-- What can be seen of a shared allocation: the allocation, with a value that can be seen. -/
def LiveCell.Sees (L : Looks) (c : LiveCell) (c' : Cell) : Prop := c.value.Sees L c'.datum ∧ c.frame.SameFrame c'

/-- What Rust guarantees of what is at a place.  The implementations for locks do not wait; those for `DashMap` and `DashSet` do, for locks that are all in `S`, and no lock in `S` is one that visits ask for exclusively.
The shards of a `DashMap` are different from each other and contain keys and values of its types (those of a `DashSet` items of its type); its tables have room for what they say they have; and its sizes, whenever they are read, are sizes of objects that
can be in memory. -/
def PlaceKind.OK [Target] (S : Ptr → Prop) (addr : Ptr → Ptr) (entries : Ptr → Nat → Datum) (p : Ptr) : PlaceKind → Prop
  | .cell how => how.blocking = false ∧ (S (addr p) → how.exclusive = false)
  | .once => True
  | .weak _ _ _ => True
  | .dashMap K V KV shards capacity len bytes => shards.Nodup ∧ K.size + V.size ≤ KV.size ∧
      (∀ w : Ptr → Nat, (shards.map fun q => capacity q (w q)).sum < Usize.modulus ∧ (shards.map fun q => len q (w q)).sum < Usize.modulus ∧ (shards.map fun q => bytes q (w q)).sum < Usize.modulus) ∧
      ∀ q ∈ shards, S (addr q) ∧ ∀ x, capacity q x * KV.size ≤ bytes q x ∧
        ∃ self table keys values, entries q x = .map self table keys values ∧ Datum.AllOf K keys ∧ Datum.AllOf V values
  | .dashSet T shards capacity len bytes => shards.Nodup ∧
      (∀ w : Ptr → Nat, (shards.map fun q => capacity q (w q)).sum < Usize.modulus ∧ (shards.map fun q => len q (w q)).sum < Usize.modulus ∧ (shards.map fun q => bytes q (w q)).sum < Usize.modulus) ∧
      ∀ q ∈ shards, S (addr q) ∧ ∀ x, capacity q x * T.size ≤ bytes q x ∧ ∃ self table items, entries q x = .set self table items ∧ Datum.AllOf T items

/-- What Rust guarantees of a live value and of everything that can be in its places: the shape is well formed, its places are different from each other, and what is there is as above. -/
def LiveDatum.OK [Target] (S : Ptr → Prop) : LiveDatum → Prop
  | .still d => d.WF
  | .live shape kind addr content => shape.WF ∧ (shape.pointers.filter fun p => (kind p).isSome).Nodup ∧
      (∀ p k, kind p = some k → k.OK S addr (fun q x => (content q x).shape) p) ∧ ∀ p x, (content p x).OK S

/-- Other threads sooner or later let go of the locks in `S`: at whatever moment of a visit, if it does nothing but look from then on, then at some look others do not hold the lock
exclusively.  And the visit's thread does not itself hold it when the visit begins. -/
def Env.LetsGo (S : Ptr → Prop) (env : Env) (st : Store) (n : Nat) : Prop := ∀ a, S a → (st.lock a).heldExclusive = false ∧
  ∀ hs m st', Timeline False env st n hs m st' → ∃ k, ((env.looksAgain m st' k).lock a).othersExclusive = false

/-- Shared allocations that a visit of some roots can reach, depending on what it sees. -/
inductive MayReach (L : Looks) (cells : Ptr → LiveCell) (roots : List LiveDatum) : Ptr → Prop
  | root {v d p} : v ∈ roots → v.Sees L d → p ∈ d.pointers → MayReach L cells roots p
  | step {q d p} : MayReach L cells roots q → (cells q).value.Sees L d → p ∈ d.pointers → MayReach L cells roots p

/-- A lock or cell at address `a` is in the value, or in something that can be in one of its locks. -/
inductive LiveDatum.Has (a : Ptr) : LiveDatum → Prop
  | here {shape kind addr content p k how} : kind p = some k → k.how = some how → addr p = a → Has a (.live shape kind addr content)
  | inside {shape kind addr content p k how x} : kind p = some k → k.how = some how → (content p x).Has a → Has a (.live shape kind addr content)
  | shard {shape kind addr content p k q} : kind p = some k → q ∈ k.shards → addr q = a → Has a (.live shape kind addr content)
  | inShard {shape kind addr content p k q x} : kind p = some k → q ∈ k.shards → (content q x).Has a → Has a (.live shape kind addr content)

/-- No lock is in itself. -/
def LiveDatum.Nested : LiveDatum → Prop
  | .still _ => True
  | .live _ kind addr content => (∀ p k how, kind p = some k → k.how = some how → ∀ x, ¬ (content p x).Has (addr p) ∧ (content p x).Nested) ∧
      ∀ p k q, kind p = some k → q ∈ k.shards → ∀ x, ¬ (content q x).Has (addr q) ∧ (content q x).Nested

/-- Each lock is in one shared allocation or in roots only, and not in itself: what Rust's ownership guarantees if no root is visited that is itself in a shared allocation. -/
structure OneOwner (cells : Ptr → LiveCell) (roots : List LiveDatum) : Prop where
  nestedRoot : ∀ v ∈ roots, v.Nested
  nestedCell : ∀ p, (cells p).value.Nested
  oneCell : ∀ p q a, (cells p).value.Has a → (cells q).value.Has a → p = q
  notBoth : ∀ v ∈ roots, ∀ a, v.Has a → ∀ p, ¬ (cells p).value.Has a

end Allocative
