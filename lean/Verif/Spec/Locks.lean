import Verif.Model.Locks
import Verif.Spec.Run
/-
Specification vocabulary for C31, C44 and C51.
-/
namespace Allocative

/-- `a; b`. -/
def Prog.seq : Prog → Prog → Prog
  | .done, b => b
  | .panic, _ => .panic
  | .enter k n f body rest, b => .enter k n f body (rest.seq b)
  | .enterUnique k n f body rest, b => .enterUnique k n f body (rest.seq b)
  | .enterShared k n p f body rs rn, b => .enterShared k n p f body (rs.seq b) (rn.seq b)
  | .catchUnwind body rest, b => .catchUnwind body (rest.seq b)

/-- What a visit has taken and not yet given back: access to a lock or cell, a reference made by `Weak::upgrade`. -/
inductive Hold where
  | lock (how : Access) (a : Ptr)
  | ref (p : Ptr)
deriving DecidableEq

/-- `Timeline panics env st n hs m st'`: a visit that starts at time `n` in the store `st` can find the store `st'` at time `m` while it has taken `hs` (the last one first).
Other threads do their steps in the order of time, and in between the visit takes guards and references, and gives them back in reverse order.  A guard may be dropped
by unwinding only if `panics`. -/
inductive Timeline (panics : Prop) (env : Env) (st₀ : Store) (n₀ : Nat) : List Hold → Nat → Store → Prop
  | start : Timeline panics env st₀ n₀ [] n₀ st₀
  | others {hs m st} : Timeline panics env st₀ n₀ hs m st → Timeline panics env st₀ n₀ hs (m + 1) (env m st)
  | acquire (how : Access) (a : Ptr) {hs m st} : Timeline panics env st₀ n₀ hs m st → how.granted (st.lock a) = true →
      Timeline panics env st₀ n₀ (.lock how a :: hs) m { st with lock := setAt st.lock a (how.acquire (st.lock a)) }
  | release (how : Access) (a : Ptr) (ctl : Ctl) {hs m st} : Timeline panics env st₀ n₀ (.lock how a :: hs) m st → (ctl = .unwinding → panics) →
      Timeline panics env st₀ n₀ hs m { st with lock := setAt st.lock a (how.release (st.lock a) ctl) }
  | upgrade (p : Ptr) {hs m st} : Timeline panics env st₀ n₀ hs m st → (st.count p).alive = true →
      Timeline panics env st₀ n₀ (.ref p :: hs) m { st with count := setAt st.count p { st.count p with held := (st.count p).held + 1 } }
  | drop (p : Ptr) {hs m st} : Timeline panics env st₀ n₀ (.ref p :: hs) m st →
      Timeline panics env st₀ n₀ hs m { st with count := setAt st.count p (st.count p).drop }

/-- The states of the store that can occur during a visit while it has taken `hs`. -/
def Env.Occurs (panics : Prop) (env : Env) (st : Store) (n : Nat) : List Hold → Store → Prop := fun hs st' => ∃ m, Timeline panics env st n hs m st'

/-- The visit has the call `how` for the lock or cell at `a`. -/
inductive LProg.Takes (how : Access) (a : Ptr) : LProg → Prop
  | here (i r) : Takes how a (.access how a i r)
  | enterBody (k n f b r) : b.Takes how a → Takes how a (.enter k n f b r)
  | enterRest (k n f b r) : r.Takes how a → Takes how a (.enter k n f b r)
  | uniqueBody (k n f b r) : b.Takes how a → Takes how a (.enterUnique k n f b r)
  | uniqueRest (k n f b r) : r.Takes how a → Takes how a (.enterUnique k n f b r)
  | sharedBody (k n p f b r q) : b.Takes how a → Takes how a (.enterShared k n p f b r q)
  | sharedSome (k n p f b r q) : r.Takes how a → Takes how a (.enterShared k n p f b r q)
  | sharedNone (k n p f b r q) : q.Takes how a → Takes how a (.enterShared k n p f b r q)
  | catchBody (b r) : b.Takes how a → Takes how a (.catchUnwind b r)
  | catchRest (b r) : r.Takes how a → Takes how a (.catchUnwind b r)
  | inside (how' a' i r) : i.Takes how a → Takes how a (.access how' a' i r)
  | after (how' a' i r) : r.Takes how a → Takes how a (.access how' a' i r)
  | upgraded (p i r) : i.Takes how a → Takes how a (.upgrade p i r)
  | afterUpgrade (p i r) : r.Takes how a → Takes how a (.upgrade p i r)
  | loaded (a' next x) : (next x).Takes how a → Takes how a (.load a' next)

/-- The visit has a call that may wait for the lock at `a`. -/
def LProg.WaitsFor (a : Ptr) (p : LProg) : Prop := ∃ how, how.blocking = true ∧ p.Takes how a

/-- Calls that give exclusive access. -/
def Access.exclusive : Access → Bool
  | .stdTryLock => true
  | .tryLock => true
  | _ => false

/-- An exclusive guard of the lock exists, owned by the visit or by somebody else. -/
def LockState.HeldExclusively (s : LockState) : Prop := s.othersExclusive = true ∨ s.heldExclusive = true

/-- From some moment of the visit on, at which it has taken nothing but what it has calls for (`takes`), the lock is exclusively held whenever the visit looks, if it does nothing but
look. -/
def Env.HeldForEver (panics : Prop) (env : Env) (takes : Access → Ptr → Prop) (st : Store) (n : Nat) (a : Ptr) : Prop :=
  ∃ hs m st', Timeline panics env st n hs m st' ∧ (∀ how b, .lock how b ∈ hs → takes how b) ∧ ∀ k, ((env.looksAgain m st' k).lock a).HeldExclusively

/-- Ways to read a visit with locks as one without, when the states of the store during the visit while it has taken `hs` are among `I hs`: at each lock and weak pointer,
either what is behind it is visited, and then some state grants access to it, or nothing, and then some state refuses; each read of shared memory gives a value that is there in
some state.  These are states in which the visit has taken exactly what it has taken around that place (`hs`).  What is behind a lock that is waited for is always visited, unless the
lock is one of `W`, for which the visit may wait for ever (then it does not end, unless by a panic before it gets there). -/
inductive Resolves (I : List Hold → Store → Prop) (W : Ptr → Prop) : List Hold → LProg → Prog → Prop
  | done {hs} : Resolves I W hs .done .done
  | panic {hs} : Resolves I W hs .panic .panic
  | enter (k n f) {hs b b' r r'} : Resolves I W hs b b' → Resolves I W hs r r' → Resolves I W hs (.enter k n f b r) (.enter k n f b' r')
  | enterUnique (k n f) {hs b b' r r'} : Resolves I W hs b b' → Resolves I W hs r r' → Resolves I W hs (.enterUnique k n f b r) (.enterUnique k n f b' r')
  | enterShared (k n p f) {hs b b' r r' q q'} : Resolves I W hs b b' → Resolves I W hs r r' → Resolves I W hs q q' →
      Resolves I W hs (.enterShared k n p f b r q) (.enterShared k n p f b' r' q')
  | catchUnwind {hs b b' r r'} : Resolves I W hs b b' → Resolves I W hs r r' → Resolves I W hs (.catchUnwind b r) (.catchUnwind b' r')
  | visited (h a) {hs st i i' r r'} : I hs st → h.granted (st.lock a) = true → Resolves I W (.lock h a :: hs) i i' → Resolves I W hs r r' →
      Resolves I W hs (.access h a i r) (i'.seq r')
  | skipped (h a i) {hs st r r'} : I hs st → h.granted (st.lock a) = false → (h.blocking = true → W a) → Resolves I W hs r r' → Resolves I W hs (.access h a i r) r'
  | alive (p) {hs st i i' r r'} : I hs st → (st.count p).alive = true → Resolves I W (.ref p :: hs) i i' → Resolves I W hs r r' → Resolves I W hs (.upgrade p i r) (i'.seq r')
  | dead (p i) {hs st r r'} : I hs st → (st.count p).alive = false → Resolves I W hs r r' → Resolves I W hs (.upgrade p i r) r'
  | read (a next) {hs st r'} : I hs st → Resolves I W hs (next (st.mem a)) r' → Resolves I W hs (.load a next) r'

/-- The visit does not catch panics. -/
def LProg.NoCatch : LProg → Prop
  | .done => True
  | .panic => True
  | .enter _ _ _ b r => b.NoCatch ∧ r.NoCatch
  | .enterUnique _ _ _ b r => b.NoCatch ∧ r.NoCatch
  | .enterShared _ _ _ _ b r q => b.NoCatch ∧ r.NoCatch ∧ q.NoCatch
  | .catchUnwind _ _ => False
  | .access _ _ i r => i.NoCatch ∧ r.NoCatch
  | .upgrade _ i r => i.NoCatch ∧ r.NoCatch
  | .load _ next => ∀ x, (next x).NoCatch

/-- No call of the visit can wait. -/
def LProg.NeverWaits : LProg → Prop
  | .done => True
  | .panic => True
  | .enter _ _ _ b r => b.NeverWaits ∧ r.NeverWaits
  | .enterUnique _ _ _ b r => b.NeverWaits ∧ r.NeverWaits
  | .enterShared _ _ _ _ b r q => b.NeverWaits ∧ r.NeverWaits ∧ q.NeverWaits
  | .catchUnwind b r => b.NeverWaits ∧ r.NeverWaits
  | .access h _ i r => h.blocking = false ∧ i.NeverWaits ∧ r.NeverWaits
  | .upgrade _ i r => i.NeverWaits ∧ r.NeverWaits
  | .load _ next => ∀ x, (next x).NeverWaits

/-- The visit does not panic by itself. -/
def LProg.NoPanic : LProg → Prop
  | .done => True
  | .panic => False
  | .enter _ _ _ b r => b.NoPanic ∧ r.NoPanic
  | .enterUnique _ _ _ b r => b.NoPanic ∧ r.NoPanic
  | .enterShared _ _ _ _ b r q => b.NoPanic ∧ r.NoPanic ∧ q.NoPanic
  | .catchUnwind b r => b.NoPanic ∧ r.NoPanic
  | .access _ _ i r => i.NoPanic ∧ r.NoPanic
  | .upgrade _ i r => i.NoPanic ∧ r.NoPanic
  | .load _ next => ∀ x, (next x).NoPanic

/-- Other threads do not own the guards and references of the visit, and the visit's own destructor calls are its own. -/
def Env.Respectful (env : Env) : Prop := ∀ n st,
  (∀ a, ((env n st).lock a).heldExclusive = (st.lock a).heldExclusive ∧ ((env n st).lock a).heldShared = (st.lock a).heldShared) ∧
  (∀ p, ((env n st).count p).held = (st.count p).held ∧ ((env n st).count p).destroyed = (st.count p).destroyed)

/-- No other thread does anything. -/
def Env.quiet : Env := fun _ st => st

/-- The same guards and references are held by the visit. -/
def Store.SameHeld (st st' : Store) : Prop :=
  (∀ a, (st'.lock a).heldExclusive = (st.lock a).heldExclusive ∧ (st'.lock a).heldShared = (st.lock a).heldShared) ∧
  (∀ p, (st'.count p).held = (st.count p).held)

/-- Everything is the same except that mutexes may have become poisoned. -/
def Store.SameButPoison (st st' : Store) : Prop :=
  (∀ a, st'.lock a = { st.lock a with poisoned := (st'.lock a).poisoned }) ∧ (∀ p, st'.count p = st.count p) ∧ st'.mem = st.mem

/-- The visit without locks that a visit with locks amounts to when nobody else runs and the store is `st`: what is behind a lock is
visited if the lock grants access, where locks held further out count as taken. -/
def LProg.resolveIn : LProg → Store → Prog
  | .done, _ => .done
  | .panic, _ => .panic
  | .enter k n f b r, st => .enter k n f (b.resolveIn st) (r.resolveIn st)
  | .enterUnique k n f b r, st => .enterUnique k n f (b.resolveIn st) (r.resolveIn st)
  | .enterShared k n p f b r q, st => .enterShared k n p f (b.resolveIn st) (r.resolveIn st) (q.resolveIn st)
  | .catchUnwind b r, st => .catchUnwind (b.resolveIn st) (r.resolveIn st)
  | .access h a i r, st =>
    if h.granted (st.lock a) then (i.resolveIn { st with lock := setAt st.lock a (h.acquire (st.lock a)) }).seq (r.resolveIn st)
    else r.resolveIn st
  | .upgrade p i r, st =>
    if (st.count p).alive then
      (i.resolveIn { st with count := setAt st.count p { st.count p with held := (st.count p).held + 1 } }).seq (r.resolveIn st)
    else r.resolveIn st
  | .load a next, st => (next (st.mem a)).resolveIn st

/-- No call of the visit waits when nobody else runs and the store is `st`. -/
def LProg.AvailableIn : LProg → Store → Prop
  | .done, _ => True
  | .panic, _ => True
  | .enter _ _ _ b r, st => b.AvailableIn st ∧ r.AvailableIn st
  | .enterUnique _ _ _ b r, st => b.AvailableIn st ∧ r.AvailableIn st
  | .enterShared _ _ _ _ b r q, st => b.AvailableIn st ∧ r.AvailableIn st ∧ q.AvailableIn st
  | .catchUnwind b r, st => b.AvailableIn st ∧ r.AvailableIn st
  | .access h a i r, st =>
    if h.granted (st.lock a) then
      i.AvailableIn { st with lock := setAt st.lock a (h.acquire (st.lock a)) } ∧ r.AvailableIn st
    else h.blocking = false ∧ r.AvailableIn st
  | .upgrade p i r, st =>
    if (st.count p).alive then
      i.AvailableIn { st with count := setAt st.count p { st.count p with held := (st.count p).held + 1 } } ∧ r.AvailableIn st
    else r.AvailableIn st
  | .load a next, st => (next (st.mem a)).AvailableIn st

/-- Every visitor is exited or dropped (as `Prog.Closes`). -/
def LProg.Closes : LProg → Prop
  | .done => True
  | .panic => True
  | .enter _ _ f b r => (f = .exit ∨ f = .drop) ∧ b.Closes ∧ r.Closes
  | .enterUnique _ _ f b r => (f = .exit ∨ f = .drop) ∧ b.Closes ∧ r.Closes
  | .enterShared _ _ _ f b r q => (f = .exit ∨ f = .drop) ∧ b.Closes ∧ r.Closes ∧ q.Closes
  | .catchUnwind b r => b.Closes ∧ r.Closes
  | .access _ _ i r => i.Closes ∧ r.Closes
  | .upgrade _ i r => i.Closes ∧ r.Closes
  | .load _ next => ∀ x, (next x).Closes

/-- Each program of a history is resolved. -/
inductive ResolvesEach (I : List Hold → Store → Prop) (W : Ptr → Prop) : List (LProg × Fate) → List (Prog × Fate) → Prop
  | nil : ResolvesEach I W [] []
  | cons {p q f l l'} : Resolves I W [] p q → ResolvesEach I W l l' → ResolvesEach I W ((p, f) :: l) ((q, f) :: l')

/-- A visit without locks, as one with. -/
def Prog.lift : Prog → LProg
  | .done => .done
  | .panic => .panic
  | .enter k n f b r => .enter k n f b.lift r.lift
  | .enterUnique k n f b r => .enterUnique k n f b.lift r.lift
  | .enterShared k n p f b r q => .enterShared k n p f b.lift r.lift q.lift
  | .catchUnwind b r => .catchUnwind b.lift r.lift

end Allocative
