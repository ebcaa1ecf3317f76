import Verif.Model.Threads
import Verif.Spec.Live
/-
Specification for C83: several profiles of the same data at the same time.
-/
namespace Allocative
variable {σ : Type}

/-- The profiling thread `i` of `k` finds `st` when what is shared is `g`, whatever `i` itself holds.  (Of the locks in `S`, those for which visits wait, only what is in them.) -/
def Shared.SeenAs (S : Ptr → Prop) (k i : Nat) (g : Shared) (st : Store) : Prop :=
  st.mem = g.mem ∧ (∀ p, (st.count p).others = ((g.view k i).count p).others) ∧
  ∀ a, ¬ S a → (st.lock a).othersExclusive = ((g.view k i).lock a).othersExclusive ∧ (st.lock a).othersShared = ((g.view k i).lock a).othersShared ∧
    (st.lock a).refuses = (g.lock a).refuses ∧ (st.lock a).poisoned = (g.lock a).poisoned ∧ (st.lock a).init = (g.lock a).init

/-- The moments at which the profiling thread `i` may look, if what is shared was `gs` during the run, and `g₀` at first. -/
def Sys.looks (oneOwner : Prop) (S : Ptr → Prop) (k i : Nat) (g₀ : Shared) (gs : List Shared) : Looks where
  moment st := ∃ g ∈ gs, g.SeenAs S k i st
  asks a st := (∃ g ∈ gs, g.SeenAs S k i st) ∧ (oneOwner → (st.lock a).heldExclusive = (g₀.lock a).exclusive i ∧ (st.lock a).heldShared = (g₀.lock a).shared i)
  reads how a st := (∃ g ∈ gs, g.SeenAs S k i st) ∧ (how ≠ .get → (st.lock a).heldExclusive = true ∨ 0 < (st.lock a).heldShared)

/-- The thread has nothing left to do. -/
def Run.Finished : Run σ → Prop
  | .look _ _ => False
  | _ => True

/-- The thread `i` has the same guards and references as before. -/
def Shared.SameHeldBy (i : Nat) (g g' : Shared) : Prop :=
  (∀ a, (g'.lock a).exclusive i = (g.lock a).exclusive i ∧ (g'.lock a).shared i = (g.lock a).shared i) ∧ ∀ p, (g'.count p).held i = (g.count p).held i

/-- An infinite run: `who n` makes the step from `y n` to `y (n + 1)`. -/
def Sys.Runs (k : Nat) (who : Nat → Option Nat) (y : Nat → Sys σ) : Prop := ∀ n, Sys.Step k (who n) (y n) (y (n + 1))

/-- The next look of the thread is one that can take place now. -/
def Sys.CanLook (k i : Nat) (y : Sys σ) : Prop := ∃ a next, y.threads i = .look a next ∧ a.ready (y.shared.view k i) = true

/-- The scheduler does not forget the thread: at no moment is it so that from then on the thread can always look but never does. -/
def Sys.FairTo (k i : Nat) (who : Nat → Option Nat) (y : Nat → Sys σ) : Prop := ∀ n, ∃ m, n ≤ m ∧ (who m = some i ∨ ¬ (y m).CanLook k i)

/-- The thread waits for a lock that is held exclusively. -/
def Sys.WaitsAt (k i : Nat) (a : Ptr) (y : Sys σ) : Prop :=
  (∃ how next, y.threads i = .look (.call how a) next ∧ how.blocking = true) ∧ ((y.shared.view k i).lock a).HeldExclusively

/-- Guards exclude each other: while one of the `k` profiling threads has an exclusive guard, nobody else has a guard of this lock. -/
def Shared.Excluding (k : Nat) (g : Shared) : Prop :=
  ∀ a i, i < k → (g.lock a).exclusive i = true →
    (g.lock a).outsideExclusive = false ∧ (g.lock a).outsideShared = 0 ∧ ∀ j, j < k → (g.lock a).shared j = 0 ∧ (j ≠ i → (g.lock a).exclusive j = false)

/-- Nobody has an exclusive guard at the same time as another one has a guard, guards of outsiders included. -/
def Shared.Readers (k : Nat) (g : Shared) : Prop :=
  ∀ a i, i < k → 0 < (g.lock a).shared i → (g.lock a).outsideExclusive = false ∧ ∀ j, j < k → (g.lock a).exclusive j = false

/-- There is no strong reference to the shared allocation `p`. -/
def Shared.Dead (k : Nat) (p : Ptr) (g : Shared) : Prop := (g.count p).outside = 0 ∧ ∀ j, j < k → (g.count p).held j = 0

/-- How many times profiling threads ran the destructor of the content of `p`. -/
def Shared.destructions (k : Nat) (p : Ptr) (g : Shared) : Nat := ((List.range k).map (g.count p).destroyed).sum

end Allocative
