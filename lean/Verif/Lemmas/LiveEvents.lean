import Verif.Spec.LiveEvents
import Verif.Lemmas.Events
import Verif.Lemmas.MachineLocks
set_option linter.unusedSimpArgs false
/-
The log does not influence visits beside other threads.
-/
namespace Allocative

theorem thenFinish_erase {σ} (impl : VisitorImpl σ) (kind : NodeKind) (fate : Fate) (r : LResult (σ × List Event)) (k' : σ × List Event → Store → Nat → LResult (σ × List Event))
    (k : σ → Store → Nat → LResult σ) (h : ∀ s evs st n, (k' (s, evs) st n).mapS Prod.fst = k s st n) :
    (r.thenFinish impl.logged kind fate k').mapS Prod.fst = (r.mapS Prod.fst).thenFinish impl kind fate k := by
  cases r with
  | failed e => rfl
  | stuck a => rfl
  | ended s st n ctl =>
    obtain ⟨s, evs⟩ := s
    simp only [LResult.mapS, LResult.thenFinish, logged_finishChild]
    cases impl.finishChild kind fate ctl s with
    | error e => rfl
    | ok s' => cases ctl with
      | unwinding => rfl
      | returned => exact h s' _ st n

theorem thenRelease_erase {σ} (r : LResult (σ × List Event)) (f : Nat → Store → Ctl → Store) (k' : σ × List Event → Store → Nat → LResult (σ × List Event))
    (k : σ → Store → Nat → LResult σ) (h : ∀ s evs st n, (k' (s, evs) st n).mapS Prod.fst = k s st n) :
    (r.thenRelease f k').mapS Prod.fst = (r.mapS Prod.fst).thenRelease f k := by
  cases r with
  | failed e => rfl
  | stuck a => rfl
  | ended s st n ctl => obtain ⟨s, evs⟩ := s; cases ctl with
    | unwinding => rfl
    | returned => exact h s _ _ _

theorem execL_logged_erase {σ} (impl : VisitorImpl σ) (env : Env) (prog : LProg) : ∀ (kind : NodeKind) (s : σ) (evs : List Event) (st : Store) (n : Nat),
    (execL impl.logged env prog kind (s, evs) st n).mapS Prod.fst = execL impl env prog kind s st n := by
  induction prog with
  | done => intro kind s evs st n; rfl
  | panic => intro kind s evs st n; rfl
  | enter k z f body rest ih1 ih2 =>
    intro kind s evs st n
    simp only [execL, logged_inline]
    cases impl.enterInlineImpl s k z kind with
    | error e => rfl
    | ok s1 =>
      simp only
      rw [thenFinish_erase impl _ _ _ _ _ (ih2 kind), ih1]
  | enterUnique k z f body rest ih1 ih2 =>
    intro kind s evs st n
    simp only [execL, logged_unique]
    cases impl.enterUniqueImpl s k z kind with
    | error e => rfl
    | ok s1 =>
      simp only
      rw [thenFinish_erase impl _ _ _ _ _ (ih2 kind), ih1]
  | enterShared k z ptr f body rs rn ih1 ih2 ih3 =>
    intro kind s evs st n
    simp only [execL, logged_shared]
    cases impl.enterSharedImpl s k z ptr kind with
    | error e => rfl
    | ok r =>
      obtain ⟨some, s1⟩ := r
      cases some with
      | false => exact ih3 kind s1 _ st n
      | true =>
        simp only
        rw [thenFinish_erase impl _ _ _ _ _ (ih2 kind), ih1]
  | catchUnwind body rest ih1 ih2 =>
    intro kind s evs st n
    simp only [execL]
    rw [← ih1 kind s evs st n]
    cases execL impl.logged env body kind (s, evs) st n with
    | failed e => rfl
    | stuck a => rfl
    | ended s1 st1 n1 ctl => obtain ⟨s1, evs1⟩ := s1; exact ih2 kind s1 _ _ _
  | access how a inside rest ih1 ih2 =>
    intro kind s evs st n
    simp only [execL]
    cases how.call env a n st with
    | none => rfl
    | some r =>
      simp only
      split
      · rw [thenRelease_erase _ _ _ _ (ih2 kind), ih1]
      · exact ih2 kind s _ _ _
  | upgrade p inside rest ih1 ih2 =>
    intro kind s evs st n
    simp only [execL]
    split
    · rw [thenRelease_erase _ _ _ _ (ih2 kind), ih1]
    · exact ih2 kind s _ _ _
  | load a next ih =>
    intro kind s evs st n
    exact ih _ kind s _ _ _

theorem useRootsLLogged_erase (env : Env) (hist : List (LProg × Fate)) : ∀ (b : Builder) (evs : List Event) (st : Store) (n : Nat),
    (b.useRootsLLogged env evs hist st n).mapS Prod.fst = b.useRootsL env hist st n := by
  induction hist with
  | nil => intro b evs st n; rfl
  | cons x rest ih =>
    intro b evs st n
    obtain ⟨prog, fate⟩ := x
    simp only [Builder.useRootsLLogged, Builder.useRootsL, Builder.useRootLLogged, Builder.useRootL]
    cases b.rootVisitor with
    | error e => rfl
    | ok b1 =>
      simp only
      rw [← execL_logged_erase Builder.visitorImpl env prog .root b1 (evs ++ [.root]) st n]
      cases execL Builder.visitorImpl.logged env prog .root (b1, evs ++ [.root]) st n with
      | failed e => rfl
      | stuck a => rfl
      | ended s st1 n1 ctl =>
        obtain ⟨b2, evs2⟩ := s
        simp only [LResult.mapS, logged_finishChild]
        cases Builder.visitorImpl.finishChild .root fate ctl b2 with
        | error e => rfl
        | ok b3 => exact ih b3 _ st1 n1

end Allocative
