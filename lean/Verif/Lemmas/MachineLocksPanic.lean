import Verif.Lemmas.MachineLocksStop
import Verif.Spec.Locks
set_option linter.unusedSimpArgs false
/-
Visits beside other threads in a build with overflow checks, without `catch_unwind`: exactly as with unbounded numbers, or a panic.
-/
namespace Allocative
namespace Machine

/-- The result with overflow checks is that with unbounded numbers, or a panic. -/
def OrPanics (r r' : LResult Builder) : Prop := r' = r ∨ ∃ b st t, r' = .ended b st t .unwinding

theorem thenFinish_orPanics [Target] {n : Nat} {kind fate} {r r' : LResult Builder} {k k' : Builder → Store → Nat → LResult Builder} (h : Stops (n + 1) r r') (hp : OrPanics r r')
    (hk : ∀ b n st t, Live b (n + 1) → Fits b → OrPanics (k b st t) (k' b st t)) :
    OrPanics (r.thenFinish Builder.visitorImpl kind fate k) (r'.thenFinish Builder.visitorImpl kind fate k') := by
  cases r' with
  | failed e => exact h.elim
  | stuck a =>
    rcases hp with hp | ⟨_, _, _, hp⟩
    · rw [← hp]; exact .inl rfl
    · cases hp
  | ended b2 st2 t2 ctl =>
    obtain ⟨hf2, m, hl, -⟩ := h
    obtain ⟨b3, e3, h3, -⟩ := Live.finishChild (n := n + m) (by rw [show n + m + 2 = n + 1 + 1 + m by omega]; exact hl) kind fate ctl
    have hf3 : Fits b3 := Fits.of_grows (Grows.of_trees (finishChild_trees e3).symm) hf2
    cases ctl with
    | unwinding => exact .inr ⟨b3, st2, t2, by simp only [LResult.thenFinish, e3]⟩
    | returned =>
      rcases hp with hp | ⟨_, _, _, hp⟩
      · rw [← hp]
        simp only [LResult.thenFinish, e3]
        exact hk b3 (n + m + fate.leaks .returned) st2 t2 (by rw [show n + m + fate.leaks .returned + 1 = n + m + 1 + fate.leaks .returned by omega]; exact h3) hf3
      · cases hp

theorem thenRelease_orPanics [Target] {n : Nat} {r r' : LResult Builder} {f : Nat → Store → Ctl → Store} {k k' : Builder → Store → Nat → LResult Builder} (h : Stops n r r') (hp : OrPanics r r')
    (hk : ∀ b n st t, Live b (n + 1) → Fits b → OrPanics (k b st t) (k' b st t)) : OrPanics (r.thenRelease f k) (r'.thenRelease f k') := by
  cases r' with
  | failed e => exact h.elim
  | stuck a =>
    rcases hp with hp | ⟨_, _, _, hp⟩
    · rw [← hp]; exact .inl rfl
    · cases hp
  | ended b2 st2 t2 ctl =>
    obtain ⟨hf2, m, hl, -⟩ := h
    cases ctl with
    | unwinding => exact .inr ⟨b2, _, _, rfl⟩
    | returned =>
      rcases hp with hp | ⟨_, _, _, hp⟩
      · rw [← hp]
        exact hk b2 (n + m) _ _ (by rw [show n + m + 1 = n + 1 + m by omega]; exact hl) hf2
      · cases hp

theorem execL_orPanics [Target] (env : Env) (prog : LProg) : ∀ (kind : NodeKind) (b : Builder) (n : Nat) (st : Store) (t : Nat), prog.NoCatch → Live b (n + 1) → Fits b →
    OrPanics (Allocative.execL Builder.visitorImpl env prog kind b st t) (execL .on env prog kind b st t) := by
  induction prog with
  | done => intro kind b n st t _ h hf; exact .inl rfl
  | panic => intro kind b n st t _ h hf; exact .inl rfl
  | enter k z f body rest ih1 ih2 =>
    intro kind b n st t hc h hf
    have hi : Builder.visitorImpl.enterInlineImpl b k z kind = b.downAndAdd k z id := rfl
    simp only [execL, Allocative.execL, enterInlineImpl, hi]
    rcases downAndAdd_stops h hf k z false id (by simp) with ⟨b1, e1, e2, h1, f1, -⟩ | ⟨b1, e2, h1, f1⟩
    · simp only [e1, e2]
      exact thenFinish_orPanics (execL_stops env body .inline b1 (n + 1) st t h1 f1) (ih1 .inline b1 (n + 1) st t hc.1 h1 f1) fun b n st t => ih2 kind b n st t hc.2
    · simp only [e2]
      exact .inr ⟨_, _, _, rfl⟩
  | enterUnique k z f body rest ih1 ih2 =>
    intro kind b n st t hc h hf
    have hi : Builder.visitorImpl.enterUniqueImpl b k z kind = b.downAndAdd k z (fun d => { d with unique := true }) := rfl
    simp only [execL, Allocative.execL, enterUniqueImpl, hi]
    rcases downAndAdd_stops h hf k z true (fun d => { d with unique := true }) (by simp) with ⟨b1, e1, e2, h1, f1, -⟩ | ⟨b1, e2, h1, f1⟩
    · simp only [e1, e2]
      exact thenFinish_orPanics (execL_stops env body .unique b1 (n + 1) st t h1 f1) (ih1 .unique b1 (n + 1) st t hc.1 h1 f1) fun b n st t => ih2 kind b n st t hc.2
    · simp only [e2]
      exact .inr ⟨_, _, _, rfl⟩
  | enterShared k z ptr f body rs rn ih1 ih2 ih3 =>
    intro kind b n st t hc h hf
    have hi : Builder.visitorImpl.enterSharedImpl b k z ptr kind = b.enterSharedImpl k z ptr kind := rfl
    simp only [execL, Allocative.execL, hi, enterSharedImpl, Builder.enterSharedImpl]
    rcases downAndAdd_stops h hf k z false id (by simp) with ⟨b1, e1, e2, h1, f1, v1, s1⟩ | ⟨b1, e2, h1, f1⟩
    · simp only [e1, e2]
      by_cases hv : ptr ∈ b1.visitedShared
      · obtain ⟨b2, e3, h2, v2⟩ := h1.exit
        simp only [if_pos hv, e3]
        exact ih3 kind b2 n st t hc.2.2 h2 (Fits.of_grows (Grows.of_trees (exitImpl_trees e3).symm) f1)
      · simp only [if_neg hv]
        have hl := enterShared_live h1 s1 ptr
        exact thenFinish_orPanics (execL_stops env body .shared _ (n + 1) st t hl f1) (ih1 .shared _ (n + 1) st t hc.1 hl f1) fun b n st t => ih2 kind b n st t hc.2.1
    · simp only [e2]
      exact .inr ⟨_, _, _, rfl⟩
  | catchUnwind body rest ih1 ih2 => intro kind b n st t hc; exact hc.elim
  | access how a inside rest ih1 ih2 =>
    intro kind b n st t hc h hf
    simp only [execL, Allocative.execL]
    cases how.call env a t st with
    | none => exact .inl rfl
    | some r =>
      simp only
      split
      · exact thenRelease_orPanics (execL_stops env inside kind b n _ _ h hf) (ih1 kind b n _ _ hc.1 h hf) fun b n st t => ih2 kind b n st t hc.2
      · exact ih2 kind b n _ _ hc.2 h hf
  | upgrade p inside rest ih1 ih2 =>
    intro kind b n st t hc h hf
    simp only [execL, Allocative.execL]
    split
    · exact thenRelease_orPanics (execL_stops env inside kind b n _ _ h hf) (ih1 kind b n _ _ hc.1 h hf) fun b n st t => ih2 kind b n st t hc.2
    · exact ih2 kind b n _ _ hc.2 h hf
  | load a next ih =>
    intro kind b n st t hc h hf
    exact ih _ kind b n _ _ (hc _) h hf

/-- One root on a builder that is between roots: as with unbounded numbers, and nothing overflows, or a panic. -/
theorem useRootL_orPanics [Target] (env : Env) {b : Builder} {recs paths} (h : Idle b recs paths) (hf : Fits b) (prog : LProg) (hc : prog.NoCatch) (fate : Fate) (st : Store) (t : Nat) :
    (useRootL .on env b prog fate st t = b.useRootL env prog fate st t ∧ ∀ b' st' t' ctl, b.useRootL env prog fate st t = .ended b' st' t' ctl → Fits b') ∨
    ∃ b' st' t', useRootL .on env b prog fate st t = .ended b' st' t' .unwinding := by
  have hroot : b.rootVisitor = .ok { b with enteredRootVisitor := true } := by
    simp only [Builder.rootVisitor, h.notEntered, Bool.false_eq_true, if_false]
  have hs := execL_stops env prog .root { b with enteredRootVisitor := true } 0 st t (Idle.live h) hf
  have hp := execL_orPanics env prog .root { b with enteredRootVisitor := true } 0 st t hc (Idle.live h) hf
  cases hr : execL .on env prog .root { b with enteredRootVisitor := true } st t with
  | failed e => rw [hr] at hs; exact hs.elim
  | stuck a =>
    rw [hr] at hp
    rcases hp with hp | ⟨_, _, _, hp⟩
    · refine .inl ⟨?_, fun b' st' t' ctl h' => ?_⟩
      · simp only [useRootL, Builder.useRootL, hroot, hr, ← hp]
      · simp only [Builder.useRootL, hroot, ← hp] at h'; cases h'
    · cases hp
  | ended b1 st1 t1 ctl =>
    rw [hr] at hs hp
    obtain ⟨f1, m, h1, -⟩ := hs
    obtain ⟨b2, e2, -⟩ := root_stops (m := m) (by rw [show m + 1 = 0 + 1 + m by omega]; exact h1) fate ctl
    have f2 : Fits b2 := Fits.of_grows (Grows.of_trees (finishChild_trees e2).symm) f1
    rcases hp with hp | ⟨_, _, _, hp⟩
    · refine .inl ⟨?_, fun b' st' t' ctl h' => ?_⟩
      · simp only [useRootL, Builder.useRootL, hroot, hr, ← hp, e2]
      · simp only [Builder.useRootL, hroot, ← hp, e2] at h'
        cases h'; exact f2
    · cases hp
      exact .inr ⟨b2, st1, t1, by simp only [useRootL, hroot, hr, e2]⟩

end Machine
end Allocative
