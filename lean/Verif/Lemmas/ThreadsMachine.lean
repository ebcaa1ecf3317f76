import Verif.Model.ThreadsMachine
import Verif.Lemmas.Threads
set_option linter.unusedSimpArgs false
namespace Allocative.Machine

/-- The looks of a visit with machine arithmetic, executed among other threads, are the visit. -/
theorem runL_exec [Target] (c : Checks) (env : Env) (p : LProg) : ∀ kind s (k : Builder → Ctl → Run Builder) st n,
    (Machine.runL c p kind s k).exec env st n = (Machine.execL c env p kind s st n).bind fun s st n ctl => (k s ctl).exec env st n := by
  induction p with
  | done => intros; rfl
  | panic => intros; rfl
  | enter name size fate body rest ihb ihr =>
    intro kind s k st n
    simp only [Machine.runL, Machine.execL]
    cases enterInlineImpl c s name size with
    | error => rfl
    | ok x =>
      obtain ⟨s, ctl⟩ := x
      cases ctl with
      | unwinding => rfl
      | returned => dsimp only; rw [ihb]; exact afterChild_exec (ihr kind · k)
  | enterUnique name size fate body rest ihb ihr =>
    intro kind s k st n
    simp only [Machine.runL, Machine.execL]
    cases enterUniqueImpl c s name size with
    | error => rfl
    | ok x =>
      obtain ⟨s, ctl⟩ := x
      cases ctl with
      | unwinding => rfl
      | returned => dsimp only; rw [ihb]; exact afterChild_exec (ihr kind · k)
  | enterShared name size ptr fate body rs rn ihb ihs ihn =>
    intro kind s k st n
    simp only [Machine.runL, Machine.execL]
    cases enterSharedImpl c s name size ptr with
    | error => rfl
    | ok x =>
      obtain ⟨b, s, ctl⟩ := x
      cases ctl with
      | unwinding => cases b <;> rfl
      | returned =>
        cases b with
        | false => exact ihn kind s k st n
        | true => dsimp only; rw [ihb]; exact afterChild_exec (ihs kind · k)
  | catchUnwind body rest ihb ihr =>
    intro kind s k st n
    simp only [Machine.runL, Machine.execL]
    rw [ihb]
    cases Machine.execL c env body kind s st n with
    | failed => rfl
    | stuck => rfl
    | ended s st n ctl => exact ihr kind s k st n
  | access how a inside rest ihi ihr =>
    intro kind s k st n
    simp only [Machine.runL, Machine.execL, Run.exec, Action.wait]
    cases how.call env a n st with
    | none => rfl
    | some x =>
      obtain ⟨st', n'⟩ := x
      simp only [Action.act]
      by_cases hg : how.granted (st'.lock a) = true
      · simp only [hg, if_true]
        rw [ihi]
        cases Machine.execL c env inside kind s _ n' with
        | failed => rfl
        | stuck => rfl
        | ended s st n ctl =>
          cases ctl with
          | unwinding => rfl
          | returned => exact ihr kind s k _ _
      · simp only [hg, if_false]
        exact ihr kind s k _ _
  | upgrade p inside rest ihi ihr =>
    intro kind s k st n
    simp only [Machine.runL, Machine.execL, Run.exec, Action.wait, Action.act]
    by_cases hg : ((env n st).count p).alive = true
    · simp only [hg, if_true]
      rw [ihi]
      cases Machine.execL c env inside kind s _ (n + 1) with
      | failed => rfl
      | stuck => rfl
      | ended s st n ctl =>
        cases ctl with
        | unwinding => rfl
        | returned => exact ihr kind s k _ _
    · simp only [hg, if_false]
      exact ihr kind s k _ _
  | load a next ih =>
    intro kind s k st n
    simp only [Machine.runL, Machine.execL, Run.exec, Action.wait, Action.act]
    exact ih _ kind s k _ _

theorem runRoots_exec [Target] (c : Checks) (env : Env) (hist : List (LProg × Fate)) : ∀ (b : Builder) st n, (Machine.runRoots c b hist).exec env st n = Machine.useRootsL c env b hist st n := by
  induction hist with
  | nil => intros; rfl
  | cons x rest ih =>
    obtain ⟨prog, fate⟩ := x
    intro b st n
    simp only [Machine.runRoots, Machine.runRoot, Machine.useRootsL, Machine.useRootL]
    cases b.rootVisitor with
    | error => rfl
    | ok b =>
      dsimp only
      rw [Machine.runL_exec]
      cases Machine.execL c env prog .root b st n with
      | failed => rfl
      | stuck => rfl
      | ended b st n ctl =>
        simp only [LResult.bind]
        cases Builder.visitorImpl.finishChild .root fate ctl b with
        | error => rfl
        | ok b => exact ih b st n

end Allocative.Machine
