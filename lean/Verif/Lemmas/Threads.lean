import Verif.Model.Threads
import Verif.Spec.Locks
set_option linter.unusedSimpArgs false
namespace Allocative
variable {σ : Type}

/-- A look among other threads that do `env`, as in `execL`. -/
noncomputable def Action.wait (env : Env) (n : Nat) (st : Store) : Action → Option (Store × Nat)
  | .call how a => how.call env a n st
  | _ => some (env n st, n + 1)

def Action.addr : Action → Ptr
  | .call _ a => a
  | .release _ a _ => a
  | .upgrade a => a
  | .dropRef a => a
  | .load a => a

noncomputable def Run.exec (env : Env) : Run σ → Store → Nat → LResult σ
  | .failed e, _, _ => .failed e
  | .ended s ctl, st, n => .ended s st n ctl
  | .look a next, st, n =>
    match a.wait env n st with
    | none => .stuck a.addr
    | some (st', n') => (next st').exec env (a.act st') n'

noncomputable def LResult.bind {τ : Type} (r : LResult σ) (k : σ → Store → Nat → Ctl → LResult τ) : LResult τ :=
  match r with
  | .failed e => .failed e
  | .stuck a => .stuck a
  | .ended s st n ctl => k s st n ctl

theorem afterChild_exec {impl : VisitorImpl σ} {env : Env} {kind fate} {r : LResult σ} {k : σ → Ctl → Run σ} {g : σ → Run σ} {h : σ → Store → Nat → LResult σ}
    (hg : ∀ s st n, (g s).exec env st n = (h s st n).bind fun s st n ctl => (k s ctl).exec env st n) :
    (r.bind fun s st n ctl => (Run.afterChild impl kind fate ctl s (k · .unwinding) g).exec env st n) =
      (r.thenFinish impl kind fate h).bind fun s st n ctl => (k s ctl).exec env st n := by
  cases r with
  | failed => rfl
  | stuck => rfl
  | ended s st n ctl =>
    simp only [LResult.bind, Run.afterChild, LResult.thenFinish]
    cases impl.finishChild kind fate ctl s with
    | error => rfl
    | ok s =>
      cases ctl with
      | unwinding => rfl
      | returned => exact hg s st n

/-- The looks of a visit, executed among other threads, are the visit. -/
theorem run_exec (impl : VisitorImpl σ) (env : Env) (p : LProg) : ∀ kind s (k : σ → Ctl → Run σ) st n,
    (p.run impl kind s k).exec env st n = (execL impl env p kind s st n).bind fun s st n ctl => (k s ctl).exec env st n := by
  induction p with
  | done => intros; rfl
  | panic => intros; rfl
  | enter name size fate body rest ihb ihr =>
    intro kind s k st n
    simp only [LProg.run, execL]
    cases impl.enterInlineImpl s name size kind with
    | error => rfl
    | ok s => dsimp only; rw [ihb]; exact afterChild_exec (ihr kind · k)
  | enterUnique name size fate body rest ihb ihr =>
    intro kind s k st n
    simp only [LProg.run, execL]
    cases impl.enterUniqueImpl s name size kind with
    | error => rfl
    | ok s => dsimp only; rw [ihb]; exact afterChild_exec (ihr kind · k)
  | enterShared name size ptr fate body rs rn ihb ihs ihn =>
    intro kind s k st n
    simp only [LProg.run, execL]
    cases impl.enterSharedImpl s name size ptr kind with
    | error => rfl
    | ok x =>
      obtain ⟨b, s⟩ := x
      cases b with
      | false => exact ihn kind s k st n
      | true => dsimp only; rw [ihb]; exact afterChild_exec (ihs kind · k)
  | catchUnwind body rest ihb ihr =>
    intro kind s k st n
    simp only [LProg.run, execL]
    rw [ihb]
    cases execL impl env body kind s st n with
    | failed => rfl
    | stuck => rfl
    | ended s st n ctl => exact ihr kind s k st n
  | access how a inside rest ihi ihr =>
    intro kind s k st n
    simp only [LProg.run, execL, Run.exec, Action.wait]
    cases how.call env a n st with
    | none => rfl
    | some x =>
      obtain ⟨st', n'⟩ := x
      simp only [Action.act]
      by_cases hg : how.granted (st'.lock a) = true
      · simp only [hg, if_true]
        rw [ihi]
        cases execL impl env inside kind s _ n' with
        | failed => rfl
        | stuck => rfl
        | ended s st n ctl =>
          cases ctl with
          | unwinding => rfl
          | returned => exact ihr kind s k _ _
      · simp only [hg, if_false]
        exact ihr kind s k _ _
  | upgrade p inside rest ihi ihr =>
    intro kind s k st n
    simp only [LProg.run, execL, Run.exec, Action.wait, Action.act]
    by_cases hg : ((env n st).count p).alive = true
    · simp only [hg, if_true]
      rw [ihi]
      cases execL impl env inside kind s _ (n + 1) with
      | failed => rfl
      | stuck => rfl
      | ended s st n ctl =>
        cases ctl with
        | unwinding => rfl
        | returned => exact ihr kind s k _ _
    · simp only [hg, if_false]
      exact ihr kind s k _ _
  | load a next ih =>
    intro kind s k st n
    simp only [LProg.run, execL, Run.exec, Action.wait, Action.act]
    exact ih _ kind s k _ _

theorem runRoots_exec (env : Env) (hist : List (LProg × Fate)) : ∀ (b : Builder) st n, (b.runRoots hist).exec env st n = b.useRootsL env hist st n := by
  induction hist with
  | nil => intros; rfl
  | cons x rest ih =>
    obtain ⟨prog, fate⟩ := x
    intro b st n
    simp only [Builder.runRoots, Builder.runRoot, Builder.useRootsL, Builder.useRootL]
    cases b.rootVisitor with
    | error => rfl
    | ok b =>
      dsimp only
      rw [run_exec]
      cases execL Builder.visitorImpl env prog .root b st n with
      | failed => rfl
      | stuck => rfl
      | ended b st n ctl =>
        simp only [LResult.bind]
        cases Builder.visitorImpl.finishChild .root fate ctl b with
        | error => rfl
        | ok b => exact ih b st n

/-- The same guards and references of the visit, and the same number of destructor calls by it. -/
def Store.SameOwn (st st' : Store) : Prop :=
  (∀ a, (st'.lock a).heldExclusive = (st.lock a).heldExclusive ∧ (st'.lock a).heldShared = (st.lock a).heldShared) ∧
  (∀ p, (st'.count p).held = (st.count p).held ∧ (st'.count p).destroyed = (st.count p).destroyed)

theorem view_put (k : Nat) (g : Shared) (i : Nat) (a : Action) : (g.put i (a.act (g.view k i))).view k i = a.act (g.view k i) := by
  have hany : ∀ (f : Nat → Bool) (x : Bool), ((List.range k).any fun j => j != i && (if j = i then x else f j)) = (List.range k).any fun j => j != i && f j := by
    intro f x; congr 1; funext j; by_cases h : j = i <;> simp [h]
  have hsum : ∀ (f : Nat → Nat) (x : Nat), (((List.range k).filter (· != i)).map fun j => if j = i then x else f j) = ((List.range k).filter (· != i)).map f := by
    intro f x; apply List.map_congr_left; intro j hj; simp only [List.mem_filter, bne_iff_ne] at hj; rw [if_neg hj.2]
  cases a with
  | load => simp [Action.act, Shared.view, Shared.put, hany, hsum]
  | call how a =>
    simp only [Action.act]
    split
    · simp only [Shared.view, Shared.put, hany, hsum, if_true, Store.mk.injEq, and_true]
      funext b
      by_cases hb : b = a
      · subst hb; cases how <;> simp [setAt, Access.acquire]
      · simp [setAt, hb]
    · simp [Shared.view, Shared.put, hany, hsum]
  | release how a ctl =>
    simp only [Action.act, Shared.view, Shared.put, hany, hsum, if_true, Store.mk.injEq, and_true]
    funext b
    by_cases hb : b = a
    · subst hb; cases how <;> cases ctl <;> simp [setAt, Access.release]
    · simp [setAt, hb]
  | upgrade p =>
    simp only [Action.act]
    split
    · simp only [Shared.view, Shared.put, hany, hsum, if_true, Store.mk.injEq, and_true, true_and]
      funext b
      by_cases hb : b = p
      · subst hb; simp [setAt]
      · simp [setAt, hb]
    · simp [Shared.view, Shared.put, hany, hsum]
  | dropRef p =>
    simp only [Action.act, Shared.view, Shared.put, hany, hsum, if_true, Store.mk.injEq, and_true, true_and]
    funext b
    by_cases hb : b = p
    · subst hb; simp [setAt, CountState.drop]
    · simp [setAt, hb]

theorem call_ready {env : Env} {how : Access} {a : Ptr} {n : Nat} {st : Store} (h : (Action.call how a).ready (env n st) = true) : how.call env a n st = some (env n st, n + 1) := by
  simp only [Action.ready, Bool.or_eq_true, Bool.not_eq_true'] at h
  simp only [Access.call]
  by_cases hg : how.granted ((env n st).lock a) = true
  · rw [if_pos hg]
  · rw [if_neg hg, h.resolve_left hg]; rfl

theorem wait_ready {env : Env} {a : Action} {n : Nat} {st : Store} (h : a.ready (env n st) = true) : a.wait env n st = some (env n st, n + 1) := by
  cases a with
  | call how a => exact call_ready h
  | _ => rfl

/-- What the threads beside thread `i` do, as seen by `i`, is an `Env`. -/
theorem reaches_exec {k : Nat} {y₀ y : Sys σ} {gs : List Shared} (h : y₀.Reaches k gs y) (i : Nat) (D : Store → Store) (hD : ∀ st, Store.SameOwn st (D st)) :
    ∃ (env : Env) (n : Nat) (st : Store), env.Respectful ∧ (∀ m s, env m s = D s ∨ ∃ g ∈ gs, env m s = g.view k i) ∧ (∀ m, n ≤ m → env m = D) ∧ st.SameOwn (y.shared.view k i) ∧
      (∃ g ∈ gs, st.mem = g.mem) ∧
      ∀ env' : Env, (∀ m, m < n → env' m = env m) → (y₀.threads i).exec env' (y₀.shared.view k i) 0 = (y.threads i).exec env' st n := by
  classical
  induction h with
  | start => exact ⟨fun _ => D, 0, _, fun _ st => hD st, fun _ _ => .inl rfl, fun _ _ => rfl, ⟨fun _ => ⟨rfl, rfl⟩, fun _ => ⟨rfl, rfl⟩⟩, ⟨_, List.mem_singleton.2 rfl, rfl⟩, fun _ _ => rfl⟩
  | @step gs y₁ y₂ who hr hs ih =>
    obtain ⟨env, n, st, he, hm, hD', ho, ⟨g0, hg0, hmem⟩, hx⟩ := ih
    have hm' : ∀ m s, env m s = D s ∨ ∃ g ∈ y₂.shared :: gs, env m s = g.view k i := fun m s => (hm m s).imp_right fun ⟨g, hg, e⟩ => ⟨g, List.mem_cons_of_mem _ hg, e⟩
    have hy1 : y₁.shared ∈ gs := by cases hr <;> simp
    cases hs with
    | others hp =>
      refine ⟨env, n, st, he, hm', hD', ⟨fun a => ?_, fun p => ?_⟩, ⟨g0, List.mem_cons_of_mem _ hg0, hmem⟩, hx⟩
      · have := ho.1 a; simp only [Shared.view] at this ⊢; rw [(hp.1 a).1, (hp.1 a).2]; exact this
      · have := ho.2 p; simp only [Shared.view] at this ⊢; rw [(hp.2 p).1, (hp.2 p).2]; exact this
    | @look _ j a next hj ht hrd =>
      by_cases e : i = j
      · subst e
        let env2 : Env := fun m s => if m = n then (if s = st then y₁.shared.view k i else D s) else env m s
        have h2 : env2 n st = y₁.shared.view k i := by simp [env2]
        refine ⟨env2, n + 1, a.act (y₁.shared.view k i), fun m s => ?_, fun m s => ?_, fun m hm0 => ?_, ?_, ?_, fun env' h' => ?_⟩
        · by_cases hmn : m = n
          · by_cases hst : s = st
            · simp only [env2, hmn, hst, if_true]; exact ho
            · simp only [env2, hmn, if_true, hst, if_false]; exact hD s
          · simp only [env2, hmn, if_false]; exact he m s
        · by_cases hmn : m = n
          · by_cases hst : s = st
            · exact .inr ⟨_, List.mem_cons_of_mem _ hy1, by simp [env2, hmn, hst]⟩
            · exact .inl (by simp [env2, hmn, hst])
          · simp only [env2, hmn, if_false]; exact hm' m s
        · have : m ≠ n := by omega
          funext s; simp only [env2, this, if_false]; rw [hD' m (by omega)]
        · dsimp only
          rw [view_put]
          exact ⟨fun _ => ⟨rfl, rfl⟩, fun _ => ⟨rfl, rfl⟩⟩
        · refine ⟨_, List.mem_cons_of_mem _ hy1, ?_⟩
          cases a <;> simp only [Action.act] <;> (try split) <;> rfl
        · rw [hx env' fun m hmn => by rw [h' m (by omega)]; funext s; simp only [env2, Nat.ne_of_lt hmn, if_false], ht]
          have e' : env' n st = y₁.shared.view k i := by rw [h' n (by omega), h2]
          simp only [Run.exec, wait_ready (env := env') (n := n) (st := st) (by rw [e']; exact hrd), e', if_true]
      · refine ⟨env, n, st, he, hm', hD', ⟨fun b => ?_, fun p => ?_⟩, ⟨g0, List.mem_cons_of_mem _ hg0, hmem⟩, ?_⟩
        · have := ho.1 b; simpa only [Shared.view, Shared.put, e, if_false] using this
        · have := ho.2 p; simpa only [Shared.view, Shared.put, e, if_false] using this
        · simpa only [e, if_false] using hx

end Allocative
