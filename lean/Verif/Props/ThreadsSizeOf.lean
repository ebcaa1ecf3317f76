import Verif.Props.ThreadsAgree
set_option linter.unusedSimpArgs false
/-
C83, continued: `size_of_unique_allocated_data` beside profiles and other such calls.
-/
namespace Allocative
variable {σ τ : Type}

theorem map_exec (f : σ → τ) (env : Env) (r : Run σ) : ∀ st n, (r.map f).exec env st n = (r.exec env st n).bind fun s st n ctl => .ended (f s) st n ctl := by
  induction r with
  | failed e => exact fun _ _ => rfl
  | ended s ctl => exact fun _ _ => rfl
  | look a next ih =>
    intro st n
    simp only [Run.map, Run.exec]
    cases a.wait env n st with
    | none => rfl
    | some x => exact ih _ _ _

theorem runSizeOf_exec (env : Env) (prog : LProg) (st : Store) (n : Nat) : (SizeOf.runSizeOf prog).exec env st n = SizeOf.sizeOfUniqueAllocatedDataL env prog st n := by
  simp only [SizeOf.runSizeOf, SizeOf.sizeOfUniqueAllocatedDataL]
  rw [run_exec]
  cases execL SizeOf.visitorImpl env prog .root 0 st n with
  | failed e => rfl
  | stuck a => rfl
  | ended s st n ctl =>
    simp only [LResult.bind]
    cases SizeOf.visitorImpl.finishChild .root .exit ctl s <;> rfl

/-- C83, for `size_of_unique_allocated_data`.  A thread that calls it, while others profile, call it too, or do anything else that respects locks: once the thread has nothing left to do, no panic has occurred, it has given back all guards and references,
and the result is the memory on the heap of a value in which each place is as it was at moments of the run (but for the bytes that it never counts, C33). -/
theorem C83_size_of [Target] (S : Ptr → Prop) (H : Ptr → LiveCell) (hcells : ∀ p, (H p).value.OK S) (v : LiveDatum) (hv : v.OK S) {k : Nat} {y₀ y : Sys τ} {gs : List Shared} (h : y₀.Reaches k gs y)
    (i fuel : Nat) (f : Nat → τ) (h0 : y₀.threads i = (SizeOf.runSizeOf (v.visit (liveCont H fuel))).map f) (hS : ∀ a, S a → (y₀.shared.lock a).exclusive i = false) (hend : (y.threads i).Finished) :
    ∃ size d, y.threads i = .ended (f size) .returned ∧ y₀.shared.SameHeldBy i y.shared ∧ v.Sees (Sys.looks v.Nested S k i y₀.shared gs) d ∧
      (∀ content, SizeOf.sizeOfUniqueAllocatedData (d.value.visit.visitWith content) = .ok (some size)) ∧ size + d.missed = d.heapBytes := by
  obtain ⟨env, n, st, he, hm, hD, ho, -, hx⟩ := reaches_exec h i (letGo S) (letGo_own S)
  have hx := hx env fun _ _ => rfl
  rw [h0, map_exec, runSizeOf_exec] at hx
  have hgo : env.LetsGo S (y₀.shared.view k i) 0 := by
    intro a ha
    refine ⟨hS a ha, fun hs m st' _ => ⟨n + 1, ?_⟩⟩
    simp only [Env.looksAgain]
    rw [hD _ (by omega)]
    simp only [letGo, ha, if_true]
  obtain ⟨size, st', n', d, hrun, hheld, -, hd, hsz, hb⟩ := C61_size_of S env he H hcells v hv fuel (y₀.shared.view k i) 0 hgo
  obtain ⟨m1, m2, m3⟩ := looks_sys (D := v.Nested) he hm h.first 0
  rw [hrun] at hx
  have e : y.threads i = .ended (f size) .returned ∧ st = st' := by
    revert hx hend
    cases y.threads i with
    | failed e => intro _ h; cases h
    | look a next => intro h; exact h.elim
    | ended s ctl => intro _ h; cases h; exact ⟨rfl, rfl⟩
  obtain ⟨e, rfl⟩ := e
  refine ⟨size, d, e, ⟨fun a => ?_, fun p => ?_⟩, hd.wider m1 m2 m3, hsz, hb⟩
  · exact ⟨(ho.1 a).1.trans (hheld.1 a).1, (ho.1 a).2.trans (hheld.1 a).2⟩
  · exact (ho.2 p).1.trans (hheld.2 p)

/-- C83: threads of different kinds.  A thread that makes a profile among threads of other kinds (whose results are put into one type `τ` by injections like `f`): `C83_each_alone` for such systems: what it does, panics included, is what a visit does alone among some respectful others that show only states of the run. -/
theorem C83_kinds {k : Nat} {y₀ y : Sys τ} {gs : List Shared} (h : y₀.Reaches k gs y) (i : Nat) (hist : List (LProg × Fate)) (f : Builder → τ) (h0 : y₀.threads i = (Builder.default.runRoots hist).map f) :
    ∃ (env : Env) (n : Nat) (st : Store), env.Respectful ∧ (∀ m s, env m s = s ∨ ∃ g ∈ gs, env m s = g.view k i) ∧
      (∀ t ctl, y.threads i = .ended t ctl → ∃ b, t = f b ∧ Builder.default.useRootsL env hist (y₀.shared.view k i) 0 = .ended b st n ctl ∧
        (∀ a, (st.lock a).heldExclusive = (y.shared.lock a).exclusive i ∧ (st.lock a).heldShared = (y.shared.lock a).shared i) ∧ ∀ p, (st.count p).held = (y.shared.count p).held i) ∧
      (∀ e, y.threads i = .failed e → Builder.default.useRootsL env hist (y₀.shared.view k i) 0 = .failed e) := by
  obtain ⟨env, n, st, he, hm, -, ho, -, hx⟩ := reaches_exec h i id (fun _ => ⟨fun _ => ⟨rfl, rfl⟩, fun _ => ⟨rfl, rfl⟩⟩)
  have hx := hx env fun _ _ => rfl
  rw [h0, map_exec, runRoots_exec] at hx
  refine ⟨env, n, st, he, hm, fun t ctl e => ?_, fun e' e => ?_⟩
  · rw [e] at hx
    cases hr : Builder.default.useRootsL env hist (y₀.shared.view k i) 0 with
    | failed e => rw [hr] at hx; cases hx
    | stuck a => rw [hr] at hx; cases hx
    | ended b st' n' ctl' =>
      rw [hr] at hx
      cases hx
      exact ⟨b, rfl, rfl, fun a => ⟨(ho.1 a).1.symm, (ho.1 a).2.symm⟩, fun p => (ho.2 p).1.symm⟩
  · rw [e] at hx
    cases hr : Builder.default.useRootsL env hist (y₀.shared.view k i) 0 with
    | failed e => rw [hr] at hx; cases hx; rfl
    | stuck a => rw [hr] at hx; cases hx
    | ended b st' n' ctl' => rw [hr] at hx; cases hx

/-! A profile of the `Mutex<String>` of C61 and a call of `size_of_unique_allocated_data` for it at the same time; the latter finds the mutex locked, and sees no bytes on the heap. -/
namespace ThreadsEx
open LiveEx (H value value_ok vals_ok S)
attribute [local instance] Target.x64

def u₀ : Sys (Builder ⊕ Nat) := ⟨free, fun i => if i = 0 then (Builder.default.runRoots hist).map .inl else (SizeOf.runSizeOf (value.visit (liveCont H 1))).map .inr⟩

def nextZ (i : Nat) (y : Sys (Builder ⊕ Nat)) : Sys (Builder ⊕ Nat) :=
  match y.threads i with
  | .look a nx => ⟨y.shared.put i (a.act (y.shared.view 2 i)), fun j => if j = i then nx (y.shared.view 2 i) else y.threads j⟩
  | _ => y

def canLookZ (i : Nat) (y : Sys (Builder ⊕ Nat)) : Bool :=
  match y.threads i with
  | .look a _ => a.ready (y.shared.view 2 i)
  | _ => false

theorem nextZ_step (i : Nat) (hi : i < 2) (y : Sys (Builder ⊕ Nat)) (h : canLookZ i y = true) : Sys.Step 2 (some i) y (nextZ i y) := by
  unfold canLookZ at h
  unfold nextZ
  split at h
  · rename_i a nx e
    exact .look hi e h
  · cases h

theorem reachesZ : u₀.Reaches 2 [(nextZ 0 (nextZ 1 (nextZ 0 u₀))).shared, (nextZ 1 (nextZ 0 u₀)).shared, (nextZ 0 u₀).shared, u₀.shared] (nextZ 0 (nextZ 1 (nextZ 0 u₀))) :=
  ((Sys.Reaches.start.step (nextZ_step 0 (by decide) _ rfl)).step (nextZ_step 1 (by decide) _ rfl)).step (nextZ_step 0 (by decide) _ rfl)

example := C83_size_of S H vals_ok value value_ok reachesZ 1 1 .inr rfl (fun _ h => h.elim) (by trivial)
example := C83_kinds reachesZ 0 hist .inl rfl
example : ∃ b, (nextZ 0 (nextZ 1 (nextZ 0 u₀))).threads 0 = .ended (.inl b) .returned ∧ (nextZ 0 (nextZ 1 (nextZ 0 u₀))).threads 1 = .ended (.inr 0) .returned := ⟨_, rfl, rfl⟩

end ThreadsEx

end Allocative
