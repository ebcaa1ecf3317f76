import Verif.Lemmas.ThreadsMachine
import Verif.Props.ThreadsAgree
import Verif.Props.LiveMachine
set_option linter.unusedSimpArgs false
/-
C83, continued: several profiles at the same time with machine arithmetic.
-/
namespace Allocative

/-- C83 with C79.  A thread that profiles `roots` with machine arithmetic (`c = .off` a release build, `.on` a debug build), while others profile or do anything else that respects locks.  Once it has nothing left to do, there is a snapshot of the data, in
which each place is as it was at moments of the run, such that:
- in a release build no panic has occurred, whatever the sizes, it has given everything back, and its builder reports the snapshot with sums cut to the bits of a usize;
- if no stack of the snapshot has a sum of `usize::MAX + 1` or more, the same holds in a debug build, and the builder is that for unbounded numbers;
- if some stack has, a debug build gets no profile: `finish` panics, if it is reached;
- if all sizes of the snapshot together are less than `isize::MAX + 1`, `finish` gives in both builds exactly the report of the snapshot. -/
theorem C83_machine [Target] (c : Machine.Checks) (S : Ptr → Prop) (H : Ptr → LiveCell) (hcells : ∀ p, (H p).value.OK S) (roots : List LiveDatum) (hroots : ∀ v ∈ roots, v.OK S) {k : Nat} {y₀ y : Sys Builder} {gs : List Shared}
    (h : y₀.Reaches k gs y) (i fuel : Nat) (h0 : y₀.threads i = Machine.runRoots c Builder.default (liveVisits H fuel roots)) (hS : ∀ a, S a → (y₀.shared.lock a).exclusive i = false)
    (L : List Ptr) (hn : L.Nodup) (hL : ∀ p, MayReach (Sys.looks (OneOwner H roots) S k i y₀.shared gs) H roots p → p ∈ L) (hf : L.length ≤ fuel) (hend : (y.threads i).Finished) :
    ∃ (ds : List Datum) (cells : Ptr → Cell) (reached : List Ptr) (recs : List Rec),
      LiveDatum.SeesEach (Sys.looks (OneOwner H roots) S k i y₀.shared gs) roots ds ∧ (∀ p, (H p).Sees (Sys.looks (OneOwner H roots) S k i y₀.shared gs) (cells p)) ∧ reached.Nodup ∧
      (∀ p, p ∈ reached ↔ ReachableCell cells ds p) ∧ recs = ds.flatMap (fun d => d.report []) ++ reached.flatMap (fun p => (cells p).report) ∧
      (c = .off → ∃ b', y.threads i = .ended b' .returned ∧ y₀.shared.SameHeldBy i y.shared ∧ b'.ReportsWrapped recs) ∧
      ((∀ p, sizeAt recs p < Usize.modulus) → ∃ b, y.threads i = .ended b .returned ∧ y₀.shared.SameHeldBy i y.shared ∧
        ((recs.map Rec.size).sum < Usize.half → b.Reports recs ∧ ∀ c ord, Machine.finish c ord b = b.finish ord)) ∧
      (c = .on → ∀ p, Usize.modulus ≤ sizeAt recs p → ∀ b1 ctl, y.threads i = .ended b1 ctl → ∀ ord out, Machine.finish .on ord b1 ≠ .ok out) := by
  obtain ⟨env, n, st, he, hm, hD, ho, -, hx⟩ := reaches_exec h i (letGo S) (letGo_own S)
  have hx := hx env fun _ _ => rfl
  rw [h0, Machine.runRoots_exec] at hx
  have hgo : env.LetsGo S (y₀.shared.view k i) 0 := by
    intro a ha
    refine ⟨hS a ha, fun hs m st' _ => ⟨n + 1, ?_⟩⟩
    simp only [Env.looksAgain]
    rw [hD _ (by omega)]
    simp only [letGo, ha, if_true]
  obtain ⟨m1, m2, m3⟩ := looks_sys (D := OneOwner H roots) he hm h.first 0
  obtain ⟨b, b', st', n', hrun, hheld, ds, cells, reached, recs, g1, g2, g3, g4, g5, g6, g7, g8, g9, g10⟩ :=
    C79_live S env he H hcells roots hroots (y₀.shared.view k i) 0 hgo L hn (fun p hp => hL p (hp.wider m1 m2 m3)) fuel hf
  have fin : ∀ b', Machine.useRootsL c env Builder.default (liveVisits H fuel roots) (y₀.shared.view k i) 0 = .ended b' st' n' .returned → y.threads i = .ended b' .returned ∧ y₀.shared.SameHeldBy i y.shared := by
    intro b' hr
    rw [hr] at hx
    have e : y.threads i = .ended b' .returned ∧ st = st' := by
      revert hx hend
      cases y.threads i with
      | failed e => intro _ h; cases h
      | look a next => intro h; exact h.elim
      | ended s ctl => intro _ h; cases h; exact ⟨rfl, rfl⟩
    obtain ⟨e, rfl⟩ := e
    exact ⟨e, fun a => ⟨(ho.1 a).1.trans (hheld.1 a).1, (ho.1 a).2.trans (hheld.1 a).2⟩, fun p => (ho.2 p).1.trans (hheld.2 p)⟩
  refine ⟨ds, cells, reached, recs, g1.wider m1 m2 m3, fun p => (g2 p).wider m1 m2 m3, g3, g4, g5, ?_, ?_, ?_⟩
  · rintro rfl
    obtain ⟨f1, f2⟩ := fin b' g6
    exact ⟨b', f1, f2, g7⟩
  · intro hz
    obtain ⟨f1, f2⟩ := fin b (g8 hz c)
    exact ⟨b, f1, f2, g10⟩
  · rintro rfl p hz b1 ctl e ord out
    refine g9 p hz b1 st n ctl ?_ ord out
    rw [hx, e]
    rfl

/-- C83 with C79, arbitrary visits (leaks, panics and `catch_unwind` included): each of several threads that profile at the same time with machine arithmetic does what it would do alone among some other threads that respect its guards and show it only states of the run. -/
theorem C83_machine_alone [Target] (c : Machine.Checks) {k : Nat} {y₀ y : Sys Builder} {gs : List Shared} (h : y₀.Reaches k gs y) (i : Nat) (hist : List (LProg × Fate)) (h0 : y₀.threads i = Machine.runRoots c Builder.default hist) :
    ∃ (env : Env) (n : Nat) (st : Store), env.Respectful ∧ (∀ m s, env m s = s ∨ ∃ g ∈ gs, env m s = g.view k i) ∧
      (∀ b ctl, y.threads i = .ended b ctl → Machine.useRootsL c env Builder.default hist (y₀.shared.view k i) 0 = .ended b st n ctl ∧
        (∀ a, (st.lock a).heldExclusive = (y.shared.lock a).exclusive i ∧ (st.lock a).heldShared = (y.shared.lock a).shared i) ∧ ∀ p, (st.count p).held = (y.shared.count p).held i) ∧
      (∀ e, y.threads i = .failed e → Machine.useRootsL c env Builder.default hist (y₀.shared.view k i) 0 = .failed e) := by
  obtain ⟨env, n, st, he, hm, -, ho, -, hx⟩ := reaches_exec h i id (fun _ => ⟨fun _ => ⟨rfl, rfl⟩, fun _ => ⟨rfl, rfl⟩⟩)
  have hx := hx env fun _ _ => rfl
  rw [h0, Machine.runRoots_exec] at hx
  refine ⟨env, n, st, he, hm, fun b ctl e => ⟨by rw [hx, e]; rfl, fun a => ?_, fun p => (ho.2 p).1.symm⟩, fun e' e => by rw [hx, e]; rfl⟩
  exact ⟨(ho.1 a).1.symm, (ho.1 a).2.symm⟩

/-- C83 with C79: whatever the visits do (leaks, panics of user code, overflow panics), whatever the other profiles and other threads do: a profile whose visits have ended holds the guards and references that it held before. -/
theorem C83_given_back [Target] (c : Machine.Checks) {k : Nat} {y₀ y : Sys Builder} {gs : List Shared} (h : y₀.Reaches k gs y) (i : Nat) (hist : List (LProg × Fate)) (h0 : y₀.threads i = Machine.runRoots c Builder.default hist)
    {b : Builder} {ctl : Ctl} (hb : y.threads i = .ended b ctl) : y₀.shared.SameHeldBy i y.shared := by
  obtain ⟨env, n, st, he, -, hE, -⟩ := C83_machine_alone c h i hist h0
  obtain ⟨hr, ho, hp⟩ := hE b ctl hb
  have hheld := (C79_given_back c env he (y₀.shared.view k i) 0).1 Builder.default hist b st n ctl hr
  exact ⟨fun a => ⟨(ho a).1.symm.trans (hheld.1 a).1, (ho a).2.symm.trans (hheld.1 a).2⟩, fun p => (hp p).symm.trans (hheld.2 p)⟩

/-! Two debug builds of the profile of C61 at the same time. -/
namespace ThreadsEx
open LiveEx (H roots vals_ok roots_ok reach S)
attribute [local instance] Target.x64

def m₀ : Sys Builder := ⟨free, fun _ => Machine.runRoots .on Builder.default (liveVisits H 1 roots)⟩
def m₃ := next 0 (next 0 (next 1 (next 0 m₀)))

set_option maxRecDepth 20000 in
theorem reachesM : m₀.Reaches 2 [m₃.shared, (next 0 (next 1 (next 0 m₀))).shared, (next 1 (next 0 m₀)).shared, (next 0 m₀).shared, m₀.shared] m₃ :=
  (((Sys.Reaches.start.step (next_step 0 (by decide) _ rfl)).step (next_step 1 (by decide) _ rfl)).step (next_step 0 (by decide) _ rfl)).step (next_step 0 (by decide) _ rfl)

set_option maxRecDepth 20000 in
example := C83_machine .on S H vals_ok roots roots_ok reachesM 0 1 rfl (fun _ h => h.elim) [7] (by simp) (fun p h => by rw [reach _ _ (fun _ => rfl) p h]; simp) (by simp) (by trivial)
set_option maxRecDepth 20000 in
example := C83_machine_alone .on reachesM 1 _ rfl
set_option maxRecDepth 20000 in
example : ∃ b, m₃.threads 1 = .ended b .returned ∧ m₀.shared.SameHeldBy 1 m₃.shared := ⟨_, rfl, C83_given_back .on reachesM 1 _ rfl rfl⟩

end ThreadsEx

end Allocative
