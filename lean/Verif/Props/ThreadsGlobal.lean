import Verif.Props.ThreadsAgree
set_option linter.unusedSimpArgs false
/-
C83, continued: `visit_global_roots` in several threads at the same time, while roots are registered.
-/
namespace Allocative

theorem Timeline.later {panics : Prop} {env : Env} {s : Store} {hs m st} (h : Timeline panics env (env 0 s) 1 hs m st) : Timeline panics env s 0 hs m st := by
  induction h with
  | start => exact .others .start
  | others _ ih => exact .others ih
  | acquire how a _ hg ih => exact .acquire how a ih hg
  | release how a ctl _ hp ih => exact .release how a ctl ih hp
  | upgrade p _ hg ih => exact .upgrade p ih hg
  | drop p _ ih => exact .drop p ih

/-- C83, for `visit_global_roots`.  Several threads call it at the same time, each on its own new builder, while others register roots and change the data in them.  Once such a thread has nothing left to do, no panic has occurred, it has given back
all guards and references, and there is a moment `g` of the run such that `finish` returns the profile of the roots that were registered at this moment, in a snapshot in which each place is as it was at moments of the run. -/
theorem C83_global_roots [Target] (S : Ptr → Prop) (H : Ptr → LiveCell) (hcells : ∀ p, (H p).value.OK S) (reg : Ptr) (registered : Nat → List LiveDatum) (hroots : ∀ x, ∀ v ∈ registered x, v.OK S)
    {k : Nat} {y₀ y : Sys Builder} {gs : List Shared} (h : y₀.Reaches k gs y) (i fuel : Nat) (h0 : y₀.threads i = Builder.default.runGlobalRoots reg fun x => liveVisits H fuel (registered x))
    (hS : ∀ a, S a → (y₀.shared.lock a).exclusive i = false)
    (L : List Ptr) (hn : L.Nodup) (hL : ∀ g ∈ gs, ∀ p, MayReach (Sys.looks (OneOwner H (registered (g.mem reg))) S k i y₀.shared gs) H (registered (g.mem reg)) p → p ∈ L) (hf : L.length ≤ fuel)
    (hend : (y.threads i).Finished) (ord : HashOrder TreeId) (ord' : HashOrder (List Str)) :
    ∃ b out, y.threads i = .ended b .returned ∧ y₀.shared.SameHeldBy i y.shared ∧ b.finish ord = .ok out ∧ ∃ g ∈ gs,
      ∃ (roots : List LiveDatum) (ds : List Datum) (cells : Ptr → Cell) (reached : List Ptr) (recs : List Rec) (lines : List (Path × Nat)) (ws : List Path),
        roots = registered (g.mem reg) ∧
        LiveDatum.SeesEach (Sys.looks (OneOwner H roots) S k i y₀.shared gs) roots ds ∧ (∀ p, (H p).Sees (Sys.looks (OneOwner H roots) S k i y₀.shared gs) (cells p)) ∧ reached.Nodup ∧
        (∀ p, p ∈ reached ↔ ReachableCell cells ds p) ∧
        recs = ds.flatMap (fun d => d.report []) ++ reached.flatMap (fun p => (cells p).report) ∧
        out.flamegraph.write ord' = lines.flatMap renderLine ∧
        out.flamegraph.totalSize = attributed recs + (ws.map fun p => childrenAt recs p - sizeAt recs p).sum ∧
        out.warnings = ws.flatMap (renderWarning recs) ∧
        lines.Pairwise (fun a b => pathLt a.1.names b.1.names) ∧
        (∀ p n, (p, n) ∈ lines ↔ entered recs p ∧ n = selfSpec recs p ∧ n ≠ 0) ∧
        ws.Pairwise (fun a b => pathLt a.names b.names) ∧ ∀ p, p ∈ ws ↔ overfull recs p := by
  obtain ⟨env, n, st, he, hm, hD, ho, -, hx⟩ := reaches_exec h i (letGo S) (letGo_own S)
  have hx := hx env fun _ _ => rfl
  rw [h0] at hx
  simp only [Builder.runGlobalRoots, Run.exec, Action.wait, Action.act] at hx
  rw [runRoots_exec] at hx
  have hown := he.sameHeld 0 (y₀.shared.view k i)
  obtain ⟨g, hg, hmem⟩ : ∃ g ∈ gs, (env 0 (y₀.shared.view k i)).mem reg = g.mem reg := by
    rcases hm 0 (y₀.shared.view k i) with e | ⟨g, hg, e⟩
    · exact ⟨_, h.first, by rw [e]; rfl⟩
    · exact ⟨g, hg, by rw [e]; rfl⟩
  rw [hmem] at hx
  have hgo : env.LetsGo S (env 0 (y₀.shared.view k i)) 1 := by
    intro a ha
    refine ⟨(hown.1 a).1.trans (hS a ha), fun hs m st' _ => ⟨n + 1, ?_⟩⟩
    simp only [Env.looksAgain]
    rw [hD _ (by omega)]
    simp only [letGo, ha, if_true]
  obtain ⟨m1, m2, m3⟩ := looks_sys (D := OneOwner H (registered (g.mem reg))) he hm h.first 0
  have m1 : ∀ st, (env.looks (OneOwner H (registered (g.mem reg))) (env 0 (y₀.shared.view k i)) 1).moment st → _ := fun st ⟨hs, m, ht⟩ => m1 st ⟨hs, m, ht.later⟩
  have m2 : ∀ a st, (env.looks (OneOwner H (registered (g.mem reg))) (env 0 (y₀.shared.view k i)) 1).asks a st → _ := fun a st ⟨hs, ⟨m, ht⟩, hn⟩ => m2 a st ⟨hs, ⟨m, ht.later⟩, hn⟩
  have m3 : ∀ how a st, (env.looks (OneOwner H (registered (g.mem reg))) (env 0 (y₀.shared.view k i)) 1).reads how a st → _ := fun how a st ⟨hs, ⟨m, ht⟩, hn⟩ => m3 how a st ⟨hs, ⟨m, ht.later⟩, hn⟩
  obtain ⟨b, st', n', out, hrun, hheld, -, hfin, ds, cells, reached, recs, lines, ws, g1, g2, g3⟩ :=
    C61_snapshot S env he H hcells (registered (g.mem reg)) (hroots _) (env 0 (y₀.shared.view k i)) 1 hgo L hn (fun p hp => hL g hg p (hp.wider m1 m2 m3)) fuel hf ord ord'
  rw [hrun] at hx
  have e : y.threads i = .ended b .returned ∧ st = st' := by
    revert hx hend
    cases y.threads i with
    | failed e => intro _ h; cases h
    | look a next => intro h; exact h.elim
    | ended s ctl => intro _ h; cases h; exact ⟨rfl, rfl⟩
  obtain ⟨e, rfl⟩ := e
  refine ⟨b, out, e, ⟨fun a => ?_, fun p => ?_⟩, hfin, g, hg, _, ds, cells, reached, recs, lines, ws, rfl, g1.wider m1 m2 m3, fun p => ⟨(g2 p).1.wider m1 m2 m3, (g2 p).2⟩, g3⟩
  · exact ⟨(ho.1 a).1.trans ((hheld.1 a).1.trans (hown.1 a).1), (ho.1 a).2.trans ((hheld.1 a).2.trans (hown.1 a).2)⟩
  · exact (ho.2 p).1.trans ((hheld.2 p).trans (hown.2 p))

/-! Two threads call `visit_global_roots`; between their looks at the registry another thread registers a second root. -/
namespace ThreadsEx
open LiveEx (H tArc vals_ok roots_ok reach S)
attribute [local instance] Target.x64

/-- The registry, at address 9, has as many roots as the number there says: pointers to the allocation at 7. -/
def registered (x : Nat) : List LiveDatum := List.replicate x (.still (.arc tArc 8 7))

theorem registered_ok (x : Nat) : ∀ v ∈ registered x, v.OK S := by
  intro v hv
  rw [(List.mem_replicate.1 hv).2]
  exact roots_ok _ (by simp [LiveEx.roots])

def noRoots : Shared := { free with mem := fun a => if a = 9 then 0 else 2 }
def r₀ : Sys Builder := ⟨noRoots, fun _ => Builder.default.runGlobalRoots 9 fun x => liveVisits H 1 (registered x)⟩
/-- Another thread registers a root. -/
def register (y : Sys Builder) : Sys Builder := ⟨{ y.shared with mem := fun a => if a = 9 then y.shared.mem 9 + 1 else y.shared.mem a }, y.threads⟩
def r₁ := next 0 r₀
def r₂ := register r₁
def r₃ := next 1 r₂
def r₄ := next 1 r₃
def r₅ := next 1 r₄
def r₆ := next 1 r₅

theorem register_step (y : Sys Builder) : Sys.Step 2 none y (register y) := .others ⟨fun _ => ⟨rfl, rfl⟩, fun _ => ⟨rfl, rfl⟩⟩

set_option maxRecDepth 20000 in
theorem reachesR : r₀.Reaches 2 [r₆.shared, r₅.shared, r₄.shared, r₃.shared, r₂.shared, r₁.shared, r₀.shared] r₆ :=
  (((((Sys.Reaches.start.step (next_step 0 (by decide) _ rfl)).step (register_step _)).step (next_step 1 (by decide) _ rfl)).step (next_step 1 (by decide) _ rfl)).step (next_step 1 (by decide) _ rfl)).step
    (next_step 1 (by decide) _ rfl)

theorem reachG (L : Looks) (x : Nat) (p : Ptr) (h : MayReach L H (registered x) p) : p ∈ [7] := by
  rw [List.mem_singleton]
  induction h with
  | root hv hs hp =>
    rw [(List.mem_replicate.1 hv).2] at hs
    cases hs
    simpa [Datum.pointers] using hp
  | step _ hs hp ih =>
    exfalso
    rcases LiveEx.vals_sees hs with rfl | rfl | ⟨x, rfl⟩ <;> simp [Datum.pointers, LiveEx.seen] at hp

set_option maxRecDepth 20000 in
/-- The first thread came too early, and has nothing to visit. -/
example : r₆.threads 0 = .ended Builder.default .returned := rfl
set_option maxRecDepth 20000 in
example (ord : HashOrder TreeId) (ord' : HashOrder (List Str)) :=
  C83_global_roots S H vals_ok 9 registered registered_ok reachesR 0 1 rfl (fun _ h => h.elim) [7] (by simp) (fun g _ p h => reachG _ _ p h) (by simp) (by trivial) ord ord'
set_option maxRecDepth 20000 in
/-- The second visits the root that was registered. -/
example : ∃ b, r₆.threads 1 = .ended b .returned ∧ b.visitedShared = [7] := ⟨_, rfl, rfl⟩
set_option maxRecDepth 20000 in
example (ord : HashOrder TreeId) (ord' : HashOrder (List Str)) :=
  C83_global_roots S H vals_ok 9 registered registered_ok reachesR 1 1 rfl (fun _ h => h.elim) [7] (by simp) (fun g _ p h => reachG _ _ p h) (by simp) (by trivial) ord ord'

end ThreadsEx

end Allocative
