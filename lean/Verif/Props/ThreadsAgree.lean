import Verif.Props.ThreadsGuards
import Verif.Props.Confined
import Verif.Props.LiveCost
set_option linter.unusedSimpArgs false
/-
C83, continued: several profiles of the same data at the same time agree outside of locks; what they cost.
-/
namespace Allocative

/-- A finished thread is a visit alone among others, who let go of the locks in `S`. -/
theorem thread_alone (S : Ptr → Prop) {k : Nat} {y₀ y : Sys Builder} {gs : List Shared} (h : y₀.Reaches k gs y) (i : Nat) (hist : List (LProg × Fate)) (h0 : y₀.threads i = Builder.default.runRoots hist)
    (hS : ∀ a, S a → (y₀.shared.lock a).exclusive i = false) (hend : (y.threads i).Finished) :
    ∃ env : Env, env.Respectful ∧ env.LetsGo S (y₀.shared.view k i) 0 ∧
      (∀ D : Prop, (∀ st, (env.looks D (y₀.shared.view k i) 0).moment st → (Sys.looks D S k i y₀.shared gs).moment st) ∧
        (∀ a st, (env.looks D (y₀.shared.view k i) 0).asks a st → (Sys.looks D S k i y₀.shared gs).asks a st) ∧
        ∀ how a st, (env.looks D (y₀.shared.view k i) 0).reads how a st → (Sys.looks D S k i y₀.shared gs).reads how a st) ∧
      ∀ b st n, Builder.default.useRootsL env hist (y₀.shared.view k i) 0 = .ended b st n .returned → y.threads i = .ended b .returned := by
  obtain ⟨env, n, st, he, hm, hD, -, -, hx⟩ := reaches_exec h i (letGo S) (letGo_own S)
  have hx := hx env fun _ _ => rfl
  rw [h0, runRoots_exec] at hx
  refine ⟨env, he, ?_, fun D => looks_sys (D := D) he hm h.first 0, fun b st' n' hrun => ?_⟩
  · intro a ha
    refine ⟨hS a ha, fun hs m st' _ => ⟨n + 1, ?_⟩⟩
    simp only [Env.looksAgain]
    rw [hD _ (by omega)]
    simp only [letGo, ha, if_true]
  · rw [hrun] at hx
    revert hx hend
    cases y.threads i with
    | failed e => intro _ h; cases h
    | look a next => intro h; exact h.elim
    | ended s ctl => intro _ h; cases h; rfl

theorem LiveCell.Sees.wider {L L' : Looks} (hm : ∀ st, L.moment st → L'.moment st) (ha : ∀ a st, L.asks a st → L'.asks a st) (hr : ∀ how a st, L.reads how a st → L'.reads how a st)
    {c : LiveCell} {d : Cell} (h : c.Sees L d) : c.Sees L' d := ⟨h.1.wider hm ha hr, h.2⟩

theorem MayVary.wider [Target] {L L' : Looks} (hm : ∀ st, L.moment st → L'.moment st) (ha : ∀ a st, L.asks a st → L'.asks a st) (hr : ∀ how a st, L.reads how a st → L'.reads how a st)
    {H roots p} (h : MayVary L H roots p) : MayVary L' H roots p := by
  rcases h with h | h | ⟨a, c, h1, h2, h3, h4⟩
  · exact .inl h
  · exact .inr (.inl h)
  · exact .inr (.inr ⟨a, c, h1.wider hm ha hr, h2, h3.wider hm ha hr, h4⟩)

/-- C83 with C82: of several threads that profile at the same time, each one that profiles `roots` and has ended has, at every stack that is not at or below a lock (nor under the name of an allocation reached only through one),
exactly the self size of the data outside of locks. -/
theorem C83_outside_locks [Target] (S : Ptr → Prop) (H : Ptr → LiveCell) (hcells : ∀ p, (H p).value.OK S) (roots : List LiveDatum) (hroots : ∀ v ∈ roots, v.OK S) {k : Nat} {y₀ y : Sys Builder} {gs : List Shared}
    (h : y₀.Reaches k gs y) (i fuel : Nat) (h0 : y₀.threads i = Builder.default.runRoots (liveVisits H fuel roots)) (hS : ∀ a, S a → (y₀.shared.lock a).exclusive i = false)
    (L : List Ptr) (hn : L.Nodup) (hL : ∀ p, MayReach (Sys.looks (OneOwner H roots) S k i y₀.shared gs) H roots p → p ∈ L) (hf : L.length ≤ fuel)
    (hend : (y.threads i).Finished) (ord : HashOrder TreeId) :
    ∃ b out, y.threads i = .ended b .returned ∧ b.finish ord = .ok out ∧
      ∃ (steady : List Ptr) (recs : List Rec), steady.Nodup ∧ (∀ p, p ∈ steady ↔ ReachedAnyway H roots p) ∧
        recs = (roots.flatMap fun v => v.bare.report []) ++ steady.flatMap (fun p => (H p).bare.report) ∧
        ∀ p, p ≠ [] → ¬ MayVary (Sys.looks (OneOwner H roots) S k i y₀.shared gs) H roots p →
          (entered recs p → out.flamegraph.selfAt p = some (selfSpec recs p)) ∧ (¬ entered recs p → out.flamegraph.selfAt p = none) := by
  obtain ⟨env, he, hgo, hlooks, hres⟩ := thread_alone S h i _ h0 hS hend
  obtain ⟨m1, m2, m3⟩ := hlooks (OneOwner H roots)
  obtain ⟨b, st', n', out, hrun, hfin, steady, recs, g1, g2, g3, g4⟩ :=
    C82_sizes S env he H hcells roots hroots (y₀.shared.view k i) 0 hgo L hn (fun p hp => hL p (hp.wider m1 m2 m3)) fuel hf ord
  exact ⟨b, out, hres b st' n' hrun, hfin, steady, recs, g1, g2, g3, fun p hp hv => g4 p hp fun hv' => hv (hv'.wider m1 m2 m3)⟩

/-- C83 with C82: so two profiles of the same data at the same time agree at every such stack. -/
theorem C83_agree [Target] (S : Ptr → Prop) (H : Ptr → LiveCell) (hcells : ∀ p, (H p).value.OK S) (roots : List LiveDatum) (hroots : ∀ v ∈ roots, v.OK S) {k : Nat} {y₀ y : Sys Builder} {gs : List Shared}
    (h : y₀.Reaches k gs y) (i j fuel : Nat) (h0 : ∀ l, l = i ∨ l = j → y₀.threads l = Builder.default.runRoots (liveVisits H fuel roots)) (hS : ∀ l, l = i ∨ l = j → ∀ a, S a → (y₀.shared.lock a).exclusive l = false)
    (L : List Ptr) (hn : L.Nodup) (hL : ∀ l, l = i ∨ l = j → ∀ p, MayReach (Sys.looks (OneOwner H roots) S k l y₀.shared gs) H roots p → p ∈ L) (hf : L.length ≤ fuel)
    (hend : ∀ l, l = i ∨ l = j → (y.threads l).Finished) (ord ord' : HashOrder TreeId) :
    ∃ b b' out out', y.threads i = .ended b .returned ∧ y.threads j = .ended b' .returned ∧ b.finish ord = .ok out ∧ b'.finish ord' = .ok out' ∧
      ∀ p, p ≠ [] → (∀ l, l = i ∨ l = j → ¬ MayVary (Sys.looks (OneOwner H roots) S k l y₀.shared gs) H roots p) → out.flamegraph.selfAt p = out'.flamegraph.selfAt p := by
  obtain ⟨b, out, r1, f1, steady, recs, hsn, hsm, rfl, g⟩ := C83_outside_locks S H hcells roots hroots h i fuel (h0 i (.inl rfl)) (hS i (.inl rfl)) L hn (hL i (.inl rfl)) hf (hend i (.inl rfl)) ord
  obtain ⟨b', out', r2, f2, steady', recs', hsn', hsm', rfl, g'⟩ := C83_outside_locks S H hcells roots hroots h j fuel (h0 j (.inr rfl)) (hS j (.inr rfl)) L hn (hL j (.inr rfl)) hf (hend j (.inr rfl)) ord'
  refine ⟨b, b', out, out', r1, r2, f1, f2, fun p hp0 hv => ?_⟩
  have hp : ((roots.flatMap fun v => v.bare.report []) ++ steady.flatMap (fun p => (H p).bare.report)).Perm ((roots.flatMap fun v => v.bare.report []) ++ steady'.flatMap (fun p => (H p).bare.report)) := by
    refine List.Perm.append_left _ (List.Perm.flatMap_right _ ?_)
    rw [List.perm_ext_iff_of_nodup hsn hsn']
    exact fun a => (hsm a).trans (hsm' a).symm
  obtain ⟨a1, a2⟩ := g p hp0 (hv i (.inl rfl))
  obtain ⟨b1, b2⟩ := g' p hp0 (hv j (.inr rfl))
  rw [← entered_perm hp] at b1 b2
  by_cases hen : entered ((roots.flatMap fun v => v.bare.report []) ++ steady.flatMap (fun p => (H p).bare.report)) p
  · rw [a1 hen, b1 hen]
    simp only [selfSpec, remAt, sizeAt_perm hp, childrenAt_perm hp, uniqueAt_perm hp]
  · rw [a2 hen, b2 hen]

/-- C83 with C81: what each builder keeps in memory, however many profiles run at the same time and whatever they and others do: there is a snapshot of the data (each place as it was at moments of the run) such that the builder remembers
exactly the shared allocations reached in it, each once, and has at most one tree node for each entry in the report of the snapshot. -/
theorem C83_memory [Target] (S : Ptr → Prop) (H : Ptr → LiveCell) (hcells : ∀ p, (H p).value.OK S) (roots : List LiveDatum) (hroots : ∀ v ∈ roots, v.OK S) {k : Nat} {y₀ y : Sys Builder} {gs : List Shared}
    (h : y₀.Reaches k gs y) (i fuel : Nat) (h0 : y₀.threads i = Builder.default.runRoots (liveVisits H fuel roots)) (hS : ∀ a, S a → (y₀.shared.lock a).exclusive i = false)
    (L : List Ptr) (hn : L.Nodup) (hL : ∀ p, MayReach (Sys.looks (OneOwner H roots) S k i y₀.shared gs) H roots p → p ∈ L) (hf : L.length ≤ fuel) (hend : (y.threads i).Finished) :
    ∃ b, y.threads i = .ended b .returned ∧ ∃ (ds : List Datum) (cells : Ptr → Cell) (reached : List Ptr),
        LiveDatum.SeesEach (Sys.looks (OneOwner H roots) S k i y₀.shared gs) roots ds ∧ (∀ p, (H p).Sees (Sys.looks (OneOwner H roots) S k i y₀.shared gs) (cells p)) ∧ reached.Nodup ∧
        (∀ p, p ∈ reached ↔ ReachableCell cells ds p) ∧ (∀ p ∈ reached, p ∈ L) ∧ b.visitedShared.Perm reached ∧
        b.trees.length ≤ 1 + (ds.flatMap fun d => d.report []).length + (reached.flatMap fun p => (cells p).report).length := by
  obtain ⟨env, he, hgo, hlooks, hres⟩ := thread_alone S h i _ h0 hS hend
  obtain ⟨m1, m2, m3⟩ := hlooks (OneOwner H roots)
  obtain ⟨b, log, st', n', -, hrun, ds, cells, reached, g1, g2, g3, g4, g5, g6, g7, g8, -⟩ :=
    C81_live_cost S env he H hcells roots hroots (y₀.shared.view k i) 0 hgo L hn (fun p hp => hL p (hp.wider m1 m2 m3)) fuel hf
  exact ⟨b, hres b st' n' hrun, ds, cells, reached, g1.wider m1 m2 m3, fun p => (g2 p).wider m1 m2 m3, g3, g4, g5, g7, by rw [g6] at g8; omega⟩

namespace ThreadsEx
open LiveEx (H roots vals_ok roots_ok reach S)
attribute [local instance] Target.x64

set_option maxRecDepth 20000 in
example (ord ord' : HashOrder TreeId) := C83_agree S H vals_ok roots roots_ok reaches' 0 1 1 (by rintro l (rfl | rfl) <;> rfl) (fun _ _ _ h => h.elim) [7] (by simp)
  (fun l _ p h => by rw [reach _ _ (fun _ => rfl) p h]; simp) (by simp) (by rintro l (rfl | rfl) <;> trivial) ord ord'
/-- The stack of the `Arc` pointers does not vary. -/
example (l : Nat) : ¬ MayVary (Sys.looks (OneOwner H roots) S 2 l y₀'.shared [y₅'.shared, y₄'.shared, y₃'.shared, y₂'.shared, y₁'.shared, y₀'.shared]) H roots [LiveEx.tArc.key] := ConfinedEx.fixed _
set_option maxRecDepth 20000 in
example := C83_memory S H vals_ok roots roots_ok reaches' 1 1 rfl (fun _ h => h.elim) [7] (by simp) (fun p h => by rw [reach _ _ (fun _ => rfl) p h]; simp) (by simp) (by trivial)

end ThreadsEx

end Allocative
