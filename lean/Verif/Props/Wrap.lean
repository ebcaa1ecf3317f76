import Verif.Lemmas.Wrap
import Verif.Props.Core
import Verif.Props.Machine
/-
C56: release builds and sizes of more than `isize::MAX` bytes.
-/
set_option linter.unusedSimpArgs false
namespace Allocative

theorem selfWrap_lt [Target] (recs : List Rec) (p : Path) : selfWrap recs p < Usize.modulus := by
  unfold selfWrap
  split
  · exact Usize.modulus_pos
  · unfold remWrap clamp; word_omega

theorem release_spec [Target] {Q : Key → Prop} {hist : List (Prog × Fate)} (hl : NoLeaks hist) (hQ : ∀ x ∈ hist, x.1.KeysAre Q) (ord : HashOrder TreeId) :
    ∃ (fg : FlameGraph) (ws : List Path), Machine.run .off ord hist = .ok ⟨Machine.wrapFG fg, ws.flatMap (renderWarningWrap (records hist))⟩ ∧ fg.Built Q ∧
      (∀ p, fg.selfAt p = if p = [] ∨ entered (records hist) p then some (selfWrap (records hist) p) else none) ∧
      ws.Nodup ∧ (∀ w, w ∈ ws ↔ w ≠ [] ∧ entered (records hist) w ∧ remWrap (records hist) w < 0) ∧
      ((∀ k, Q k → k.Proper) → ws.Pairwise (fun a b => pathLt a.names b.names)) := by
  obtain ⟨b, paths, e, h⟩ := useRoots_default hl
  obtain ⟨fg, ws, ef, hb, hs, hn, hm, hso⟩ := Machine.finish_off ord Q h (records_keys hQ)
  refine ⟨fg, ws, ?_, hb, ?_, hn, hm, hso⟩
  · have : Machine.useRoots .off Builder.default hist = .ok (Machine.wrapB b) := by
      have := Machine.useRoots_off hist Builder.default
      rw [e] at this
      exact this
    simp only [Machine.run, this, ef]
  · intro p
    have := h.rep.mem p
    rw [hs p]
    by_cases hp : p ∈ paths
    · rw [if_pos hp, if_pos (this.1 hp)]
    · rw [if_neg hp, if_neg (fun x => hp (this.2 x))]

/-- C56. A release build never panics in `finish` or in an enter call of a leak free history, whatever the declared sizes.  The stacks of
the flame graph are those entered; the self size of each is the saturating difference of the two sums (own, children) cut to 64 bits,
and there is a warning exactly for those where it is negative. -/
theorem C56_release [Target] (hist : List (Prog × Fate)) (hl : NoLeaks hist) (ord : HashOrder TreeId) :
    ∃ (out : Builder.Output) (ws : List Path), Machine.run .off ord hist = .ok out ∧
      (∀ p, out.flamegraph.selfAt p = if p = [] ∨ entered (records hist) p then some (selfWrap (records hist) p) else none) ∧
      out.warnings = ws.flatMap (renderWarningWrap (records hist)) ∧ ws.Nodup ∧
      (∀ w, w ∈ ws ↔ w ≠ [] ∧ entered (records hist) w ∧ remWrap (records hist) w < 0) ∧
      (ProperKeys hist → ws.Pairwise (fun a b => pathLt a.names b.names)) := by
  have key : ∀ {Q : Key → Prop}, (∀ x ∈ hist, x.1.KeysAre Q) → ∃ (out : Builder.Output) (ws : List Path), Machine.run .off ord hist = .ok out ∧
      (∀ p, out.flamegraph.selfAt p = if p = [] ∨ entered (records hist) p then some (selfWrap (records hist) p) else none) ∧
      out.warnings = ws.flatMap (renderWarningWrap (records hist)) ∧ ws.Nodup ∧
      (∀ w, w ∈ ws ↔ w ≠ [] ∧ entered (records hist) w ∧ remWrap (records hist) w < 0) ∧
      ((∀ k, Q k → k.Proper) → ws.Pairwise (fun a b => pathLt a.names b.names)) := by
    intro Q hQ
    obtain ⟨fg, ws, e, _, hs, hn, hm, hso⟩ := release_spec hl hQ ord
    refine ⟨_, ws, e, ?_, rfl, hn, hm, hso⟩
    intro p
    simp only [Machine.selfAt_wrapFG, hs p]
    split
    · simp only [Option.map_some, Nat.mod_eq_of_lt (selfWrap_lt _ _)]
    · rfl
  by_cases hk : ProperKeys hist
  · obtain ⟨out, ws, e, h1, h2, h3, h4, h5⟩ := key hk
    exact ⟨out, ws, e, h1, h2, h3, h4, fun _ => h5 (fun _ h => h)⟩
  · obtain ⟨out, ws, e, h1, h2, h3, h4, _⟩ := key (Q := fun _ => True) (fun x _ => Prog.KeysAre.trivial x.1)
    exact ⟨out, ws, e, h1, h2, h3, h4, fun h => absurd h hk⟩

/-- C56. The text of that flame graph has one line per stack with non-zero self size, in increasing order, and `total_size` is the sum of
the printed sizes modulo `usize::MAX + 1`. -/
theorem C56_text [Target] (hist : List (Prog × Fate)) (hl : NoLeaks hist) (hk : ProperKeys hist) (ord : HashOrder TreeId) (ord' : HashOrder (List Str)) :
    ∃ (out : Builder.Output) (lines : List (Path × Nat)), Machine.run .off ord hist = .ok out ∧
      out.flamegraph.write ord' = lines.flatMap renderLine ∧ lines.Pairwise (fun a b => pathLt a.1.names b.1.names) ∧
      (∀ p n, (p, n) ∈ lines ↔ entered (records hist) p ∧ n = selfWrap (records hist) p ∧ n ≠ 0) ∧
      Machine.totalSize .off out.flamegraph = .ok ((lines.map Prod.snd).sum % Usize.modulus) := by
  obtain ⟨fg, ws, e, hb, hs, _⟩ := release_spec hl hk ord
  have hok : fg.Ok fun _ => True := hb.ok.mono (fun _ _ => trivial)
  refine ⟨_, FlameGraph.entries fg [], e, ?_, FlameGraph.entries_sorted _ hb.ok _, ?_, ?_⟩
  · rw [← FlameGraph.write_eq ord' _ hb.ok]
    refine Machine.writeImpl_wrapFG ord' fg [] ?_ hok
    intro p n hp
    rw [hs p] at hp
    split at hp
    · cases hp; exact selfWrap_lt _ _
    · cases hp
  · intro p n
    rw [FlameGraph.mem_entries _ hb.ok]
    constructor
    · rintro ⟨q, e, hne, hn, h⟩
      simp only [List.nil_append] at e
      subst e
      rw [hs] at h
      split at h
      · rename_i hp
        cases h
        exact ⟨hp.resolve_left hne, rfl, hn⟩
      · cases h
    · rintro ⟨he, rfl, hn⟩
      refine ⟨p, rfl, ?_, hn, by rw [hs, if_pos (.inr he)]⟩
      rintro rfl
      exact hn (by simp [selfWrap])
  · rw [Machine.totalSize_off, FlameGraph.entries_sum, if_pos rfl, hb.ok.totalSize_eq]
    have hroot : fg.nodeSize = 0 := by
      have := hs []
      simp only [FlameGraph.selfAt, FlameGraph.find?, Option.map_some, true_or, if_true, selfWrap] at this
      exact Option.some.inj this
    rw [hroot, Nat.sub_zero]

/-- C56. Overflow is local: a stack whose own sum and whose children's sum are below `isize::MAX + 1` has its exact self size in a release build,
even if other stacks overflow. -/
theorem C56_local [Target] (hist : List (Prog × Fate)) (hl : NoLeaks hist) (ord : HashOrder TreeId) (p : Path) (hs : sizeAt (records hist) p < Usize.half)
    (hc : uniqueAt (records hist) p = true ∨ childrenAt (records hist) p < Usize.half) :
    ∃ out out', Machine.run .off ord hist = .ok out ∧ run ord hist = .ok out' ∧ out.flamegraph.selfAt p = out'.flamegraph.selfAt p := by
  obtain ⟨out, ws, e, h1, _⟩ := C56_release hist hl ord
  obtain ⟨out', _, e', _, h1', _⟩ := run_spec (Q := fun _ => True) hl (fun x _ => Prog.KeysAre.trivial x.1) ord
  refine ⟨out, out', e, e', ?_⟩
  have hb : ∀ n : Nat, n < Usize.half → bits n = n := fun n hn => Machine.bmod_of (by omega) (by omega)
  have : selfWrap (records hist) p = selfSpec (records hist) p := by
    unfold selfWrap selfSpec remWrap remAt
    split
    · rfl
    · rw [hb _ hs]
      split
      · unfold clamp; omega
      · rename_i hu
        have hc := hc.resolve_left hu
        rw [hb _ hc]
        unfold clamp; omega
  rw [h1, h1', this]

theorem addSelf_off [Target] (a : FlameGraph) (n : Nat) : Machine.addSelf .off (Machine.wrapFG a) n = .ok (Machine.wrapFG (a.addSelf n)) := by
  cases a with
  | mk ch cs m =>
    simp only [Machine.addSelf, Machine.wrapFG, FlameGraph.mk_nodeSize, Machine.addUsize_off, FlameGraph.addSelf, FlameGraph.mk_children,
      FlameGraph.mk_childrenSize, Nat.mod_add_mod]

theorem ReleaseBuilt.wraps [Target] {fg : FlameGraph} (h : ReleaseBuilt fg) : ∃ fg0 : FlameGraph, fg0.Built (fun _ => True) ∧ fg = Machine.wrapFG fg0 := by
  induction h with
  | default => exact ⟨.default, .default, rfl⟩
  | addSelf n _ e ih =>
    obtain ⟨a, ha, rfl⟩ := ih
    rw [addSelf_off] at e
    exact ⟨_, .addSelf n ha, (Except.ok.inj e).symm⟩
  | addChild k _ _ e ih1 ih2 =>
    obtain ⟨a, ha, rfl⟩ := ih1
    obtain ⟨b, hb, rfl⟩ := ih2
    rw [Machine.addChild_off] at e
    exact ⟨_, .addChild k trivial ha hb, (Except.ok.inj e).symm⟩
  | add _ _ e ih1 ih2 =>
    obtain ⟨a, ha, rfl⟩ := ih1
    obtain ⟨b, hb, rfl⟩ := ih2
    rw [Machine.add_off] at e
    exact ⟨_, .add ha hb, (Except.ok.inj e).symm⟩

/-- C56. Merging flame graphs in a release build never panics; it adds the self sizes stack by stack modulo `usize::MAX + 1`, and the totals
modulo `usize::MAX + 1`: an overflow of one sum does not disturb the others. -/
theorem C56_flamegraph [Target] (a b : FlameGraph) (ha : ReleaseBuilt a) (hb : ReleaseBuilt b) :
    ∃ r, Machine.add .off a b = .ok r ∧
      (∀ p, (r.selfAt p).getD 0 = ((a.selfAt p).getD 0 + (b.selfAt p).getD 0) % Usize.modulus) ∧
      (∀ p, (r.selfAt p).isSome = ((a.selfAt p).isSome || (b.selfAt p).isSome)) ∧
      ∃ ta tb, Machine.totalSize .off a = .ok ta ∧ Machine.totalSize .off b = .ok tb ∧ Machine.totalSize .off r = .ok ((ta + tb) % Usize.modulus) := by
  obtain ⟨a, hA, rfl⟩ := ha.wraps
  obtain ⟨b, hB, rfl⟩ := hb.wraps
  refine ⟨_, Machine.add_off b a, ?_, ?_, _, _, Machine.totalSize_off a, Machine.totalSize_off b, ?_⟩
  · intro p
    have := (C21_add_pointwise a b hA hB).1 p
    have hm : ∀ o : Option Nat, (o.map (· % Usize.modulus)).getD 0 = o.getD 0 % Usize.modulus := by intro o; cases o <;> rfl
    simp only [Machine.selfAt_wrapFG, hm, this]
    exact Nat.add_mod _ _ _
  · intro p
    have := (C21_add_pointwise a b hA hB).2.1 p
    simpa only [Machine.selfAt_wrapFG, Option.isSome_map] using this
  · rw [Machine.totalSize_off, (C21_add_pointwise a b hA hB).2.2, Nat.add_mod]

/-- C56. `add_child` in a release build. -/
theorem C56_add_child [Target] (a b : FlameGraph) (ha : ReleaseBuilt a) (hb : ReleaseBuilt b) (k : Key) :
    ∃ r, Machine.addChild .off a k b = .ok r ∧ r.selfAt [] = a.selfAt [] ∧
      (∀ p, (r.selfAt (k :: p)).getD 0 = ((a.selfAt (k :: p)).getD 0 + (b.selfAt p).getD 0) % Usize.modulus) ∧
      (∀ k' p, k' ≠ k → r.selfAt (k' :: p) = a.selfAt (k' :: p)) ∧
      ∃ ta tb, Machine.totalSize .off a = .ok ta ∧ Machine.totalSize .off b = .ok tb ∧ Machine.totalSize .off r = .ok ((ta + tb) % Usize.modulus) := by
  obtain ⟨a, hA, rfl⟩ := ha.wraps
  obtain ⟨b, hB, rfl⟩ := hb.wraps
  have hm : ∀ o : Option Nat, (o.map (· % Usize.modulus)).getD 0 = o.getD 0 % Usize.modulus := by intro o; cases o <;> rfl
  refine ⟨_, Machine.addChild_off a b k, ?_, ?_, ?_, _, _, Machine.totalSize_off a, Machine.totalSize_off b, ?_⟩
  · rw [Machine.selfAt_wrapFG, Machine.selfAt_wrapFG]; rfl
  · intro p
    simp only [Machine.selfAt_wrapFG, hm, FlameGraph.selfAt_addChild hB.ok, if_true]
    rw [← Nat.add_mod]
    congr 1
    cases a.selfAt (k :: p) <;> cases b.selfAt p <;> simp [FlameGraph.optAdd]
  · intro k' p hne
    simp only [Machine.selfAt_wrapFG, FlameGraph.selfAt_addChild hB.ok, if_neg (Ne.symm hne)]
  · rw [Machine.totalSize_off, Machine.totalSize_addChild, Nat.add_mod]

theorem wrapFG_built [Target] {fg : FlameGraph} (h : fg.Built (fun _ => True)) : ReleaseBuilt (Machine.wrapFG fg) := by
  induction h with
  | default => exact .default
  | addSelf n _ ih => exact .addSelf n ih (addSelf_off _ n)
  | addChild k _ _ _ ih1 ih2 => exact .addChild k ih1 ih2 (Machine.addChild_off _ _ k)
  | add _ _ ih1 ih2 => exact .add ih1 ih2 (Machine.add_off _ _)

/-- C56. What `finish` returns in a release build is such a flame graph. -/
theorem C56_finish [Target] (hist : List (Prog × Fate)) (hl : NoLeaks hist) (ord : HashOrder TreeId) (out : Builder.Output)
    (h : Machine.run .off ord hist = .ok out) : ReleaseBuilt out.flamegraph := by
  obtain ⟨fg, ws, e, hb, _⟩ := release_spec (Q := fun _ => True) hl (fun x _ => Prog.KeysAre.trivial x.1) ord
  rw [h] at e
  cases e
  exact wrapFG_built hb

attribute [local instance] Target.x64 in
example : ReleaseBuilt (FlameGraph.default.addSelf (Usize.half)) ∧ Machine.add .off (FlameGraph.default.addSelf (Usize.half)) (FlameGraph.default.addSelf (Usize.half + 7)) =
    .ok (FlameGraph.default.addSelf 7) := ⟨.addSelf (Usize.half) .default rfl, rfl⟩

-- `S/a` overflows to 0; `S` is then over-full by 2^63 - 1 - 24, `T` is not affected
attribute [local instance] Target.x64 in
def Ex.wraps : List (Prog × Fate) :=
  [(.enter (Ex.k "S") 24 .exit (Ex.leaf "a" (Usize.half) (Ex.leaf "a" (Usize.half) (Ex.leaf "b" (Usize.half - 1)))) (Ex.leaf "T" 5), .exit)]

attribute [local instance] Target.x64 in
example : NoLeaks Ex.wraps ∧ selfWrap (records Ex.wraps) [Ex.k "S", Ex.k "a"] = 0 ∧ sizeAt (records Ex.wraps) [Ex.k "S", Ex.k "a"] = Usize.modulus ∧
    selfWrap (records Ex.wraps) [Ex.k "T"] = 5 ∧ remWrap (records Ex.wraps) [Ex.k "S"] = 24 - (Usize.half - 1) := by decide
example : ProperKeys Ex.wraps := by
  unfold Ex.wraps ProperKeys
  simp [Prog.KeysAre, Ex.leaf, Key.Proper, Ex.k, Key.new, Key.newUnchecked]

/-! The theorems of this file with a concrete case of their hypotheses. -/

theorem Ex.wraps_noLeaks : NoLeaks Ex.wraps := by decide
theorem Ex.wraps_proper : ProperKeys Ex.wraps := by
  unfold Ex.wraps ProperKeys
  simp [Prog.KeysAre, Ex.leaf, Key.Proper, Ex.k, Key.new, Key.newUnchecked]
attribute [local instance] Target.x64 in
/-- The children of the root overflow. -/
def Ex.release : FlameGraph := (FlameGraph.default.addSelf (Usize.half)).addChild (Ex.k "a") (FlameGraph.default.addSelf (Usize.half))
attribute [local instance] Target.x64 in
theorem Ex.release_built : ReleaseBuilt Ex.release := .addChild (Ex.k "a") (.addSelf (Usize.half) .default rfl) (.addSelf (Usize.half) .default rfl) rfl

attribute [local instance] Target.x64 in
example (ord : HashOrder TreeId) := C56_release Ex.wraps Ex.wraps_noLeaks ord
attribute [local instance] Target.x64 in
example (ord : HashOrder TreeId) (ord' : HashOrder (List Str)) := C56_text Ex.wraps Ex.wraps_noLeaks Ex.wraps_proper ord ord'
attribute [local instance] Target.x64 in
example (ord : HashOrder TreeId) := C56_local Ex.wraps Ex.wraps_noLeaks ord [Ex.k "T"] (by decide) (.inr (by decide))
attribute [local instance] Target.x64 in
example := C56_flamegraph Ex.release Ex.release Ex.release_built Ex.release_built
attribute [local instance] Target.x64 in
example := C56_add_child Ex.release Ex.release Ex.release_built Ex.release_built (Ex.k "a")
attribute [local instance] Target.x64 in
example (ord : HashOrder TreeId) : ∃ out, Machine.run .off ord Ex.wraps = .ok out ∧ ReleaseBuilt out.flamegraph := by
  obtain ⟨out, _, h, -⟩ := C56_release Ex.wraps Ex.wraps_noLeaks ord
  exact ⟨out, h, C56_finish Ex.wraps Ex.wraps_noLeaks ord out h⟩

end Allocative
