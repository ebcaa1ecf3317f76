import Verif.Lemmas.Threads
import Verif.Spec.Threads
import Verif.Props.Live
set_option linter.unusedSimpArgs false
/-
C83: several profiles of the same data at the same time.
-/
namespace Allocative
variable {σ : Type}

/-! ## Lemmas -/

theorem Looks.SeesShards.wider {L L' : Looks} (hm : ∀ st, L.moment st → L'.moment st) (hr : ∀ how a st, L.reads how a st → L'.reads how a st) {addr l m y} (h : L.SeesShards addr l m y) :
    L'.SeesShards addr l m y := by
  intro q hq
  obtain ⟨⟨s1, a1, b1⟩, ⟨s2, a2, b2⟩, ⟨s3, a3, b3⟩, s4, a4, b4⟩ := h q hq
  exact ⟨⟨s1, hm _ a1, b1⟩, ⟨s2, hm _ a2, b2⟩, ⟨s3, hm _ a3, b3⟩, s4, hr _ _ _ a4, b4⟩

theorem LiveDatum.Sees.wider {L L' : Looks} (hm : ∀ st, L.moment st → L'.moment st) (ha : ∀ a st, L.asks a st → L'.asks a st) (hr : ∀ how a st, L.reads how a st → L'.reads how a st)
    {v : LiveDatum} {d : Datum} (h : v.Sees L d) : v.Sees L' d := by
  induction h with
  | still d => exact .still d
  | live shape kind addr content granted x d m y h1 h2 h3 h4 h5 ih1 ih2 =>
    refine .live shape kind addr content granted x d m y ?_ ?_ ih1 ?_ ih2
    · intro p k hk
      obtain ⟨st, hs, e⟩ := h1 p k hk
      exact ⟨st, by cases k <;> first | exact ha _ _ hs | exact hm _ hs, e⟩
    · intro p k how hk hh hg
      obtain ⟨st, hs, e⟩ := h2 p k how hk hh hg
      exact ⟨st, hr _ _ _ hs, e⟩
    · exact fun p k hk => (h4 p k hk).wider hm hr

theorem MayReach.wider {L L' : Looks} (hm : ∀ st, L.moment st → L'.moment st) (ha : ∀ a st, L.asks a st → L'.asks a st) (hr : ∀ how a st, L.reads how a st → L'.reads how a st)
    {H roots p} (h : MayReach L H roots p) : MayReach L' H roots p := by
  induction h with
  | root hv hs hp => exact .root hv (hs.wider hm ha hr) hp
  | step _ hs hp ih => exact .step ih (hs.wider hm ha hr) hp

/-- Outsiders let go of the locks in `S`. -/
noncomputable def letGo (S : Ptr → Prop) (st : Store) : Store := by
  classical exact { st with lock := fun a => if S a then { st.lock a with othersExclusive := false } else st.lock a }

theorem letGo_own (S : Ptr → Prop) (st : Store) : Store.SameOwn st (letGo S st) := by
  refine ⟨fun a => ?_, fun p => ⟨rfl, rfl⟩⟩
  simp only [letGo]
  split <;> exact ⟨rfl, rfl⟩

theorem SeenAs.timeline {S : Ptr → Prop} {k i : Nat} {gs : List Shared} {env : Env} (hm : ∀ m s, env m s = letGo S s ∨ ∃ g ∈ gs, env m s = g.view k i) {g₀ : Shared} (h0 : g₀ ∈ gs) {n hs m st}
    (h : Timeline False env (g₀.view k i) n hs m st) : ∃ g ∈ gs, g.SeenAs S k i st := by
  have self : ∀ g : Shared, g.SeenAs S k i (g.view k i) := fun g => ⟨rfl, fun _ => rfl, fun _ _ => ⟨rfl, rfl, rfl, rfl, rfl⟩⟩
  induction h with
  | start => exact ⟨_, h0, self _⟩
  | @others hs m st _ ih =>
    rcases hm m st with e | ⟨g, hg, e⟩
    · obtain ⟨g, hg, h1, h2, h3⟩ := ih
      refine ⟨g, hg, ?_⟩
      rw [e]
      refine ⟨h1, h2, fun a ha => ?_⟩
      simp only [letGo, ha, if_false]
      exact h3 a ha
    · rw [e]; exact ⟨g, hg, self g⟩
  | acquire how a _ _ ih =>
    obtain ⟨g, hg, h1, h2, h3⟩ := ih
    refine ⟨g, hg, h1, h2, fun b hb => ?_⟩
    have := h3 b hb
    by_cases e : b = a
    · subst e; simp only [setAt, if_true]; cases how <;> exact this
    · simp only [setAt, e, if_false]; exact this
  | release how a ctl _ hp ih =>
    obtain ⟨g, hg, h1, h2, h3⟩ := ih
    refine ⟨g, hg, h1, h2, fun b hb => ?_⟩
    have := h3 b hb
    cases ctl with
    | unwinding => exact (hp rfl).elim
    | returned =>
      by_cases e : b = a
      · subst e; simp only [setAt, if_true]; cases how <;> exact this
      · simp only [setAt, e, if_false]; exact this
  | upgrade p _ _ ih =>
    obtain ⟨g, hg, h1, h2, h3⟩ := ih
    refine ⟨g, hg, h1, fun q => ?_, h3⟩
    by_cases e : q = p
    · subst e; simp only [setAt, if_true]; exact h2 q
    · simp only [setAt, e, if_false]; exact h2 q
  | drop p _ ih =>
    obtain ⟨g, hg, h1, h2, h3⟩ := ih
    refine ⟨g, hg, h1, fun q => ?_, h3⟩
    by_cases e : q = p
    · subst e; simp only [setAt, if_true]; exact h2 q
    · simp only [setAt, e, if_false]; exact h2 q

theorem Sys.Reaches.first {k : Nat} {y₀ y : Sys σ} {gs : List Shared} (h : y₀.Reaches k gs y) : y₀.shared ∈ gs := by
  induction h with
  | start => simp
  | step _ _ ih => exact List.mem_cons_of_mem _ ih

theorem looks_sys {D : Prop} {S : Ptr → Prop} {k i : Nat} {gs : List Shared} {env : Env} (he : env.Respectful) (hm : ∀ m s, env m s = letGo S s ∨ ∃ g ∈ gs, env m s = g.view k i) {g₀ : Shared}
    (h0 : g₀ ∈ gs) (n : Nat) :
    (∀ st, (env.looks D (g₀.view k i) n).moment st → (Sys.looks D S k i g₀ gs).moment st) ∧ (∀ a st, (env.looks D (g₀.view k i) n).asks a st → (Sys.looks D S k i g₀ gs).asks a st) ∧
      ∀ how a st, (env.looks D (g₀.view k i) n).reads how a st → (Sys.looks D S k i g₀ gs).reads how a st := by
  refine ⟨fun st ⟨hs, m, ht⟩ => SeenAs.timeline hm h0 ht, fun a st ⟨hs, ⟨m, ht⟩, hn⟩ => ⟨SeenAs.timeline hm h0 ht, fun hd => ?_⟩, fun how a st ⟨hs, ⟨m, ht⟩, hn⟩ => ⟨SeenAs.timeline hm h0 ht, fun hg => ?_⟩⟩
  · exact (ht.own he).lock (hn hd)
  · exact (ht.own he).held hg hn

theorem LiveDatum.SeesEach.wider {L L' : Looks} (hm : ∀ st, L.moment st → L'.moment st) (ha : ∀ a st, L.asks a st → L'.asks a st) (hr : ∀ how a st, L.reads how a st → L'.reads how a st)
    {l : List LiveDatum} {l' : List Datum} (h : LiveDatum.SeesEach L l l') : LiveDatum.SeesEach L' l l' := by
  induction h with
  | nil => exact .nil
  | cons hs _ ih => exact .cons (hs.wider hm ha hr) ih

/-! ## Each profile -/

/-- C83.  Each of several threads that profile at the same time, with their own builders, does exactly what it would do alone among other threads: for every interleaving of the looks of
the profiling threads with what the other threads of the program do, the thread `i` ends as a visit (of the model of C31, C61, C79, C81, C82) does for some behaviour `env` of other threads, which respects
its guards and shows it nothing but states of the run.  When it has ended, it has the guards and references that `env` leaves it. -/
theorem C83_each_alone {k : Nat} {y₀ y : Sys Builder} {gs : List Shared} (h : y₀.Reaches k gs y) (i : Nat) (hist : List (LProg × Fate)) (h0 : y₀.threads i = Builder.default.runRoots hist) :
    ∃ (env : Env) (n : Nat) (st : Store), env.Respectful ∧ (∀ m s, env m s = s ∨ ∃ g ∈ gs, env m s = g.view k i) ∧
      (∀ b ctl, y.threads i = .ended b ctl → Builder.default.useRootsL env hist (y₀.shared.view k i) 0 = .ended b st n ctl ∧
        (∀ a, (st.lock a).heldExclusive = (y.shared.lock a).exclusive i ∧ (st.lock a).heldShared = (y.shared.lock a).shared i) ∧ ∀ p, (st.count p).held = (y.shared.count p).held i) ∧
      (∀ e, y.threads i = .failed e → Builder.default.useRootsL env hist (y₀.shared.view k i) 0 = .failed e) := by
  obtain ⟨env, n, st, he, hm, -, ho, -, hx⟩ := reaches_exec h i id (fun _ => ⟨fun _ => ⟨rfl, rfl⟩, fun _ => ⟨rfl, rfl⟩⟩)
  have hx := hx env fun _ _ => rfl
  rw [h0, runRoots_exec] at hx
  refine ⟨env, n, st, he, hm, fun b ctl e => ⟨by rw [hx, e]; rfl, fun a => ?_, fun p => (ho.2 p).1.symm⟩, fun e' e => by rw [hx, e]; rfl⟩
  exact ⟨(ho.1 a).1.symm, (ho.1 a).2.symm⟩

/-- C83, for values.  If several threads profile at the same time, and one of them profiles `roots`: once it has nothing left to do, no panic has occurred, it has given back all guards and references,
and `finish` returns the profile of a snapshot of the data, in which each place is as it was at moments of the run, with the guards of the other profiling threads counted among those of others. -/
theorem C83_values [Target] (S : Ptr → Prop) (H : Ptr → LiveCell) (hcells : ∀ p, (H p).value.OK S) (roots : List LiveDatum) (hroots : ∀ v ∈ roots, v.OK S) {k : Nat} {y₀ y : Sys Builder} {gs : List Shared}
    (h : y₀.Reaches k gs y) (i fuel : Nat) (h0 : y₀.threads i = Builder.default.runRoots (liveVisits H fuel roots)) (hS : ∀ a, S a → (y₀.shared.lock a).exclusive i = false)
    (L : List Ptr) (hn : L.Nodup) (hL : ∀ p, MayReach (Sys.looks (OneOwner H roots) S k i y₀.shared gs) H roots p → p ∈ L) (hf : L.length ≤ fuel)
    (hend : (y.threads i).Finished) (ord : HashOrder TreeId) (ord' : HashOrder (List Str)) :
    ∃ b out, y.threads i = .ended b .returned ∧ y₀.shared.SameHeldBy i y.shared ∧ b.finish ord = .ok out ∧
      ∃ (ds : List Datum) (cells : Ptr → Cell) (reached : List Ptr) (recs : List Rec) (lines : List (Path × Nat)) (ws : List Path),
        LiveDatum.SeesEach (Sys.looks (OneOwner H roots) S k i y₀.shared gs) roots ds ∧ (∀ p, (H p).Sees (Sys.looks (OneOwner H roots) S k i y₀.shared gs) (cells p)) ∧ reached.Nodup ∧
        (∀ p, p ∈ reached ↔ ReachableCell cells ds p) ∧
        recs = ds.flatMap (fun d => d.report []) ++ reached.flatMap (fun p => (cells p).report) ∧
        out.flamegraph.write ord' = lines.flatMap renderLine ∧
        out.flamegraph.totalSize = attributed recs + (ws.map fun p => childrenAt recs p - sizeAt recs p).sum ∧
        out.warnings = ws.flatMap (renderWarning recs) ∧
        lines.Pairwise (fun a b => pathLt a.1.names b.1.names) ∧
        (∀ p n, (p, n) ∈ lines ↔ entered recs p ∧ n = selfSpec recs p ∧ n ≠ 0) ∧
        ws.Pairwise (fun a b => pathLt a.names b.names) ∧ ∀ p, p ∈ ws ↔ overfull recs p := by
  obtain ⟨env, n, st, he, hm, hD, ho, -, hx⟩ := reaches_exec h i (letGo S) (letGo_own S)
  have hx := hx env fun _ _ => rfl
  rw [h0, runRoots_exec] at hx
  obtain ⟨m1, m2, m3⟩ := looks_sys (D := OneOwner H roots) he hm h.first 0
  have hgo : env.LetsGo S (y₀.shared.view k i) 0 := by
    intro a ha
    refine ⟨hS a ha, fun hs m st' _ => ⟨n + 1, ?_⟩⟩
    simp only [Env.looksAgain]
    rw [hD _ (by omega)]
    simp only [letGo, ha, if_true]
  obtain ⟨b, st', n', out, hrun, hheld, -, hfin, ds, cells, reached, recs, lines, ws, g1, g2, g3⟩ :=
    C61_snapshot S env he H hcells roots hroots (y₀.shared.view k i) 0 hgo L hn (fun p hp => hL p (hp.wider m1 m2 m3)) fuel hf ord ord'
  rw [hrun] at hx
  have e : y.threads i = .ended b .returned ∧ st = st' := by
    revert hx hend
    cases y.threads i with
    | failed e => intro _ h; cases h
    | look a next => intro h; exact h.elim
    | ended s ctl => intro _ h; cases h; exact ⟨rfl, rfl⟩
  obtain ⟨e, rfl⟩ := e
  refine ⟨b, out, e, ⟨fun a => ?_, fun p => ?_⟩, hfin, ds, cells, reached, recs, lines, ws, ?_, fun p => ⟨(g2 p).1.wider m1 m2 m3, (g2 p).2⟩, g3⟩
  · exact ⟨(ho.1 a).1.trans (hheld.1 a).1, (ho.1 a).2.trans (hheld.1 a).2⟩
  · exact (ho.2 p).1.trans (hheld.2 p)
  · exact g1.wider m1 m2 m3

/-! ## Progress -/

theorem step_look {k : Nat} {i : Nat} {y y' : Sys σ} (h : Sys.Step k (some i) y y') :
    ∃ a next, y.threads i = .look a next ∧ a.ready (y.shared.view k i) = true ∧ y'.threads i = next (y.shared.view k i) := by
  cases h with
  | @look _ _ a next _ ht hr => exact ⟨a, next, ht, hr, if_pos rfl⟩

theorem step_other {k : Nat} {i : Nat} {w : Option Nat} {y y' : Sys σ} (h : Sys.Step k w y y') (hw : w ≠ some i) : y'.threads i = y.threads i := by
  cases h with
  | others => rfl
  | look _ _ _ => exact if_neg fun e => hw (by rw [e])

theorem stays {k : Nat} {who : Nat → Option Nat} {y : Nat → Sys σ} (h : Sys.Runs k who y) (i M : Nat) : ∀ d, (∀ n, M ≤ n → n < M + d → who n ≠ some i) → (y (M + d)).threads i = (y M).threads i := by
  intro d
  induction d with
  | zero => intro _; rfl
  | succ d ih =>
    intro hw
    rw [← ih fun n h1 h2 => hw n h1 (by omega)]
    exact step_other (h (M + d)) (hw _ (by omega) (by omega))

theorem first_time (p : Nat → Prop) : ∀ d M, p (M + d) → ∃ e, p (M + e) ∧ ∀ n, M ≤ n → n < M + e → ¬ p n := by
  intro d
  induction d with
  | zero => exact fun M h => ⟨0, h, fun n h1 h2 => by omega⟩
  | succ d ih =>
    intro M h
    by_cases hM : p M
    · exact ⟨0, hM, fun n h1 h2 => by omega⟩
    · obtain ⟨e, he, hn⟩ := ih (M + 1) (by rw [show M + 1 + d = M + (d + 1) by omega]; exact h)
      refine ⟨e + 1, by rw [show M + (e + 1) = M + 1 + e by omega]; exact he, fun n h1 h2 => ?_⟩
      by_cases hnM : n = M
      · rw [hnM]; exact hM
      · exact hn n (by omega) (by omega)

/-- C83: the looks of a thread end, in every run, whatever the schedule and whatever others do: no profile keeps another one going. -/
theorem C83_finitely_many_looks {k : Nat} {who : Nat → Option Nat} {y : Nat → Sys σ} (h : Sys.Runs k who y) (i : Nat) : ∃ N, ∀ n, N ≤ n → who n ≠ some i := by
  suffices hs : ∀ (r : Run σ) (M : Nat), (y M).threads i = r → ∃ N, ∀ n, N ≤ n → who n ≠ some i from hs _ 0 rfl
  have key : ∀ (r : Run σ) (M : Nat), (y M).threads i = r → (∀ n, M ≤ n → who n ≠ some i) ∨ ∃ a next st M', r = .look a next ∧ (y M').threads i = next st := by
    intro r M hM
    by_cases ex : ∃ n, M ≤ n ∧ who n = some i
    · right
      obtain ⟨n, hn, hw⟩ := ex
      obtain ⟨e, he, hmin⟩ := first_time (fun n => who n = some i) (n - M) M (by rw [Nat.add_sub_cancel' hn]; exact hw)
      have hst := h (M + e)
      rw [he] at hst
      obtain ⟨a, next, h1, -, h2⟩ := step_look hst
      rw [stays h i M e hmin, hM] at h1
      exact ⟨a, next, _, _, h1, h2⟩
    · exact .inl fun n hn hw => ex ⟨n, hn, hw⟩
  intro r
  induction r with
  | failed e => exact fun M hM => (key _ M hM).elim (fun h => ⟨M, h⟩) fun ⟨_, _, _, _, h, _⟩ => nomatch h
  | ended s ctl => exact fun M hM => (key _ M hM).elim (fun h => ⟨M, h⟩) fun ⟨_, _, _, _, h, _⟩ => nomatch h
  | look a next ih =>
    intro M hM
    rcases key _ M hM with h | ⟨a', next', st, M', e, h⟩
    · exact ⟨M, h⟩
    · cases e
      exact ih st M' h

theorem not_ready {st : Store} {a : Action} (h : a.ready st ≠ true) : ∃ how b, a = .call how b ∧ how.blocking = true ∧ (st.lock b).HeldExclusively := by
  cases a with
  | call how b =>
    have h := Bool.eq_false_iff.2 h
    simp only [Action.ready, Bool.or_eq_false_iff] at h
    have hb : how.blocking = true := by simpa using h.2
    refine ⟨how, b, rfl, hb, ?_⟩
    cases how <;> cases hb
    have := h.1
    simp only [Access.granted, LockState.readable, Bool.and_eq_false_iff, Bool.not_eq_false'] at this
    exact this
  | _ => exact (h rfl).elim

/-- C83: with a scheduler that does not forget it, a profile ends; the only thing that can keep it from that is a lock that it waits for (a shard of a `DashMap`), and that again and again, for ever, is held exclusively. -/
theorem C83_ends {k : Nat} {who : Nat → Option Nat} {y : Nat → Sys σ} (h : Sys.Runs k who y) (i : Nat) (hf : Sys.FairTo k i who y) :
    (∃ N, ((y N).threads i).Finished) ∨ ∃ N a, ∀ M, N ≤ M → ∃ n, M ≤ n ∧ (y n).WaitsAt k i a := by
  obtain ⟨N, hN⟩ := C83_finitely_many_looks h i
  have same : ∀ n, N ≤ n → (y n).threads i = (y N).threads i := fun n hn => by
    have := stays h i N (n - N) fun m h1 _ => hN m h1
    rwa [Nat.add_sub_cancel' hn] at this
  cases e : (y N).threads i with
  | failed _ => exact .inl ⟨N, by rw [e]; trivial⟩
  | ended _ _ => exact .inl ⟨N, by rw [e]; trivial⟩
  | look a next =>
    right
    have wait : ∀ M, N ≤ M → ∃ n, M ≤ n ∧ a.ready ((y n).shared.view k i) ≠ true := by
      intro M hM
      obtain ⟨n, hn, hw | hc⟩ := hf M
      · exact (hN n (by omega) hw).elim
      · exact ⟨n, hn, fun hr => hc ⟨a, next, by rw [same n (by omega), e], hr⟩⟩
    obtain ⟨n, -, hr⟩ := wait N (Nat.le_refl _)
    obtain ⟨how, b, rfl, hb, -⟩ := not_ready hr
    refine ⟨N, b, fun M hM => ?_⟩
    obtain ⟨n, hn, hr⟩ := wait M hM
    obtain ⟨how', b', e', -, hx⟩ := not_ready hr
    cases e'
    exact ⟨n, hn, ⟨how, next, by rw [same n (by omega), e], hb⟩, hx⟩

/-- All calls that are left to do are of this kind. -/
def Run.Calls (P : Access → Ptr → Prop) : Run σ → Prop
  | .look a next => (∀ how b, a = .call how b → P how b) ∧ ∀ st, (next st).Calls P
  | _ => True

theorem run_calls {P : Access → Ptr → Prop} (impl : VisitorImpl σ) (p : LProg) : (∀ how a, p.Takes how a → P how a) → ∀ kind s (k : σ → Ctl → Run σ), (∀ s ctl, (k s ctl).Calls P) → (p.run impl kind s k).Calls P := by
  have after : ∀ {kind fate ctl s} {f g : σ → Run σ}, (∀ s, (f s).Calls P) → (∀ s, (g s).Calls P) → (Run.afterChild impl kind fate ctl s f g).Calls P := by
    intro kind fate ctl s f g hf hg
    simp only [Run.afterChild]
    cases impl.finishChild kind fate ctl s with
    | error => trivial
    | ok s => cases ctl <;> first | exact hg s | exact hf s
  induction p with
  | done => exact fun _ _ s k hk => hk _ _
  | panic => exact fun _ _ s k hk => hk _ _
  | enter name size fate body rest ihb ihr =>
    intro h kind s k hk
    simp only [LProg.run]
    cases impl.enterInlineImpl s name size kind with
    | error => trivial
    | ok s => exact ihb (fun how a t => h how a (.enterBody _ _ _ _ _ t)) _ _ _ fun s ctl => after (fun s => hk _ _) fun s => ihr (fun how a t => h how a (.enterRest _ _ _ _ _ t)) _ _ _ hk
  | enterUnique name size fate body rest ihb ihr =>
    intro h kind s k hk
    simp only [LProg.run]
    cases impl.enterUniqueImpl s name size kind with
    | error => trivial
    | ok s => exact ihb (fun how a t => h how a (.uniqueBody _ _ _ _ _ t)) _ _ _ fun s ctl => after (fun s => hk _ _) fun s => ihr (fun how a t => h how a (.uniqueRest _ _ _ _ _ t)) _ _ _ hk
  | enterShared name size ptr fate body rs rn ihb ihs ihn =>
    intro h kind s k hk
    simp only [LProg.run]
    cases impl.enterSharedImpl s name size ptr kind with
    | error => trivial
    | ok x =>
      obtain ⟨b, s⟩ := x
      cases b with
      | false => exact ihn (fun how a t => h how a (.sharedNone _ _ _ _ _ _ _ t)) _ _ _ hk
      | true => exact ihb (fun how a t => h how a (.sharedBody _ _ _ _ _ _ _ t)) _ _ _ fun s ctl => after (fun s => hk _ _) fun s => ihs (fun how a t => h how a (.sharedSome _ _ _ _ _ _ _ t)) _ _ _ hk
  | catchUnwind body rest ihb ihr => exact fun h kind s k hk => ihb (fun how a t => h how a (.catchBody _ _ t)) _ _ _ fun s ctl => ihr (fun how a t => h how a (.catchRest _ _ t)) _ _ _ hk
  | access how a inside rest ihi ihr =>
    intro h kind s k hk
    have hr := ihr (fun how a t => h how a (.after _ _ _ _ t))
    refine ⟨fun how' b e => (by cases e; exact h _ _ (.here _ _)), fun st => ?_⟩
    dsimp only
    split
    · refine ihi (fun how a t => h how a (.inside _ _ _ _ t)) _ _ _ fun s ctl => ⟨fun how' b e => (nomatch e), fun st => ?_⟩
      cases ctl <;> first | exact hk _ _ | exact hr _ _ _ hk
    · exact hr _ _ _ hk
  | upgrade p inside rest ihi ihr =>
    intro h kind s k hk
    have hr := ihr (fun how a t => h how a (.afterUpgrade _ _ _ t))
    refine ⟨fun how' b e => (nomatch e), fun st => ?_⟩
    dsimp only
    split
    · refine ihi (fun how a t => h how a (.upgraded _ _ _ t)) _ _ _ fun s ctl => ⟨fun how' b e => (nomatch e), fun st => ?_⟩
      cases ctl <;> first | exact hk _ _ | exact hr _ _ _ hk
    · exact hr _ _ _ hk
  | load a next ih => exact fun h kind s k hk => ⟨fun how' b e => (nomatch e), fun st => ih _ (fun how a t => h how a (.loaded _ _ _ t)) _ _ _ hk⟩

theorem runRoots_calls {P : Access → Ptr → Prop} (hist : List (LProg × Fate)) (h : ∀ x ∈ hist, ∀ how a, x.1.Takes how a → P how a) : ∀ b : Builder, (b.runRoots hist).Calls P := by
  induction hist with
  | nil => exact fun _ => trivial
  | cons x rest ih =>
    intro b
    simp only [Builder.runRoots, Builder.runRoot]
    cases b.rootVisitor with
    | error => trivial
    | ok b =>
      refine run_calls _ _ (h x (by simp)) _ _ _ fun b ctl => ?_
      cases Builder.visitorImpl.finishChild .root x.2 ctl b with
      | error => trivial
      | ok b => exact ih (fun x hx => h x (by simp [hx])) b

theorem step_calls {P : Access → Ptr → Prop} {k : Nat} {w : Option Nat} {y y' : Sys σ} (h : Sys.Step k w y y') (i : Nat) (hn : (y.threads i).Calls P) : (y'.threads i).Calls P := by
  by_cases hw : w = some i
  · subst hw
    obtain ⟨a, next, h1, -, h2⟩ := step_look h
    rw [h1] at hn
    rw [h2]
    exact hn.2 _
  · rw [step_other h hw]; exact hn

theorem neverWaits_takes {p : LProg} (h : p.NeverWaits) (how : Access) (a : Ptr) (ht : p.Takes how a) : how.blocking = false := by
  cases hb : how.blocking with
  | false => rfl
  | true => exact (LProg.WaitsFor.not_neverWaits ⟨how, hb, ht⟩ h).elim

/-- C83: profiles do not wait for each other nor for anybody else, if there are no `DashMap`s in the data: at every moment each of them that has not ended can go on, whatever guards the others have. -/
theorem C83_never_wait {k : Nat} {y₀ y : Sys Builder} {gs : List Shared} (h : y₀.Reaches k gs y) (i : Nat) (hi : i < k) (hist : List (LProg × Fate)) (h0 : y₀.threads i = Builder.default.runRoots hist)
    (hw : ∀ x ∈ hist, x.1.NeverWaits) : (y.threads i).Finished ∨ ∃ y', Sys.Step k (some i) y y' := by
  have hn : (y.threads i).Calls fun how _ => how.blocking = false := by
    induction h with
    | start => rw [h0]; exact runRoots_calls hist (fun x hx => neverWaits_takes (hw x hx)) _
    | step _ hs ih => exact step_calls hs i ih
  cases e : y.threads i with
  | failed _ => exact .inl trivial
  | ended _ _ => exact .inl trivial
  | look a next =>
    rw [e] at hn
    by_cases hr : a.ready (y.shared.view k i) = true
    · exact .inr ⟨_, .look hi e hr⟩
    · obtain ⟨how, b, e, hb, -⟩ := not_ready hr
      rw [hn.1 how b e] at hb
      cases hb

/-- C83, for data with `DashMap`s: a profile never waits for another profile, only for others who have a shard locked exclusively. -/
theorem C83_waits_only_for_others {k : Nat} {y₀ y : Sys Builder} {gs : List Shared} (h : y₀.Reaches k gs y) (S : Ptr → Prop) (hists : Nat → List (LProg × Fate))
    (h0 : ∀ j, j < k → y₀.threads j = Builder.default.runRoots (hists j)) (hS : ∀ j, j < k → ∀ x ∈ hists j, ∀ how a, x.1.Takes how a → (how.blocking = true → S a) ∧ (S a → how.exclusive = false))
    (hfree : ∀ j, j < k → ∀ a, S a → (y₀.shared.lock a).exclusive j = false) (i : Nat) (hi : i < k) (a : Ptr) (hw : y.WaitsAt k i a) : (y.shared.lock a).outsideExclusive = true := by
  have inv : (∀ j, j < k → (y.threads j).Calls fun how a => (how.blocking = true → S a) ∧ (S a → how.exclusive = false)) ∧ ∀ j, j < k → ∀ a, S a → (y.shared.lock a).exclusive j = false := by
    clear hw
    induction h with
    | start => exact ⟨fun j hj => by rw [h0 j hj]; exact runRoots_calls _ (hS j hj) _, hfree⟩
    | step _ hs ih =>
      refine ⟨fun j hj => step_calls hs j (ih.1 j hj), fun j hj b hb => ?_⟩
      cases hs with
      | others hp => rw [(hp.1 b).1]; exact ih.2 j hj b hb
      | @look _ l act next hl ht hr =>
        by_cases e : j = l
        · subst e
          have hc := ih.1 j hj
          rw [ht] at hc
          have hold := ih.2 j hj b hb
          simp only [Shared.put, if_true]
          cases act with
          | call how c =>
            simp only [Action.act]
            split
            · by_cases hbc : b = c
              · subst hbc
                have := (hc.1 how b rfl).2 hb
                simp only [setAt, if_true]
                cases how <;> first | exact hold | cases this
              · simp only [setAt, hbc, if_false]; exact hold
            · exact hold
          | release how c ctl =>
            by_cases hbc : b = c
            · subst hbc
              simp only [Action.act, setAt, if_true]
              cases how <;> cases ctl <;> first | rfl | exact hold
            · simp only [Action.act, setAt, hbc, if_false]; exact hold
          | upgrade p => simp only [Action.act]; split <;> exact hold
          | dropRef p => exact hold
          | load p => exact hold
        · simp only [Shared.put, e, if_false]; exact ih.2 j hj b hb
  obtain ⟨⟨how, next, e, hb⟩, hx⟩ := hw
  have hc := inv.1 i hi
  rw [e] at hc
  have hSa := (hc.1 how a rfl).1 hb
  rcases hx with hx | hx
  · simp only [Shared.view, Bool.or_eq_true, List.any_eq_true, List.mem_range, Bool.and_eq_true] at hx
    rcases hx with hx | ⟨j, hj, -, hx⟩
    · exact hx
    · rw [inv.2 j hj a hSa] at hx; cases hx
  · have hx : (y.shared.lock a).exclusive i = true := hx
    rw [inv.2 i hi a hSa] at hx; cases hx

theorem Sys.Runs.reaches {k : Nat} {who : Nat → Option Nat} {y : Nat → Sys σ} (h : Sys.Runs k who y) : ∀ n, ∃ gs, (y 0).Reaches k gs (y n)
  | 0 => ⟨_, .start⟩
  | n + 1 => by obtain ⟨gs, hr⟩ := h.reaches n; exact ⟨_, hr.step (h n)⟩

/-- C83: so all profiles end, if the scheduler does not forget them and, for each shard of a `DashMap`, there comes a time after which others do not have it locked exclusively. -/
theorem C83_all_end {k : Nat} {who : Nat → Option Nat} {y : Nat → Sys Builder} (h : Sys.Runs k who y) (S : Ptr → Prop) (hists : Nat → List (LProg × Fate))
    (h0 : ∀ j, j < k → (y 0).threads j = Builder.default.runRoots (hists j)) (hS : ∀ j, j < k → ∀ x ∈ hists j, ∀ how a, x.1.Takes how a → (how.blocking = true → S a) ∧ (S a → how.exclusive = false))
    (hfree : ∀ j, j < k → ∀ a, S a → ((y 0).shared.lock a).exclusive j = false) (hf : ∀ i, i < k → Sys.FairTo k i who y)
    (ho : ∀ a, S a → ∃ N, ∀ n, N ≤ n → ((y n).shared.lock a).outsideExclusive = false) : ∀ i, i < k → ∃ N, ((y N).threads i).Finished := by
  intro i hi
  rcases C83_ends h i (hf i hi) with hd | ⟨N, a, hd⟩
  · exact hd
  · have hSa : S a := by
      obtain ⟨n, -, ⟨how, next, e, hb⟩, -⟩ := hd N (Nat.le_refl _)
      have : ∀ m, ((y m).threads i).Calls fun how a => (how.blocking = true → S a) ∧ (S a → how.exclusive = false) := by
        intro m
        induction m with
        | zero => rw [h0 i hi]; exact runRoots_calls _ (hS i hi) _
        | succ m ih => exact step_calls (h m) i ih
      have hc := this n
      rw [e] at hc
      exact (hc.1 how a rfl).1 hb
    obtain ⟨N', hN'⟩ := ho a hSa
    obtain ⟨n, hn, hw⟩ := hd (N + N') (by omega)
    obtain ⟨gs, hr⟩ := h.reaches n
    have := C83_waits_only_for_others hr S hists h0 hS hfree i hi a hw
    rw [hN' n (by omega)] at this
    cases this

/-- C83: the hypotheses on calls are met by all values of supported types. -/
theorem C83_live_calls [Target] (S : Ptr → Prop) (H : Ptr → LiveCell) (hcells : ∀ p, (H p).value.OK S) (roots : List LiveDatum) (hroots : ∀ v ∈ roots, v.OK S) (fuel : Nat) :
    ∀ x ∈ liveVisits H fuel roots, ∀ how a, x.1.Takes how a → (how.blocking = true → S a) ∧ (S a → how.exclusive = false) :=
  fun x hx how a ht => (liveVisits_fine hcells fuel roots hroots x hx).1.1 how a ht

/-! ## Arbitrary visits -/

/-- C83, for all programs of visitor calls and accesses that do not wait and end their visitors, panics included: once the thread has nothing left to do, its builder has not panicked, it has given back all guards and references, and its builder
is that of a history without locks (to which C01-C19 apply). -/
theorem C83_history {k : Nat} {y₀ y : Sys Builder} {gs : List Shared} (h : y₀.Reaches k gs y) (i : Nat) (hist : List (LProg × Fate)) (h0 : y₀.threads i = Builder.default.runRoots hist)
    (hh : ∀ x ∈ hist, x.1.NeverWaits ∧ x.1.Closes ∧ (x.2 = .exit ∨ x.2 = .drop)) (hend : (y.threads i).Finished) :
    ∃ hist' b, NoLeaks hist' ∧ y.threads i = .ended b .returned ∧ Builder.default.useRoots hist' = .ok b ∧ y₀.shared.SameHeldBy i y.shared ∧
      ∃ env : Env, (∀ m s, env m s = s ∨ ∃ g ∈ gs, env m s = g.view k i) ∧ ResolvesEach (env.Occurs True (y₀.shared.view k i) 0) (fun _ => False) hist hist' := by
  obtain ⟨env, n, st, he, hm, hE, hF⟩ := C83_each_alone h i hist h0
  obtain ⟨hist', b, st', n', h1, h2, h3, h4, h5, -⟩ := C31_history True env he hist hh (fun h => (h trivial).elim) (y₀.shared.view k i) 0
  cases e : y.threads i with
  | look a next => rw [e] at hend; exact hend.elim
  | failed e' => have := hF e' e; rw [h3] at this; cases this
  | ended b' ctl =>
    obtain ⟨hx, ho, hp⟩ := hE b' ctl e
    rw [h3] at hx
    cases hx
    exact ⟨hist', b, h2, rfl, h4, ⟨fun a => ⟨(ho a).1.symm.trans (h5.1 a).1, (ho a).2.symm.trans (h5.1 a).2⟩, fun p => (hp p).symm.trans (h5.2 p)⟩, env, hm, h1⟩

/-! ## Profiles hide things from each other -/

namespace ThreadsEx
attribute [local instance] Target.x64

def tMutex : Ty := ⟨ascii "Mutex", 32, true⟩

/-- A `Mutex` at address 1 with 24 bytes in it. -/
def hist : List (LProg × Fate) := [(LImpl.cell .stdTryLock 1 tMutex 24 .done, .exit)]

/-- Nobody has a lock. -/
def free : Shared := ⟨fun _ => ⟨false, 0, false, false, true, fun _ => false, fun _ => 0⟩, fun _ => ⟨1, fun _ => 0, fun _ => 0⟩, fun _ => 2⟩

def y₀ : Sys Builder := ⟨free, fun _ => Builder.default.runRoots hist⟩

/-- The step of the thread `i`, if it can look. -/
def next (i : Nat) (y : Sys Builder) : Sys Builder :=
  match y.threads i with
  | .look a nx => ⟨y.shared.put i (a.act (y.shared.view 2 i)), fun j => if j = i then nx (y.shared.view 2 i) else y.threads j⟩
  | _ => y

def canLook (i : Nat) (y : Sys Builder) : Bool :=
  match y.threads i with
  | .look a _ => a.ready (y.shared.view 2 i)
  | _ => false

theorem next_step (i : Nat) (hi : i < 2) (y : Sys Builder) (h : canLook i y = true) : Sys.Step 2 (some i) y (next i y) := by
  unfold canLook at h
  unfold next
  split at h
  · rename_i a nx e
    exact .look hi e h
  · cases h

/-- The first thread locks, the second finds the mutex locked, the first unlocks. -/
def y₃ : Sys Builder := next 0 (next 1 (next 0 y₀))

theorem reaches : y₀.Reaches 2 [y₃.shared, (next 1 (next 0 y₀)).shared, (next 0 y₀).shared, y₀.shared] y₃ :=
  ((Sys.Reaches.start.step (next_step 0 (by decide) _ rfl)).step (next_step 1 (by decide) _ rfl)).step (next_step 0 (by decide) _ rfl)

def seen : List (Prog × Fate) := [(.enter tMutex.key 32 .exit (.enter dataName 24 .exit .done .done) .done, .exit)]
def notSeen : List (Prog × Fate) := [(.enter tMutex.key 32 .exit .done .done, .exit)]

theorem first : ∃ b, y₃.threads 0 = .ended b .returned ∧ Builder.default.useRoots seen = .ok b := ⟨_, rfl, rfl⟩
theorem second : ∃ b, y₃.threads 1 = .ended b .returned ∧ Builder.default.useRoots notSeen = .ok b := ⟨_, rfl, rfl⟩

end ThreadsEx

/-- C83, hazard: two profiles of the same data at the same time, while nobody else uses the locks in it: one shows the 24 bytes in a mutex, the other does not, because it found the mutex locked by the first. -/
theorem C83_profiles_hide : ∃ (hist : List (LProg × Fate)) (y₀ y : Sys Builder) (gs : List Shared) (b b' : Builder) (p : Path),
    y₀.threads 0 = Builder.default.runRoots hist ∧ y₀.threads 1 = Builder.default.runRoots hist ∧ y₀.Reaches 2 gs y ∧
    (∀ g ∈ gs, ∀ a, (g.lock a).outsideExclusive = false ∧ (g.lock a).outsideShared = 0 ∧ (g.lock a).refuses = false ∧ (g.lock a).poisoned = false) ∧
    y.threads 0 = .ended b .returned ∧ y.threads 1 = .ended b' .returned ∧
    ∀ ord ord' : HashOrder TreeId, ∃ out out', b.finish ord = .ok out ∧ b'.finish ord' = .ok out' ∧ out.flamegraph.selfAt p = some 24 ∧ out'.flamegraph.selfAt p = none := by
  obtain ⟨b, e, hb⟩ := ThreadsEx.first
  obtain ⟨b', e', hb'⟩ := ThreadsEx.second
  refine ⟨ThreadsEx.hist, ThreadsEx.y₀, ThreadsEx.y₃, _, b, b', [ThreadsEx.tMutex.key, dataName], rfl, rfl, ThreadsEx.reaches, ?_, e, e', fun ord ord' => ?_⟩
  · intro g hg a
    simp only [List.mem_cons, List.not_mem_nil, or_false] at hg
    have e1 : (ThreadsEx.next 0 ThreadsEx.y₀).shared = ThreadsEx.free.put 0 ((Action.call .stdTryLock 1).act (ThreadsEx.free.view 2 0)) := rfl
    have e2 : (ThreadsEx.next 1 (ThreadsEx.next 0 ThreadsEx.y₀)).shared = (ThreadsEx.next 0 ThreadsEx.y₀).shared.put 1 ((Action.call .stdTryLock 1).act ((ThreadsEx.next 0 ThreadsEx.y₀).shared.view 2 1)) := rfl
    have e3 : ThreadsEx.y₃.shared = (ThreadsEx.next 1 (ThreadsEx.next 0 ThreadsEx.y₀)).shared.put 0 ((Action.release .stdTryLock 1 .returned).act ((ThreadsEx.next 1 (ThreadsEx.next 0 ThreadsEx.y₀)).shared.view 2 0)) := rfl
    have f0 : (ThreadsEx.y₀.shared.lock a).poisoned = false := rfl
    have f1 : ((ThreadsEx.next 0 ThreadsEx.y₀).shared.lock a).poisoned = false := by
      rw [e1]
      by_cases h : a = 1
      · subst h; rfl
      · simp only [Shared.put, Action.act]; split <;> simp [setAt, h, Shared.view, ThreadsEx.free]
    have f2 : ((ThreadsEx.next 1 (ThreadsEx.next 0 ThreadsEx.y₀)).shared.lock a).poisoned = false := by
      rw [e2]
      by_cases h : a = 1
      · subst h; rfl
      · simp only [Shared.put, Action.act]; split <;> simp [setAt, h, Shared.view, f1]
    have f3 : (ThreadsEx.y₃.shared.lock a).poisoned = false := by
      rw [e3]
      by_cases h : a = 1
      · subst h; rfl
      · simp [Shared.put, Action.act, setAt, h, Shared.view, f2]
    rcases hg with rfl | rfl | rfl | rfl
    · exact ⟨rfl, rfl, rfl, f3⟩
    · exact ⟨rfl, rfl, rfl, f2⟩
    · exact ⟨rfl, rfl, rfl, f1⟩
    · exact ⟨rfl, rfl, rfl, f0⟩
  · obtain ⟨out, h1, h2⟩ := C01_self_sizes ThreadsEx.seen (by decide) ord
    obtain ⟨out', h1', h2'⟩ := C01_self_sizes ThreadsEx.notSeen (by decide) ord'
    rw [run, hb] at h1
    rw [run, hb'] at h1'
    refine ⟨out, out', h1, h1', ?_, ?_⟩
    · rw [(h2 _ (by simp)).1 (by decide)]
      decide
    · exact (h2' _ (by simp)).2 (by decide)

/-! Two profiles of the `Arc<Mutex<String>>` of C61 at the same time, and the run above with a third kind of step: another thread changes the string in between. -/
namespace ThreadsEx
open LiveEx (H roots vals_ok roots_ok reach S)
attribute [local instance] Target.x64

def y₀' : Sys Builder := ⟨free, fun _ => Builder.default.runRoots (liveVisits H 1 roots)⟩

/-- Another thread of the program writes to the memory at 1. -/
def write (x : Nat) (y : Sys Builder) : Sys Builder := ⟨{ y.shared with mem := setAt y.shared.mem 1 x }, y.threads⟩

theorem write_step (x : Nat) (y : Sys Builder) : Sys.Step 2 none y (write x y) := .others ⟨fun _ => ⟨rfl, rfl⟩, fun _ => ⟨rfl, rfl⟩⟩

/-- Thread 0 locks; thread 1 finds the mutex locked, and ends; the string is changed; thread 0 reads it and unlocks. -/
def y₁' := next 0 y₀'
def y₂' := next 1 y₁'
def y₃' := write 4 y₂'
def y₄' := next 0 y₃'
def y₅' := next 0 y₄'

set_option maxRecDepth 20000 in
theorem reaches' : y₀'.Reaches 2 [y₅'.shared, y₄'.shared, y₃'.shared, y₂'.shared, y₁'.shared, y₀'.shared] y₅' :=
  ((((Sys.Reaches.start.step (next_step 0 (by decide) _ rfl)).step (next_step 1 (by decide) _ rfl)).step (write_step 4 _)).step (next_step 0 (by decide) _ rfl)).step (next_step 0 (by decide) _ rfl)

set_option maxRecDepth 20000 in
example (ord : HashOrder TreeId) (ord' : HashOrder (List Str)) := C83_values S H vals_ok roots roots_ok reaches' 0 1 rfl (fun _ h => h.elim) [7] (by simp) (fun p h => by rw [reach _ _ (fun _ => rfl) p h]; simp) (by simp) (by trivial) ord ord'
set_option maxRecDepth 20000 in
example (ord : HashOrder TreeId) (ord' : HashOrder (List Str)) := C83_values S H vals_ok roots roots_ok reaches' 1 1 rfl (fun _ h => h.elim) [7] (by simp) (fun p h => by rw [reach _ _ (fun _ => rfl) p h]; simp) (by simp) (by trivial) ord ord'
set_option maxRecDepth 20000 in
example := C83_each_alone reaches' 0 _ rfl

theorem waits : ∀ x ∈ hist, x.1.NeverWaits ∧ x.1.Closes ∧ (x.2 = .exit ∨ x.2 = .drop) := by
  intro x hx
  simp only [hist, List.mem_cons, List.not_mem_nil, or_false] at hx
  subst hx
  exact ⟨⟨⟨rfl, ⟨trivial, trivial⟩, trivial⟩, trivial⟩, ⟨.inl rfl, ⟨⟨.inl rfl, trivial, trivial⟩, trivial⟩, trivial⟩, .inl rfl⟩

example := C83_history reaches 1 hist rfl waits (by trivial)
example := C83_never_wait reaches 0 (by decide) hist rfl fun x hx => (waits x hx).1

/-- An infinite run: the three steps, and then others for ever (who do nothing). -/
def who : Nat → Option Nat
  | 0 => some 0
  | 1 => some 1
  | 2 => some 0
  | _ => none
def runs : Nat → Sys Builder
  | 0 => y₀
  | 1 => next 0 y₀
  | 2 => next 1 (next 0 y₀)
  | _ => y₃

theorem runs_ok : Sys.Runs 2 who runs
  | 0 => next_step 0 (by decide) _ rfl
  | 1 => next_step 1 (by decide) _ rfl
  | 2 => next_step 0 (by decide) _ rfl
  | _ + 3 => .others ⟨fun _ => ⟨rfl, rfl⟩, fun _ => ⟨rfl, rfl⟩⟩

theorem fair (i : Nat) (hi : i < 2) : Sys.FairTo 2 i who runs := by
  intro n
  refine ⟨n + 3, by omega, .inr ?_⟩
  rintro ⟨a, next, e, -⟩
  have e : y₃.threads i = .look a next := e
  match i, hi with
  | 0, _ => cases e
  | 1, _ => cases e

example := C83_all_end runs_ok (fun _ => False) (fun _ => hist) (fun _ _ => rfl) (fun j _ x hx how a ht => ⟨fun hb => (by rw [neverWaits_takes (waits x hx).1 how a ht] at hb; cases hb), fun h => h.elim⟩)
  (fun _ _ _ h => h.elim) fair (fun _ h => h.elim)
example := C83_ends runs_ok 1 (fair 1 (by decide))
example := C83_finitely_many_looks runs_ok 0

/-- A shard at address 5 that somebody has locked: the thread that reads it waits. -/
def shard : List (LProg × Fate) := [(.access .read 5 .done .done, .exit)]
def busy : Shared := { free with lock := fun _ => { free.lock 0 with outsideExclusive := true } }
def z₀ : Sys Builder := ⟨busy, fun _ => Builder.default.runRoots shard⟩

theorem z_waits : z₀.WaitsAt 2 0 5 := ⟨⟨.read, _, rfl, rfl⟩, .inl rfl⟩

example : (z₀.shared.lock 5).outsideExclusive = true := C83_waits_only_for_others (k := 2) .start (fun a => a = 5) (fun _ => shard) (fun _ _ => rfl)
  (by
    intro j _ x hx how a ht
    simp only [shard, List.mem_cons, List.not_mem_nil, or_false] at hx
    subst hx
    cases ht with
    | here => exact ⟨fun _ => rfl, fun _ => rfl⟩
    | inside _ _ _ _ h => cases h
    | after _ _ _ _ h => cases h) (fun _ _ _ _ => rfl) 0 (by decide) 5 z_waits

end ThreadsEx

end Allocative
