import Verif.Props.LiveMachine
import Verif.Props.DepthAtMost
import Verif.Props.DepthValues
import Verif.Props.Growth
import Verif.Lemmas.LiveEvents
set_option linter.unusedSimpArgs false
/-
C81: how many calls, how much memory of the builder and how many visitors at the same time it takes to profile data that other threads change.
-/
namespace Allocative

/-- `useRootsL_waits`, with the log of the calls. -/
theorem useRootsLLogged_waits {panics : Prop} {T : Access → Ptr → Prop} {I : List Hold → Store → Prop} {W : Ptr → Prop} {J : List Hold → Nat → Store → Prop} (env : Env) (he : env.Respectful) (hM : Moments panics env T I W J)
    (hist : List (LProg × Fate)) (hh : ∀ x ∈ hist, x.1.Closes ∧ (x.2 = .exit ∨ x.2 = .drop))
    (hT : ∀ x ∈ hist, ∀ how a, x.1.Takes how a → T how a) (hn : ¬ panics → ∀ x ∈ hist, x.1.NoCatch ∧ ∀ q, Resolves I W [] x.1 q → ∀ vis, (q.trace [] vis).ctl = .returned) : ∀ b evs recs paths st n, J [] n st → Idle b recs paths →
    (∃ a, b.useRootsLLogged env evs hist st n = .stuck a ∧ WaitsAt W hist a) ∨ ∃ hist' b' log st' n', ResolvesEach I W hist hist' ∧ (∀ vis, (traceRoots hist' vis).leaked = 0) ∧
      b.useRootsLLogged env evs hist st n = .ended (b', log) st' n' .returned ∧ b.useRootsLogged evs hist' = .ok (b', log) ∧ st.SameHeld st' := by
  induction hist with
  | nil => intro b evs recs paths st n hj h; exact .inr ⟨[], b, evs, st, n, .nil, fun _ => rfl, rfl, rfl, .refl _⟩
  | cons x hist ih =>
    intro b evs recs paths st n hj h
    obtain ⟨p, f⟩ := x
    obtain ⟨hc, hf⟩ := hh (p, f) (by simp)
    have hroot : b.rootVisitor = .ok { b with enteredRootVisitor := true } := by
      simp only [Builder.rootVisitor, h.notEntered, Bool.false_eq_true, if_false]
    have hx : (∃ a, execL Builder.visitorImpl.logged env p .root ({ b with enteredRootVisitor := true }, evs ++ [.root]) st n = .stuck a ∧ WaitsAt W ((p, f) :: hist) a) ∨ ∃ q, Resolves I W [] p q ∧
        match execL Builder.visitorImpl.logged env p .root ({ b with enteredRootVisitor := true }, evs ++ [.root]) st n with
        | .stuck _ => False
        | .failed e => exec Builder.visitorImpl.logged q .root ({ b with enteredRootVisitor := true }, evs ++ [.root]) = .error e
        | .ended s' st' n' ctl => exec Builder.visitorImpl.logged q .root ({ b with enteredRootVisitor := true }, evs ++ [.root]) = .ok (s', ctl) ∧ st.SameHeld st' ∧
          ((ctl = .unwinding → panics) → J [] n' st') := by
      have h := execL_good Builder.visitorImpl.logged env he hM p (hT (p, f) (by simp)) (fun hp => (hn hp (p, f) (by simp)).1) [] .root ({ b with enteredRootVisitor := true }, evs ++ [.root]) st n hj
      revert h
      generalize execL Builder.visitorImpl.logged env p .root ({ b with enteredRootVisitor := true }, evs ++ [.root]) st n = x
      intro h
      cases x with
      | failed e => exact .inr h
      | stuck a => exact .inl ⟨a, rfl, ⟨_, List.mem_cons_self, h.1⟩, h.2⟩
      | ended s' st' n' ctl => exact .inr h
    rcases hx with ⟨a, hx, hw⟩ | ⟨q, hq, hx⟩
    · exact .inl ⟨a, by simp only [Builder.useRootsLLogged, Builder.useRootLLogged, hroot, hx], hw⟩
    have hqc := hq.closes hc
    have hleak : ∀ vis, (q.trace [] vis).leaked = 0 := fun vis => closes_noLeak q [] vis hqc
    have hleak' : ∀ ctl, f.leaks ctl = 0 := by intro ctl; rcases hf with rfl | rfl <;> cases ctl <;> rfl
    obtain ⟨b1, paths1, e1, h1, hv1⟩ := h.useRoot (prog := q) (fate := f) (hleak _) (hleak' _)
    -- the logged run of the resolved program ends in the same builder
    have el : ∃ evs1, b.useRootLogged evs q f = .ok (b1, evs1) := by
      have := useRootLogged_erase b evs q f
      rw [e1] at this
      cases hl : b.useRootLogged evs q f with
      | error e => rw [hl] at this; cases this
      | ok r => obtain ⟨b2, evs2⟩ := r; rw [hl] at this; cases this; exact ⟨_, rfl⟩
    obtain ⟨evs1, el⟩ := el
    -- a panic of the visit is a panic of the resolved program
    have ectl : ∀ s' ctl, exec Builder.visitorImpl.logged q .root ({ b with enteredRootVisitor := true }, evs ++ [.root]) = .ok (s', ctl) → ctl = (q.trace [] b.visitedShared).ctl := by
      intro s' ctl e
      have := exec_logged_erase Builder.visitorImpl q .root { b with enteredRootVisitor := true } (evs ++ [.root])
      rw [e] at this
      simp only [Builder.useRoot, hroot, ← this, eraseLog] at e1
      split at e1
      · cases e1
      · simp only [Except.ok.injEq, Prod.mk.injEq] at e1
        exact e1.2
    -- the run with locks follows the run of the resolved program
    have hL : ∃ st1 n1 ctl, b.useRootLLogged env evs p f st n = .ended (b1, evs1) st1 n1 ctl ∧ st.SameHeld st1 ∧ J [] n1 st1 := by
      simp only [Builder.useRootLogged, hroot] at el
      simp only [Builder.useRootLLogged, hroot]
      revert hx
      generalize execL Builder.visitorImpl.logged env p .root ({ b with enteredRootVisitor := true }, evs ++ [.root]) st n = y
      intro hx
      cases y with
      | failed e => simp only at hx; rw [hx] at el; cases el
      | stuck a => exact hx.elim
      | ended s' st' n' ctl =>
        simp only at hx
        have hctl := ectl _ _ hx.1
        rw [hx.1] at el
        simp only at el ⊢
        rw [el]
        refine ⟨st', n', ctl, rfl, hx.2.1, hx.2.2 fun hu => Classical.byContradiction fun hp => ?_⟩
        have := (hn hp (p, f) (by simp)).2 q hq b.visitedShared
        rw [← hctl, hu] at this
        cases this
    obtain ⟨st1, n1, ctl, e2, hs, hj1⟩ := hL
    rcases ih (fun x hx => hh x (by simp [hx])) (fun x hx => hT x (by simp [hx])) (fun hp x hx => hn hp x (by simp [hx])) b1 evs1 _ _ st1 n1 hj1 h1 with ⟨a, hx', ⟨x, hxm, hxw⟩, hw⟩ | ⟨hist', b2, log, st2, n2, hr, hl, e3, e4, hs'⟩
    · exact .inl ⟨a, by simp only [Builder.useRootsLLogged, e2, hx'], ⟨x, by simp [hxm], hxw⟩, hw⟩
    refine .inr ⟨(q, f) :: hist', b2, log, st2, n2, .cons hq hr, ?_, ?_, ?_, hs.trans hs'⟩
    · intro vis; simp only [traceRoots, hleak, hleak', hl]
    · simp only [Builder.useRootsLLogged, e2, e3]
    · simp only [Builder.useRootsLogged, el, e4]

/-- C81. Roots with locks, cells, weak pointers and `DashMap`s in them and in what they share, which other threads change meanwhile, as in C61.  There is a snapshot, in which each place is as it was
seen at moments during the visits, such that the visits
- call `enter`, `enter_unique` and `enter_shared` exactly as often as the report of the snapshot has entries: once for each root and part of one, and once for each shared allocation reached, however many pointers lead to it;
- remember the address of each shared allocation of the snapshot once, and of nothing else;
- leave at most one tree node for each call, and one for the root;
- have at most `1 + (1 + k) * (2 + 4 m)` visitors alive at the same time, if no root and shared allocation of the snapshot is nested deeper than `m` and `k` shared allocations are reached, and none at the end. -/
theorem C81_live_cost [Target] (S : Ptr → Prop) (env : Env) (he : env.Respectful) (H : Ptr → LiveCell) (hcells : ∀ p, (H p).value.OK S) (roots : List LiveDatum)
    (hroots : ∀ v ∈ roots, v.OK S) (st : Store) (n : Nat) (hS : env.LetsGo S st n) (L : List Ptr) (hn : L.Nodup) (hL : ∀ p, MayReach (env.looks (OneOwner H roots) st n) H roots p → p ∈ L) (fuel : Nat) (hf : L.length ≤ fuel) :
    ∃ b log st' n', Builder.default.useRootsLLogged env [] (liveVisits H fuel roots) st n = .ended (b, log) st' n' .returned ∧
      Builder.default.useRootsL env (liveVisits H fuel roots) st n = .ended b st' n' .returned ∧
      ∃ (ds : List Datum) (cells : Ptr → Cell) (reached : List Ptr),
        LiveDatum.SeesEach (env.looks (OneOwner H roots) st n) roots ds ∧ (∀ p, (H p).Sees (env.looks (OneOwner H roots) st n) (cells p)) ∧ reached.Nodup ∧
        (∀ p, p ∈ reached ↔ ReachableCell cells ds p) ∧ (∀ p ∈ reached, p ∈ L) ∧
        log.countP Event.enters = (ds.flatMap fun d => d.report []).length + (reached.flatMap fun p => (cells p).report).length ∧
        b.visitedShared.Perm reached ∧ b.trees.length ≤ 1 + log.countP Event.enters ∧
        (∀ m, (∀ d ∈ ds, d.nesting ≤ m) → (∀ p ∈ reached, (cells p).datum.nesting ≤ m) → peakLive 0 log ≤ 1 + (1 + reached.length) * (2 + 4 * m)) ∧
        liveVisitors 0 log = 0 := by
  have hfine := liveVisits_fine hcells fuel roots hroots
  have hB := env.looks_begins (OneOwner H roots) he st n hS
  have hno : ∀ x ∈ liveVisits H fuel roots, ∀ a, x.1.WaitsFor a → ¬ env.HeldForEver False (fun how b => ∃ x ∈ liveVisits H fuel roots, x.1.Takes how b) st n a := by
    rintro x hx a ⟨how, hb, ht⟩
    have hSa := ((hfine x hx).1.1 how a ht).1 hb
    exact hS.not_forEver he hSa fun how ⟨y, hy, h⟩ => ((hfine y hy).1.1 how a h).2 hSa
  obtain ⟨hist, b, log, st', n', hr, hnl, hrun, hb⟩ : ∃ hist b log st' n', ResolvesEach (env.Occurs False st n) (fun _ => False) (liveVisits H fuel roots) hist ∧ NoLeaks hist ∧
      Builder.default.useRootsLLogged env [] (liveVisits H fuel roots) st n = .ended (b, log) st' n' .returned ∧ Builder.default.useRootsLogged [] hist = .ok (b, log) := by
    rcases useRootsLLogged_waits env he (.timeline False env (fun how b => ∃ x ∈ liveVisits H fuel roots, x.1.Takes how b) st n) (liveVisits H fuel roots)
      (fun x hx => ⟨(hfine x hx).1.2.1, .inl (hfine x hx).2⟩) (fun x hx _ _ h => ⟨x, hx, h⟩) (by
        intro _ x hx
        have hn' := hno x hx
        obtain ⟨v, hv, rfl⟩ := List.mem_map.1 hx
        exact ⟨live_noCatch H fuel v, fun q hq => live_returns env he H hcells roots hroots st n hS L hL fuel hf v hv q (hq.mono hn')⟩) _ [] _ _ st n Moments.start Idle.default with
      ⟨a, -, ⟨x, hx, hw⟩, h⟩ | ⟨hist', b, log, st', n', h1, h2, h3, h4, -⟩
    · exact (hno x hx a hw h).elim
    · exact ⟨hist', b, log, st', n', h1.mono hno, h2 [], h3, h4⟩
  have hplain : Builder.default.useRootsL env (liveVisits H fuel roots) st n = .ended b st' n' .returned := by
    have := useRootsLLogged_erase env (liveVisits H fuel roots) Builder.default [] st n
    rw [hrun] at this
    exact this.symm
  obtain ⟨ds, cells, hds, hcs, htr⟩ := roots_spec hB hcells fuel roots hroots (fun h => ⟨h.nestedCell, h.oneCell⟩) (fun v hv vis => OneOwner.ready id hv vis) hist hr []
  have htr : traceRoots hist [] = traceRoots (visits (fun p => (cells p).visit) fuel (ds.map fun d => d.value.visit)) [] := htr
  have hdsWF : ∀ d ∈ ds, d.WF := by
    intro d hd
    obtain ⟨v, hv, hsd⟩ := seesEach_mem hds d hd
    exact sees_WF hsd (hroots v hv)
  have hcWF : ∀ p, (cells p).datum.WF := by
    intro p
    exact sees_WF (hcs p).1 (hcells p)
  have hreach : ∀ p, ReachableCell cells ds p → MayReach (env.looks (OneOwner H roots) st n) H roots p := by
    intro p hp
    induction hp with
    | root hd hp =>
      obtain ⟨v, hv, hsd⟩ := seesEach_mem hds _ hd
      exact .root hv hsd hp
    | step _ hp ih =>
      rename_i q p _
      exact .step ih (hcs q).1 hp
  have : ∃ reached : List Ptr, reached.Nodup ∧ reached.length ≤ L.length ∧ (∀ p, p ∈ reached ↔ ReachableCell cells ds p) ∧ ∀ p ∈ reached, p ∈ L := by
    classical
    refine ⟨L.filter fun p => ReachableCell cells ds p, hn.filter _, List.length_filter_le _ _, ?_, fun p hp => (List.mem_filter.1 hp).1⟩
    intro p
    simp only [List.mem_filter, decide_eq_true_eq]
    exact ⟨fun h => h.2, fun h => ⟨hL p (hreach p h), h⟩⟩
  obtain ⟨reached, hrn, hrl, hrm, hrL⟩ := this
  have hrf := Nat.le_trans hrl hf
  have hrec : records hist = records (visits (fun p => (cells p).visit) fuel (ds.map fun d => d.value.visit)) := by
    unfold records
    rw [htr]
  obtain ⟨hp, -⟩ := snapshot_records hdsWF hcWF hrn hrm hrf
  rw [← hrec] at hp
  obtain ⟨-, hvis, -⟩ := visits_spec (fun p => (cells p).visit) (ds.map fun d => d.value.visit) reached hrn
    (fun p => (hrm p).trans (reachable_iff hdsWF (fun p _ => hcWF p) p).symm) fuel hrf
  rw [← htr] at hvis
  -- the calls are the records
  have hcalls : log.countP Event.enters = (records hist).length := by
    obtain ⟨b', log', e, -, h⟩ := C11_stacks_of_calls hist hnl
    rw [hb] at e
    cases e
    exact replay_length _ _ _ _ h
  have huse : Builder.default.useRoots hist = .ok b := by
    have := useRootsLogged_erase hist Builder.default []
    rw [hb] at this
    exact this.symm
  obtain ⟨b', stacks, e, -, -, htrees, hst, hvs, -⟩ := C65_memory hist hnl
  rw [huse] at e
  cases e
  obtain ⟨b', log', e, -, hpeak, hend⟩ := C67_at_most hist hnl
  rw [hb] at e
  cases e
  have hreached : b.visitedShared.Perm reached := by rw [hvs]; exact hvis
  refine ⟨b, log, st', n', hrun, hplain, ds, cells, reached, hds, hcs, hrn, hrm, hrL, ?_, hreached, by omega, fun m hm hm' => ?_, hend⟩
  · rw [hcalls, hp.length_eq, List.length_append]
  · rw [hreached.length_eq] at hpeak
    refine Nat.le_trans hpeak (Nat.add_le_add_left (Nat.mul_le_mul_left _ ?_) 1)
    rw [hrec]
    by_cases hne : ds = []
    · subst hne
      exact Nat.zero_le _
    · exact (C67_values cells ds hdsWF reached hrn hrm (fun p _ => hcWF p) fuel hrf hne).2 m hm hm'

namespace LiveCostEx

attribute [local instance] Target.x64
open LiveEx

/-- The hypotheses are met by an `Arc<Mutex<String>>` that two roots share, while another thread now and then has the mutex. -/
example (st : Store) (n : Nat) :=
  C81_live_cost S env respectful H vals_ok roots roots_ok st n (letsGo st n) [7] (by simp) (fun p h => by rw [reach _ _ (fun _ => rfl) p h]; simp) 1 (by simp)

end LiveCostEx
end Allocative
