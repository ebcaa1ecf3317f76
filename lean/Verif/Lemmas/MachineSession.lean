import Verif.Model.MachineSession
import Verif.Lemmas.Wrap
import Verif.Props.Session
set_option linter.unusedSimpArgs false
/-
Sessions with machine arithmetic.
-/
namespace Allocative.Machine

/-! ### Release builds -/

def wrapS [Target] (s : Session) : Session := ⟨wrapB s.builder, s.live⟩

theorem step_off [Target] (s : Session) (op : Op) : step .off (wrapS s) op = (s.step op).map (mapOk fun r => (wrapS r.1, r.2, Ctl.returned)) := by
  have hi : ∀ (d : TreeData) n, (id { d with size := n % Usize.modulus } : TreeData) = wrapD (id { d with size := n }) := fun _ _ => rfl
  have hu : ∀ (d : TreeData) n, (fun d : TreeData => { d with unique := true }) { d with size := n % Usize.modulus } =
      wrapD ((fun d : TreeData => { d with unique := true }) { d with size := n }) := fun _ _ => rfl
  obtain ⟨b, live⟩ := s
  cases op with
  | root =>
    cases live with
    | nil =>
      simp only [step, Session.step, wrapS, Builder.rootVisitor]
      cases h : b.enteredRootVisitor <;> simp [wrapB, h, mapOk]
    | cons => rfl
  | enter k n =>
    cases live with
    | nil => rfl
    | cons kind live =>
      simp only [step, Session.step, wrapS, enterInlineImpl, downAndAdd_off hi, vi_inline, Builder.enterInlineImpl]
      cases b.downAndAdd k n id <;> rfl
  | enterUnique k n =>
    cases live with
    | nil => rfl
    | cons kind live =>
      simp only [step, Session.step, wrapS, enterUniqueImpl, downAndAdd_off (f := fun d => { d with unique := true }) hu, vi_unique, Builder.enterUniqueImpl]
      cases b.downAndAdd k n fun d => { d with unique := true } <;> rfl
  | enterShared k n p =>
    cases live with
    | nil => rfl
    | cons kind live =>
      simp only [step, Session.step, wrapS, enterSharedImpl, downAndAdd_off hi, vi_shared, Builder.enterSharedImpl]
      cases b.downAndAdd k n id with
      | error => rfl
      | ok b1 =>
        simp only [mapOk]
        have hv : (wrapB b1).visitedShared = b1.visitedShared := rfl
        rw [hv]
        by_cases hm : p ∈ b1.visitedShared
        · simp only [if_pos hm]
          rw [exitImpl_wrap]
          cases b1.exitImpl <;> rfl
        · simp only [if_neg hm]
          rfl
  | exit =>
    cases live with
    | nil => rfl
    | cons kind live =>
      simp only [step, Session.step, wrapS, VisitorImpl.exit, builder_exitImpl, exitImpl_wrap, VisitorImpl.endScope]
      cases b.exitImpl <;> rfl
  | drop =>
    cases live with
    | nil => rfl
    | cons kind live =>
      simp only [step, Session.step, wrapS, VisitorImpl.drop, builder_exitImpl, exitImpl_wrap]
      cases b.exitImpl <;> rfl
  | forget => cases live <;> rfl

theorem runWorld_off [Target] (ops : List (Nat × Op)) : ∀ w : World, runWorld .off (fun i => wrapS (w i)) ops =
    (w.run ops).map (mapOk fun r => (fun i => wrapS (r.1 i), r.2, [])) := by
  induction ops with
  | nil => intro w; rfl
  | cons x ops ih =>
    intro w
    obtain ⟨i, op⟩ := x
    simp only [runWorld, World.run, step_off]
    cases h : (w i).step op with
    | none => rfl
    | some r =>
      cases r with
      | error e => rfl
      | ok r =>
        obtain ⟨s, evs⟩ := r
        simp only [Option.map_some, mapOk]
        have : (fun j => if j = i then wrapS s else wrapS (w j)) = fun j => wrapS ((fun j => if j = i then s else w j) j) := by
          funext j; simp only; split <;> rfl
        rw [this, ih]
        cases World.run (fun j => if j = i then s else w j) ops with
        | none => rfl
        | some r => cases r <;> rfl

theorem wrapS_start [Target] : (fun i => wrapS (World.start i)) = World.start := rfl

/-! ### Debug builds, before an overflow -/

theorem replay_inj {own : List Event} {f f' : List Frame} {r r' : List Rec} (h : replay [] own = some (f, r)) (h' : replay [] own = some (f', r')) :
    f' = f ∧ r' = r := by
  rw [h] at h'
  simp only [Option.some.injEq, Prod.mk.injEq] at h'
  exact ⟨h'.1.symm, h'.2.symm⟩

theorem sizeAt_snoc (recs : List Rec) (q : Path) (n : Nat) (u : Bool) (p : Path) :
    sizeAt (recs ++ [⟨q, n, u⟩]) p = sizeAt recs p + if q = p then n else 0 := by
  induction recs with
  | nil => simp [sizeAt_cons, sizeAt_nil]
  | cons r l ih => rw [List.cons_append, sizeAt_cons, sizeAt_cons, ih]; omega

/-- What an admitted operation does on a builder in order: what the unbounded builder does, unless a sum overflows; then the builder is left with a visitor more than
there are. -/
theorem step_cases [Target] {s own frames recs paths} (h : Inv s own frames recs paths) (hf : ∀ p, sizeAt recs p < Usize.modulus) (op : Op) (hop : op ≠ .forget) :
    (s.step op = none ∧ ∀ c, step c s op = none) ∨
    ∃ s' evs frames' r paths', s.step op = some (.ok (s', evs)) ∧ Inv s' (own ++ evs) frames' (recs ++ r) paths' ∧
      (((∀ p, sizeAt (recs ++ r) p < Usize.modulus) ∧ ∀ c, step c s op = some (.ok (s', evs, .returned))) ∨
       ((∃ p, Usize.modulus ≤ sizeAt (recs ++ r) p) ∧ ∃ s'', step .on s op = some (.ok (s'', [], .unwinding)) ∧ s''.Leaked)) := by
  have hr := h.replays
  have same : ∀ {s' evs frames' recs' paths'} {f'' : List Frame}, s.step op = some (.ok (s', evs)) → Inv s' (own ++ evs) frames' recs' paths' →
      replay [] (own ++ evs) = some (f'', recs) → (∀ c, step c s op = some (.ok (s', evs, .returned))) → 
      ∃ s' evs frames' r paths', s.step op = some (.ok (s', evs)) ∧ Inv s' (own ++ evs) frames' (recs ++ r) paths' ∧
      (((∀ p, sizeAt (recs ++ r) p < Usize.modulus) ∧ ∀ c, step c s op = some (.ok (s', evs, .returned))) ∨
       ((∃ p, Usize.modulus ≤ sizeAt (recs ++ r) p) ∧ ∃ s'', step .on s op = some (.ok (s'', [], .unwinding)) ∧ s''.Leaked)) := by
    intro s' evs frames' recs' paths' f'' e hi hrep he
    obtain ⟨rfl, rfl⟩ := replay_inj hrep hi.replays
    exact ⟨s', evs, _, [], paths', e, by simpa using hi, .inl ⟨by simpa using hf, he⟩⟩
  have ent : ∀ (kind : NodeKind) (rest : List NodeKind) (k : Key) (n : Nat) (u : Bool) (f : TreeData → TreeData),
      (∀ d, (f d).size = d.size ∧ (f d).unique = (d.unique || u) ∧ (f d).children = d.children) → s.live = kind :: rest →
      frames ≠ [] ∧ ((sizeAt recs (stackOf frames ++ [k]) + n < Usize.modulus ∧ (∀ p, sizeAt (recs ++ [⟨stackOf frames ++ [k], n, u⟩]) p < Usize.modulus) ∧
          ∃ b', s.builder.downAndAdd k n f = .ok b' ∧ b'.visitedShared = s.builder.visitedShared ∧ ∀ c, downAndAdd c s.builder k n f = .ok (b', .returned)) ∨
        ((∃ p, Usize.modulus ≤ sizeAt (recs ++ [⟨stackOf frames ++ [k], n, u⟩]) p) ∧
          ∃ b', downAndAdd .on s.builder k n f = .ok (b', .unwinding) ∧ Session.Leaked ⟨b', kind :: rest⟩)) := by
    intro kind rest k n u f hff hl
    have hne : frames ≠ [] := by
      rintro rfl
      rw [h.live] at hl; cases hl
    refine ⟨hne, ?_⟩
    obtain ⟨hp, he⟩ : Pos paths frames s.builder.current s.builder.shared ∧ s.builder.enteredRootVisitor = true :=
      h.pos.resolve_left (fun x => hne x.1)
    have hc := downAndAdd_cases h.rep (hp.stackAt h.rep.root) k n f
    have hlive := h.toLive hne
    by_cases hlt : sizeAt recs (stackOf frames ++ [k]) + n < Usize.modulus
    · left
      obtain ⟨b', e, _, hv, _⟩ := hlive.enter k n u f hff
      refine ⟨hlt, ?_, b', e, hv, fun c => by rw [hc.1 hlt c, e]⟩
      intro p
      rw [sizeAt_snoc]
      split
      · rename_i e; rw [← e]; exact hlt
      · exact hf p
    · right
      obtain ⟨b', e, hl', _⟩ := hlive.enter k 0 false id (by simp)
      refine ⟨⟨_, by rw [sizeAt_snoc, if_pos rfl]; omega⟩, b', by rw [hc.2 hlt, e], 0, ?_⟩
      rw [hl] at hl'
      exact hl'
  cases op with
  | root =>
    rcases h.step .root hop with e | ⟨s', evs, frames', recs', paths', e, hi⟩
    · left
      refine ⟨e, fun c => ?_⟩
      simp only [Session.step] at e
      simp only [step]
      split at e
      · cases e
      · rename_i hl; rw [hl]
    · right
      have e0 := e
      simp only [Session.step] at e
      split at e
      · rename_i hl
        cases hrv : s.builder.rootVisitor with
        | error x => simp [hrv] at e
        | ok b =>
          simp only [hrv, Option.some.injEq, Except.ok.injEq, Prod.mk.injEq] at e
          obtain ⟨rfl, rfl⟩ := e
          have hfr : frames = [] := by rw [h.live] at hl; exact List.map_eq_nil_iff.1 hl
          subst hfr
          refine same e0 hi (f'' := [⟨.root, Key.new []⟩]) (by simpa using replay_snoc (r := []) hr .root (by simp [replay])) ?_
          intro c
          simp only [step, hl, hrv]
      · cases e
  | enter k n =>
    rcases h.step (.enter k n) hop with e | ⟨s', evs, frames', recs', paths', e, hi⟩
    · left
      refine ⟨e, fun c => ?_⟩
      simp only [Session.step] at e
      simp only [step]
      split at e
      · rename_i hl; rw [hl]
      · cases e
    · right
      have e0 := e
      simp only [Session.step] at e
      split at e
      · cases e
      · rename_i kind rest hl
        obtain ⟨hne, hcase⟩ := ent kind rest k n false id (by simp) hl
        cases hv : s.builder.downAndAdd k n id with
        | error x => simp [vi_inline, Builder.enterInlineImpl, hv] at e
        | ok b =>
          simp only [vi_inline, Builder.enterInlineImpl, hv, Option.some.injEq, Except.ok.injEq, Prod.mk.injEq] at e
          obtain ⟨rfl, rfl⟩ := e
          obtain ⟨rfl, rfl⟩ := replay_inj (replay_snoc (frames' := ⟨.inline, k⟩ :: frames) (r := [⟨stackOf frames ++ [k], n, false⟩]) hr (.inline k n) (by simp [replay, hne])) hi.replays
          refine ⟨_, _, _, _, paths', e0, hi, ?_⟩
          rcases hcase with ⟨_, h2, b', h3, _, h4⟩ | ⟨h2, b', h3, h4⟩
          · rw [hv] at h3; cases h3
            exact .inl ⟨h2, fun c => by simp only [step, hl, enterInlineImpl, h4]⟩
          · exact .inr ⟨h2, _, by simp only [step, hl, enterInlineImpl, h3], h4⟩
  | enterUnique k n =>
    rcases h.step (.enterUnique k n) hop with e | ⟨s', evs, frames', recs', paths', e, hi⟩
    · left
      refine ⟨e, fun c => ?_⟩
      simp only [Session.step] at e
      simp only [step]
      split at e
      · rename_i hl; rw [hl]
      · cases e
    · right
      have e0 := e
      simp only [Session.step] at e
      split at e
      · cases e
      · rename_i kind rest hl
        obtain ⟨hne, hcase⟩ := ent kind rest k n true (fun d => { d with unique := true }) (by simp) hl
        cases hv : s.builder.downAndAdd k n fun d => { d with unique := true } with
        | error x => simp [vi_unique, Builder.enterUniqueImpl, hv] at e
        | ok b =>
          simp only [vi_unique, Builder.enterUniqueImpl, hv, Option.some.injEq, Except.ok.injEq, Prod.mk.injEq] at e
          obtain ⟨rfl, rfl⟩ := e
          obtain ⟨rfl, rfl⟩ := replay_inj (replay_snoc (frames' := ⟨.unique, k⟩ :: frames) (r := [⟨stackOf frames ++ [k], n, true⟩]) hr (.unique k n) (by simp [replay, hne])) hi.replays
          refine ⟨_, _, _, _, paths', e0, hi, ?_⟩
          rcases hcase with ⟨_, h2, b', h3, _, h4⟩ | ⟨h2, b', h3, h4⟩
          · rw [hv] at h3; cases h3
            exact .inl ⟨h2, fun c => by simp only [step, hl, enterUniqueImpl, h4]⟩
          · exact .inr ⟨h2, _, by simp only [step, hl, enterUniqueImpl, h3], h4⟩
  | enterShared k n p =>
    rcases h.step (.enterShared k n p) hop with e | ⟨s', evs, frames', recs', paths', e, hi⟩
    · left
      refine ⟨e, fun c => ?_⟩
      simp only [Session.step] at e
      simp only [step]
      split at e
      · rename_i hl; rw [hl]
      · cases e
    · right
      have e0 := e
      simp only [Session.step] at e
      split at e
      · cases e
      · rename_i kind rest hl
        obtain ⟨hne, hcase⟩ := ent kind rest k n false id (by simp) hl
        cases hs : s.builder.enterSharedImpl k n p kind with
        | error x => simp [vi_shared, hs] at e
        | ok r =>
          obtain ⟨ret, b⟩ := r
          have hevs : evs = [.shared k n p ret] := by
            cases ret <;> simp only [vi_shared, hs, Option.some.injEq, Except.ok.injEq, Prod.mk.injEq] at e <;> exact e.2.symm
          subst hevs
          obtain ⟨rfl, rfl⟩ := replay_inj (replay_snoc (frames' := if ret then ⟨.shared, k⟩ :: frames else frames) (r := [⟨stackOf frames ++ [k], n, false⟩]) hr (.shared k n p ret) (by simp [replay, hne])) hi.replays
          refine ⟨_, _, _, _, paths', e0, hi, ?_⟩
          rcases hcase with ⟨_, h2, b', h3, _, h4⟩ | ⟨h2, b', h3, h4⟩
          · refine .inl ⟨h2, fun c => ?_⟩
            simp only [Builder.enterSharedImpl, h3] at hs
            simp only [step, hl, enterSharedImpl, h4]
            simp only [vi_shared, Builder.enterSharedImpl, h3] at e
            split at hs
            · rename_i hm
              simp only [if_pos hm] at e ⊢
              cases hx : b'.exitImpl with
              | error x => simp [hx] at hs
              | ok b2 =>
                simp only [hx, Option.some.injEq, Except.ok.injEq, Prod.mk.injEq] at hs e ⊢
                exact ⟨e.1, e.2, trivial⟩
            · rename_i hm
              simp only [if_neg hm] at e ⊢
              simp only [Option.some.injEq, Except.ok.injEq, Prod.mk.injEq] at e ⊢
              exact ⟨e.1, e.2, trivial⟩
          · exact .inr ⟨h2, _, by simp only [step, hl, enterSharedImpl, h3], h4⟩
  | exit =>
    rcases h.step .exit hop with e | ⟨s', evs, frames', recs', paths', e, hi⟩
    · left
      refine ⟨e, fun c => ?_⟩
      simp only [Session.step] at e
      simp only [step]
      split at e
      · rename_i hl; rw [hl]
      · cases e
    · right
      have e0 := e
      simp only [Session.step] at e
      split at e
      · cases e
      · rename_i kind rest hl
        cases hv : Builder.visitorImpl.exit kind s.builder with
        | error x => simp [hv] at e
        | ok b =>
          simp only [hv, Option.some.injEq, Except.ok.injEq, Prod.mk.injEq] at e
          obtain ⟨rfl, rfl⟩ := e
          have hlv := h.live
          rw [hl] at hlv
          cases frames with
          | nil => cases hlv
          | cons f fs =>
            simp only [List.map_cons, List.cons.injEq] at hlv
            refine same e0 hi (f'' := fs) (by simpa using replay_snoc (r := []) hr (.exit kind) (by simp [replay, hlv.1])) ?_
            intro c
            simp only [step, hl, hv]
  | drop =>
    rcases h.step .drop hop with e | ⟨s', evs, frames', recs', paths', e, hi⟩
    · left
      refine ⟨e, fun c => ?_⟩
      simp only [Session.step] at e
      simp only [step]
      split at e
      · rename_i hl; rw [hl]
      · cases e
    · right
      have e0 := e
      simp only [Session.step] at e
      split at e
      · cases e
      · rename_i kind rest hl
        cases hv : Builder.visitorImpl.drop kind s.builder with
        | error x => simp [hv] at e
        | ok b =>
          simp only [hv, Option.some.injEq, Except.ok.injEq, Prod.mk.injEq] at e
          obtain ⟨rfl, rfl⟩ := e
          have hlv := h.live
          rw [hl] at hlv
          cases frames with
          | nil => cases hlv
          | cons f fs =>
            simp only [List.map_cons, List.cons.injEq] at hlv
            refine same e0 hi (f'' := fs) (by simpa using replay_snoc (r := []) hr (.exit kind) (by simp [replay, hlv.1])) ?_
            intro c
            simp only [step, hl, hv]
  | forget => exact absurd rfl hop

/-! ### Debug builds, after an overflow or a leak -/

/-- As `Live.step`, with overflow checks: more panics may come, the builder stays dead. -/
theorem leaked_step [Target] {s : Session} (h : s.Leaked) (op : Op) :
    step .on s op = none ∨ (op = .root ∧ step .on s op = some (.error .assertRootNotEntered)) ∨
    ∃ s' evs ctl, step .on s op = some (.ok (s', evs, ctl)) ∧ s'.Leaked := by
  obtain ⟨m, h⟩ := h
  have ent : ∀ (kind : NodeKind) (rest : List NodeKind) (k : Key) (n : Nat) (u : Bool) (f : TreeData → TreeData),
      (∀ d, (f d).size = d.size ∧ (f d).unique = (d.unique || u) ∧ (f d).children = d.children) → s.live = kind :: rest →
      ∃ b' ctl, downAndAdd .on s.builder k n f = .ok (b', ctl) ∧ Live b' (rest.length + 1 + (m + 1) + 1) ∧ b'.current.stack ≠ [] := by
    intro kind rest k n u f hff hl
    obtain ⟨recs, paths, hrep, ⟨p, hst⟩, _⟩ := h.wf
    have hc := downAndAdd_cases hrep hst k n f
    by_cases hlt : sizeAt recs (p ++ [k]) + n < Usize.modulus
    · obtain ⟨b', e, h', _, hn, _⟩ := h.enter k n u f hff
      rw [hl] at h'
      exact ⟨b', .returned, by rw [hc.1 hlt, e], h', hn⟩
    · obtain ⟨b', e, h', _, hn, _⟩ := h.enter k 0 false id (by simp)
      rw [hl] at h'
      exact ⟨b', .unwinding, by rw [hc.2 hlt, e], h', hn⟩
  have entered : ∀ (kind : NodeKind) (rest : List NodeKind) (kd : NodeKind) (b' : Builder), Live b' (rest.length + 1 + (m + 1) + 1) →
      Session.Leaked ⟨b', kd :: kind :: rest⟩ := by
    intro kind rest kd b' h'
    exact ⟨m, by simpa [Nat.add_assoc, Nat.add_comm, Nat.add_left_comm] using h'⟩
  have over : ∀ (kind : NodeKind) (rest : List NodeKind) (b' : Builder), Live b' (rest.length + 1 + (m + 1) + 1) →
      Session.Leaked ⟨b', kind :: rest⟩ := by
    intro kind rest b' h'
    exact ⟨m + 1, by simpa [Nat.add_assoc, Nat.add_comm, Nat.add_left_comm] using h'⟩
  have ends : ∀ (kind : NodeKind) (rest : List NodeKind), s.live = kind :: rest →
      ∃ b', s.builder.exitImpl = .ok b' ∧ Session.Leaked ⟨b', rest⟩ := by
    intro kind rest hl
    rw [hl] at h
    obtain ⟨b', e, h', _⟩ := Live.exit (n := rest.length + m) (by simpa [Nat.add_assoc, Nat.add_comm, Nat.add_left_comm] using h)
    exact ⟨b', e, m, by simpa [Nat.add_assoc] using h'⟩
  cases op with
  | root =>
    simp only [step]
    cases hl : s.live with
    | nil => exact .inr (.inl ⟨trivial, by simp only [Builder.rootVisitor, h.entered, if_true]⟩)
    | cons => exact .inl rfl
  | enter k n =>
    simp only [step]
    cases hl : s.live with
    | nil => exact .inl rfl
    | cons kind rest =>
      obtain ⟨b', ctl, e, h', _⟩ := ent kind rest k n false id (by simp) hl
      cases ctl with
      | returned => exact .inr (.inr ⟨_, _, _, by simp only [enterInlineImpl, e]; rfl, entered _ _ _ _ h'⟩)
      | unwinding => exact .inr (.inr ⟨_, _, _, by simp only [enterInlineImpl, e]; rfl, over _ _ _ h'⟩)
  | enterUnique k n =>
    simp only [step]
    cases hl : s.live with
    | nil => exact .inl rfl
    | cons kind rest =>
      obtain ⟨b', ctl, e, h', _⟩ := ent kind rest k n true (fun d => { d with unique := true }) (by simp) hl
      cases ctl with
      | returned => exact .inr (.inr ⟨_, _, _, by simp only [enterUniqueImpl, e]; rfl, entered _ _ _ _ h'⟩)
      | unwinding => exact .inr (.inr ⟨_, _, _, by simp only [enterUniqueImpl, e]; rfl, over _ _ _ h'⟩)
  | enterShared k n p =>
    simp only [step]
    cases hl : s.live with
    | nil => exact .inl rfl
    | cons kind rest =>
      obtain ⟨b', ctl, e, h', hne⟩ := ent kind rest k n false id (by simp) hl
      cases ctl with
      | unwinding => exact .inr (.inr ⟨⟨b', kind :: rest⟩, [], .unwinding, by simp only [enterSharedImpl, e], over _ _ _ h'⟩)
      | returned =>
        by_cases hv : p ∈ b'.visitedShared
        · obtain ⟨b2, e2, h2, _⟩ := Live.exit (n := rest.length + 1 + m) (by simpa [Nat.add_assoc, Nat.add_comm, Nat.add_left_comm] using h')
          exact .inr (.inr ⟨⟨b2, kind :: rest⟩, [.shared k n p false], .returned, by simp only [enterSharedImpl, e, if_pos hv, e2], m,
            by simpa [Nat.add_assoc] using h2⟩)
        · refine .inr (.inr ⟨⟨{ b' with visitedShared := p :: b'.visitedShared, shared := b'.current :: b'.shared, current := ⟨[], b'.root⟩ },
            .shared :: kind :: rest⟩, [.shared k n p true], .returned, by simp only [enterSharedImpl, e, if_neg hv], m, ?_⟩)
          obtain ⟨⟨recs, paths, hrep, ⟨q, hst⟩, hsh'⟩, hroot, hent, hdepth⟩ := h'
          refine ⟨⟨recs, paths, hrep, ⟨[], .nil (by simp only [hroot]; exact hrep.root)⟩, ?_⟩, hroot, hent, ?_⟩
          · intro st hm
            rcases List.mem_cons.1 hm with rfl | hm
            · exact ⟨hne, q, hst⟩
            · exact hsh' st hm
          · simp only [Builder.depth, List.length_cons, List.length_nil, List.map_cons, List.sum_cons] at hdepth ⊢; omega
  | exit =>
    simp only [step]
    cases hl : s.live with
    | nil => exact .inl rfl
    | cons kind rest =>
      obtain ⟨b', e, h'⟩ := ends kind rest hl
      exact .inr (.inr ⟨⟨b', rest⟩, _, _, by simp only [VisitorImpl.exit, builder_exitImpl, e, VisitorImpl.endScope]; rfl, h'⟩)
  | drop =>
    simp only [step]
    cases hl : s.live with
    | nil => exact .inl rfl
    | cons kind rest =>
      obtain ⟨b', e, h'⟩ := ends kind rest hl
      exact .inr (.inr ⟨⟨b', rest⟩, _, _, by simp only [VisitorImpl.drop, builder_exitImpl, e]; rfl, h'⟩)
  | forget =>
    simp only [step]
    cases hl : s.live with
    | nil => exact .inl rfl
    | cons kind rest =>
      refine .inr (.inr ⟨_, _, _, rfl, m + 1, ?_⟩)
      rw [hl] at h
      simpa [Nat.add_assoc, Nat.add_comm, Nat.add_left_comm] using h

/-- `forget` on a builder in order. -/
theorem forget_step [Target] {s own frames recs paths} (h : Inv s own frames recs paths) (c : Checks) :
    step c s .forget = none ∨ ∃ s', step c s .forget = some (.ok (s', [], .returned)) ∧ s'.Leaked := by
  simp only [step]
  cases hl : s.live with
  | nil => exact .inl rfl
  | cons kind rest =>
    right
    have hne : frames ≠ [] := by
      rintro rfl
      rw [h.live] at hl; cases hl
    have := h.toLive hne
    rw [hl, List.length_cons] at this
    exact ⟨_, rfl, 0, this⟩

/-! ### Runs -/

/-- The state of all builders after the completed calls `own`: those of `bad` are dead, the others in order. -/
def WInv [Target] (w : World) (own : Nat → List Event) (bad : Nat → Prop) : Prop := ∀ i,
  (bad i → (w i).Leaked) ∧ (¬ bad i → ∃ frames recs paths, Inv (w i) (own i) frames recs paths ∧ ∀ p, sizeAt recs p < Usize.modulus)

theorem WInv.congr [Target] {w own own' bad bad'} (h : WInv w own bad) (ho : ∀ i, ¬ bad' i → own' i = own i) (hb : ∀ i, bad' i ↔ bad i) : WInv w own' bad' := by
  intro i
  refine ⟨fun hi => (h i).1 ((hb i).1 hi), fun hi => ?_⟩
  rw [ho i hi]
  exact (h i).2 fun x => hi ((hb i).2 x)

theorem mem_over (i : Nat) (ctl : Ctl) (over : List Nat) (j : Nat) :
    j ∈ overflowed i ctl ++ over ↔ (j = i ∧ ctl = .unwinding) ∨ j ∈ over := by
  cases ctl <;> simp [overflowed]

/-- What one operation does to the invariant. -/
theorem WInv.step [Target] {w own bad} (h : WInv w own bad) (i : Nat) (op : Op) :
    Machine.step .on (w i) op = none ∨ (Machine.step .on (w i) op = some (.error .assertRootNotEntered) ∧ op = .root ∧ bad i) ∨
    ∃ s evs ctl, Machine.step .on (w i) op = some (.ok (s, evs, ctl)) ∧
      WInv (fun j => if j = i then s else w j) (fun j => own j ++ callsOf j (evs.map fun ev => (i, ev)))
        (fun j => bad j ∨ (j = i ∧ ctl = .unwinding) ∨ (j = i ∧ op = .forget)) := by
  have other : ∀ (s : Session) (evs : List Event) (ctl : Ctl), (bad i ∨ ctl = .unwinding ∨ op = .forget → s.Leaked) →
      (¬ (bad i ∨ ctl = .unwinding ∨ op = .forget) → ∃ frames recs paths, Inv s (own i ++ evs) frames recs paths ∧ ∀ p, sizeAt recs p < Usize.modulus) →
      WInv (fun j => if j = i then s else w j) (fun j => own j ++ callsOf j (evs.map fun ev => (i, ev)))
        (fun j => bad j ∨ (j = i ∧ ctl = .unwinding) ∨ (j = i ∧ op = .forget)) := by
    intro s evs ctl h1 h2 j
    by_cases hj : j = i
    · subst hj
      simpa only [if_true, callsOf_same, true_and] using ⟨h1, h2⟩
    · have := h j
      simpa only [if_neg hj, callsOf_other hj, List.append_nil, hj, false_and, or_false, if_false] using this
  by_cases hb : bad i
  · rcases leaked_step ((h i).1 hb) op with e | ⟨ho, e⟩ | ⟨s, evs, ctl, e, hl⟩
    · exact .inl e
    · exact .inr (.inl ⟨e, ho, hb⟩)
    · exact .inr (.inr ⟨s, evs, ctl, e, other _ _ _ (fun _ => hl) (fun x => absurd (.inl hb) x)⟩)
  · obtain ⟨frames, recs, paths, hi, hf⟩ := (h i).2 hb
    by_cases hop : op = .forget
    · subst hop
      rcases forget_step hi .on with e | ⟨s, e, hl⟩
      · exact .inl e
      · exact .inr (.inr ⟨s, _, _, e, other _ _ _ (fun _ => hl) (fun x => absurd (.inr (.inr rfl)) x)⟩)
    · rcases step_cases hi hf op hop with ⟨_, e⟩ | ⟨s', evs, frames', r, paths', _, hi', hc⟩
      · exact .inl (e .on)
      · rcases hc with ⟨hf', e⟩ | ⟨_, s'', e, hl⟩
        · exact .inr (.inr ⟨_, _, _, e .on, other _ _ _ (fun x => by simp_all) (fun _ => ⟨_, _, _, hi', hf'⟩)⟩)
        · exact .inr (.inr ⟨_, _, _, e, other _ _ _ (fun _ => hl) (fun x => absurd (.inr (.inl rfl)) x)⟩)

theorem WInv.run [Target] (ops : List (Nat × Op)) : ∀ (w : World) (own : Nat → List Event) (bad : Nat → Prop), WInv w own bad →
    runWorld .on w ops = none ∨
    (∃ done i w' log over, runWorld .on w ops = some (.error .assertRootNotEntered) ∧ done ++ [(i, .root)] <+: ops ∧
      runWorld .on w done = some (.ok (w', log, over)) ∧ (bad i ∨ i ∈ over ∨ (i, .forget) ∈ done)) ∨
    ∃ w' log over, runWorld .on w ops = some (.ok (w', log, over)) ∧
      WInv w' (fun i => own i ++ callsOf i log) (fun i => bad i ∨ i ∈ over ∨ (i, .forget) ∈ ops) := by
  induction ops with
  | nil =>
    intro w own bad h
    exact .inr (.inr ⟨w, [], [], rfl, h.congr (fun i _ => by simp [callsOf]) (fun i => by simp)⟩)
  | cons x ops ih =>
    intro w own bad h
    obtain ⟨i, op⟩ := x
    rcases h.step i op with e | ⟨e, rfl, hb⟩ | ⟨s, evs, ctl, e, h1⟩
    · left; simp only [runWorld, e]
    · right; left
      exact ⟨[], i, w, [], [], by simp only [runWorld, e], ⟨ops, rfl⟩, rfl, .inl hb⟩
    · rcases ih _ _ _ h1 with e' | ⟨done, j, w', log, over, e', hpre, ed, hb⟩ | ⟨w', log, over, e', h'⟩
      · left; simp only [runWorld, e, e']
      · right; left
        refine ⟨(i, op) :: done, j, w', _, _, by simp only [runWorld, e, e'], by obtain ⟨t, ht⟩ := hpre; exact ⟨t, by rw [← ht]; rfl⟩,
          by simp only [runWorld, e, ed]; rfl, ?_⟩
        rw [mem_over]
        simp only [List.mem_cons, Prod.mk.injEq]
        rcases hb with (hb | hb | hb) | hb | hb
        · exact .inl hb
        · exact .inr (.inl (.inl hb))
        · exact .inr (.inr (.inl ⟨hb.1, hb.2.symm⟩))
        · exact .inr (.inl (.inr hb))
        · exact .inr (.inr (.inr hb))
      · right; right
        refine ⟨w', _, _, by simp only [runWorld, e, e']; rfl, h'.congr (fun j _ => by simp only [callsOf_append, List.append_assoc]) (fun j => ?_)⟩
        rw [mem_over]
        simp only [List.mem_cons, Prod.mk.injEq, eq_comm (a := Op.forget)]
        constructor
        · rintro (h | (h | h) | ⟨h1, h2⟩ | h)
          · exact .inl (.inl h)
          · exact .inl (.inr (.inl h))
          · exact .inr (.inl h)
          · exact .inl (.inr (.inr ⟨h1, h2⟩))
          · exact .inr (.inr h)
        · rintro ((h | h | ⟨h1, h2⟩) | h | h)
          · exact .inl h
          · exact .inr (.inl (.inl h))
          · exact .inr (.inr (.inl ⟨h1, h2⟩))
          · exact .inr (.inl (.inr h))
          · exact .inr (.inr (.inr h))

theorem WInv.start [Target] : WInv World.start (fun _ => []) (fun _ => False) :=
  fun _ => ⟨False.elim, fun _ => ⟨_, _, _, Inv.start, fun p => by simp [sizeAt_nil, Usize.modulus_pos]⟩⟩

/-! ### Runs in which nothing overflows -/

theorem replay_split {b : List Event} : ∀ {a : List Event} {fs fs2 : List Frame} {r : List Rec}, replay fs (a ++ b) = some (fs2, r) →
    ∃ fs1 r1 r2, replay fs a = some (fs1, r1) ∧ r = r1 ++ r2 := by
  intro a
  induction a with
  | nil => intro fs fs2 r _; exact ⟨fs, [], r, rfl, rfl⟩
  | cons e es ih =>
    intro fs fs2 r h
    cases e with
    | root =>
      simp only [replay, List.cons_append] at h ⊢
      split at h
      · rename_i hh; rw [if_pos hh]; exact ih h
      · cases h
    | exit kind =>
      simp only [replay, List.cons_append] at h ⊢
      split at h
      · cases h
      · split at h
        · rename_i hh; rw [if_pos hh]; exact ih h
        · cases h
    | inline k n =>
      simp only [replay, List.cons_append] at h ⊢
      split at h
      · cases h
      · rename_i hh; rw [if_neg hh]
        simp only [Option.map_eq_some_iff, Prod.mk.injEq] at h
        obtain ⟨⟨f, r'⟩, h3, rfl, rfl⟩ := h
        obtain ⟨fs1, r1, r2, h4, h5⟩ := ih h3
        exact ⟨fs1, _, r2, by rw [h4]; rfl, by simp only [h5]; rfl⟩
    | unique k n =>
      simp only [replay, List.cons_append] at h ⊢
      split at h
      · cases h
      · rename_i hh; rw [if_neg hh]
        simp only [Option.map_eq_some_iff, Prod.mk.injEq] at h
        obtain ⟨⟨f, r'⟩, h3, rfl, rfl⟩ := h
        obtain ⟨fs1, r1, r2, h4, h5⟩ := ih h3
        exact ⟨fs1, _, r2, by rw [h4]; rfl, by simp only [h5]; rfl⟩
    | shared k n p ret =>
      simp only [replay, List.cons_append] at h ⊢
      split at h
      · cases h
      · rename_i hh; rw [if_neg hh]
        simp only [Option.map_eq_some_iff, Prod.mk.injEq] at h
        obtain ⟨⟨f, r'⟩, h3, rfl, rfl⟩ := h
        obtain ⟨fs1, r1, r2, h4, h5⟩ := ih h3
        exact ⟨fs1, _, r2, by rw [h4]; rfl, by simp only [h5]; rfl⟩

theorem sizeAt_append_le (a b : List Rec) (p : Path) : sizeAt a p ≤ sizeAt (a ++ b) p := by
  induction a with
  | nil => simp [sizeAt_nil]
  | cons r l ih => rw [List.cons_append, sizeAt_cons, sizeAt_cons]; omega

theorem run_exact [Target] (c : Checks) (ops : List (Nat × Op)) : (∀ x ∈ ops, x.2 ≠ .forget) → ∀ (w : World) (own : Nat → List Event),
    (∀ i, ∃ frames recs paths, Inv (w i) (own i) frames recs paths ∧ ∀ p, sizeAt recs p < Usize.modulus) → ∀ w' log, w.run ops = some (.ok (w', log)) →
    (∀ i frames recs, replay [] (own i ++ callsOf i log) = some (frames, recs) → ∀ p, sizeAt recs p < Usize.modulus) →
    runWorld c w ops = some (.ok (w', log, [])) := by
  induction ops with
  | nil =>
    intro _ w own _ w' log h _
    simp only [World.run, Option.some.injEq, Except.ok.injEq, Prod.mk.injEq] at h
    obtain ⟨rfl, rfl⟩ := h
    rfl
  | cons x ops ih =>
    intro hf w own hw w' log h hb
    obtain ⟨i, op⟩ := x
    obtain ⟨frames, recs, paths, hi, hfit⟩ := hw i
    simp only [World.run] at h
    rcases step_cases hi hfit op (hf (i, op) (by simp)) with ⟨e, _⟩ | ⟨s', evs, frames', r, paths', e, hi', hc⟩
    · simp [e] at h
    · simp only [e] at h
      split at h
      · cases h
      · cases h
      rename_i w1 log1 e1
      simp only [Option.some.injEq, Except.ok.injEq, Prod.mk.injEq] at h
      obtain ⟨rfl, rfl⟩ := h
      rcases hc with ⟨hfit', ec⟩ | ⟨⟨p, hp⟩, _⟩
      · have := ih (fun x hx => hf x (by simp [hx])) (fun j => if j = i then s' else w j) (fun j => own j ++ callsOf j (evs.map fun ev => (i, ev))) (by
          intro j
          by_cases hj : j = i
          · subst hj; simp only [if_true, callsOf_same]; exact ⟨_, _, _, hi', hfit'⟩
          · simp only [if_neg hj, callsOf_other hj, List.append_nil]; exact hw j) _ _ e1 (by
          intro j f rs hr
          exact hb j f rs (by rw [callsOf_append, ← List.append_assoc]; exact hr))
        simp only [runWorld, ec, this]
        rfl
      · -- the final records extend those after this operation
        exfalso
        have hinv : World.Inv (fun j => if j = i then s' else w j) (fun j => own j ++ callsOf j (evs.map fun ev => (i, ev))) := by
          intro j
          by_cases hj : j = i
          · subst hj; simp only [if_true, callsOf_same]; exact ⟨_, _, _, hi'⟩
          · simp only [if_neg hj, callsOf_other hj, List.append_nil]; obtain ⟨a, b, c, hd, _⟩ := hw j; exact ⟨a, b, c, hd⟩
        rcases World.Inv.run ops (fun x hx => hf x (by simp [hx])) _ _ hinv with e2 | ⟨w2, log2, e2, hw2⟩
        · rw [e2] at e1; cases e1
        · rw [e2] at e1
          simp only [Option.some.injEq, Except.ok.injEq, Prod.mk.injEq] at e1
          obtain ⟨rfl, rfl⟩ := e1
          obtain ⟨ff, rf, pf, hfin⟩ := hw2 i
          have hrf := hfin.replays
          simp only [callsOf_same] at hrf
          obtain ⟨fs1, r1, r2, h1, h2⟩ := replay_split hrf
          obtain ⟨rfl, rfl⟩ := replay_inj h1 hi'.replays
          have := hb i ff rf (by rw [callsOf_append, callsOf_same, ← List.append_assoc]; exact hrf) p
          rw [h2] at this
          have h3 := sizeAt_append_le (recs ++ r) r2 p
          omega

end Allocative.Machine
