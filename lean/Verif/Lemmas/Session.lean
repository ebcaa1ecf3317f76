import Verif.Model.Session
import Verif.Lemmas.Events
import Verif.Lemmas.Leak
set_option linter.unusedSimpArgs false
/-
Invariants of sessions.
-/
namespace Allocative

/-- How the tree stacks of a builder belong to the live visitors. -/
inductive Pos (paths : List Path) : List Frame → TreeStack → List TreeStack → Prop
  | root (k) : Pos paths [⟨.root, k⟩] ⟨[], 0⟩ []
  | inline {fs s t sh} (k t') : Pos paths fs ⟨s, t⟩ sh → paths[t']? = some (stackOf fs ++ [k]) → Pos paths (⟨.inline, k⟩ :: fs) ⟨t :: s, t'⟩ sh
  | unique {fs s t sh} (k t') : Pos paths fs ⟨s, t⟩ sh → paths[t']? = some (stackOf fs ++ [k]) → Pos paths (⟨.unique, k⟩ :: fs) ⟨t :: s, t'⟩ sh
  | shared {fs s t sh} (k t') : Pos paths fs ⟨s, t⟩ sh → paths[t']? = some (stackOf fs ++ [k]) →
      Pos paths (⟨.shared, k⟩ :: fs) ⟨[], 0⟩ (⟨t :: s, t'⟩ :: sh)

theorem Pos.mono {paths paths' : List Path} (hp : paths <+: paths') {fs st sh} (h : Pos paths fs st sh) : Pos paths' fs st sh := by
  induction h with
  | root k => exact .root k
  | inline k t' _ h ih => exact .inline k t' ih (prefix_getElem? hp h)
  | unique k t' _ h ih => exact .unique k t' ih (prefix_getElem? hp h)
  | shared k t' _ h ih => exact .shared k t' ih (prefix_getElem? hp h)

theorem Pos.stackAt {paths : List Path} (h0 : paths[0]? = some []) {fs st sh} (h : Pos paths fs st sh) : StackAt paths st.stack st.tree (stackOf fs) := by
  induction h with
  | root k => exact .nil h0
  | inline k t' _ h ih => exact .cons ih h
  | unique k t' _ h ih => exact .cons ih h
  | shared k t' _ _ _ => exact .nil h0

theorem Pos.ne {paths : List Path} {fs st sh} (h : Pos paths fs st sh) : fs ≠ [] := by cases h <;> simp

/-- The state of a builder after the calls `own`, all live visitors being listed in `frames`. -/
structure Inv (s : Session) (own : List Event) (frames : List Frame) (recs : List Rec) (paths : List Path) : Prop where
  rep : Rep s.builder.trees recs paths
  root : s.builder.root = 0
  live : s.live = frames.map Frame.kind
  pos : (frames = [] ∧ s.builder.current = ⟨[], 0⟩ ∧ s.builder.shared = [] ∧ s.builder.enteredRootVisitor = false) ∨
    (Pos paths frames s.builder.current s.builder.shared ∧ s.builder.enteredRootVisitor = true)
  replays : replay [] own = some (frames, recs)
  visited : ∀ p, p ∈ s.builder.visitedShared ↔ p ∈ sharedPtrs own
  first : ∀ before name size ptr r after, own = before ++ .shared name size ptr r :: after → (r = true ↔ ptr ∉ sharedPtrs before)

theorem Inv.start : Inv .start [] [] [] [[]] :=
  ⟨Rep.default, rfl, rfl, .inl ⟨rfl, rfl, rfl, rfl⟩, rfl, by simp [Session.start, Builder.default, sharedPtrs], by simp⟩

theorem first_snoc {own : List Event} (h : ∀ before name size ptr r after, own = before ++ .shared name size ptr r :: after → (r = true ↔ ptr ∉ sharedPtrs before))
    (ev : Event) (hev : ∀ name size ptr r, ev = .shared name size ptr r → (r = true ↔ ptr ∉ sharedPtrs own)) :
    ∀ before name size ptr r after, own ++ [ev] = before ++ .shared name size ptr r :: after → (r = true ↔ ptr ∉ sharedPtrs before) := by
  intro before name size ptr r after e
  rcases List.append_eq_append_iff.1 e with ⟨l, e1, e2⟩ | ⟨l, e1, e2⟩
  · cases l with
    | nil =>
      simp only [List.nil_append, List.cons.injEq] at e2
      simp only [List.append_nil] at e1
      subst e1
      exact hev _ _ _ _ e2.1
    | cons x l =>
      simp only [List.cons_append, List.cons.injEq] at e2
      have := congrArg List.length e2.2
      simp at this
  · cases l with
    | nil =>
      simp only [List.nil_append, List.cons.injEq] at e2
      simp only [List.append_nil] at e1
      subst e1
      exact hev _ _ _ _ e2.1.symm
    | cons x l =>
      simp only [List.cons_append, List.cons.injEq] at e2
      rw [← e2.1] at e1
      exact h _ _ _ _ _ _ e1

theorem replay_snoc {own : List Event} {frames frames' recs r} (h : replay [] own = some (frames, recs)) (ev : Event)
    (h' : replay frames [ev] = some (frames', r)) : replay [] (own ++ [ev]) = some (frames', recs ++ r) := replay_append h h'

/-- Every admitted operation other than `forget` succeeds and keeps the invariant. -/
theorem Inv.step {s own frames recs paths} (h : Inv s own frames recs paths) (op : Op) (hop : op ≠ .forget) :
    s.step op = none ∨ ∃ s' evs frames' recs' paths', s.step op = some (.ok (s', evs)) ∧ Inv s' (own ++ evs) frames' recs' paths' := by
  obtain ⟨hrep, hroot, hlive, hpos, hreplay, hvis, hfirst⟩ := h
  have enter : ∀ (kind : NodeKind) (rest : List NodeKind) (k : Key) (n : Nat) (u : Bool) (f : TreeData → TreeData),
      (∀ d, (f d).size = d.size ∧ (f d).unique = (d.unique || u) ∧ (f d).children = d.children) → s.live = kind :: rest →
      Pos paths frames s.builder.current s.builder.shared ∧ s.builder.enteredRootVisitor = true ∧
      ∃ trees' t paths', s.builder.downAndAdd k n f = .ok { s.builder with trees := trees', current := ⟨s.builder.current.tree :: s.builder.current.stack, t⟩ } ∧
        Rep trees' (recs ++ [⟨stackOf frames ++ [k], n, u⟩]) paths' ∧ paths <+: paths' ∧ paths'[t]? = some (stackOf frames ++ [k]) := by
    intro kind rest k n u f hf hl
    rcases hpos with ⟨rfl, _⟩ | ⟨hp, he⟩
    · rw [hlive] at hl; cases hl
    · obtain ⟨trees', t, paths', e, h1, h2, h3⟩ := hrep.downAndAdd (hp.stackAt hrep.root) k n u f hf
      exact ⟨hp, he, trees', t, paths', e, h1, h2, h3.tree⟩
  have ends : ∀ (kind : NodeKind) (rest : List NodeKind), s.live = kind :: rest → ∃ f fs b', frames = f :: fs ∧ f.kind = kind ∧
      rest = fs.map Frame.kind ∧ s.builder.exitImpl = .ok b' ∧ Inv ⟨b', rest⟩ (own ++ [.exit kind]) fs recs paths := by
    intro kind rest hl
    rcases hpos with ⟨rfl, _⟩ | ⟨hp, he⟩
    · rw [hlive] at hl; cases hl
    obtain ⟨b, live⟩ := s
    obtain ⟨vs, trees, cur, sh, rt, en⟩ := b
    simp only at *
    have fin : ∀ f fs b', frames = f :: fs → f.kind = kind → rest = fs.map Frame.kind →
        b'.trees = trees → b'.root = 0 → b'.visitedShared = vs →
        ((fs = [] ∧ b'.current = ⟨[], 0⟩ ∧ b'.shared = [] ∧ b'.enteredRootVisitor = false) ∨
          (Pos paths fs b'.current b'.shared ∧ b'.enteredRootVisitor = true)) →
        Inv ⟨b', rest⟩ (own ++ [.exit kind]) fs recs paths := by
      intro f fs b' hfr hk hr ht hrt hv hps
      refine ⟨by simp only [ht]; exact hrep, hrt, hr, hps, ?_, ?_, ?_⟩
      · have := replay_snoc (frames' := fs) (r := []) hreplay (.exit kind) (by rw [hfr]; simp [replay, hk])
        simpa using this
      · intro p; simp only [hv, hvis, sharedPtrs_append, sharedPtrs, List.append_nil]
      · exact first_snoc hfirst _ (by intros; simp_all)
    rw [hlive] at hl
    cases hp with
    | root k =>
      simp only [List.map_cons, List.map_nil, List.cons.injEq] at hl
      obtain ⟨rfl, rfl⟩ := hl
      refine ⟨_, _, _, rfl, rfl, rfl, ?_, fin _ _ ⟨vs, trees, ⟨[], 0⟩, [], rt, false⟩ rfl rfl rfl rfl hroot rfl (.inl ⟨rfl, rfl, rfl, rfl⟩)⟩
      simp [Builder.exitImpl, he, up]
    | @inline fs s t sh k t' hp hpt =>
      simp only [List.map_cons, List.cons.injEq] at hl
      obtain ⟨rfl, rfl⟩ := hl
      refine ⟨_, _, _, rfl, rfl, rfl, exit_pop he rfl, fin _ _ _ rfl rfl rfl rfl hroot rfl (.inr ⟨hp, he⟩)⟩
    | @unique fs s t sh k t' hp hpt =>
      simp only [List.map_cons, List.cons.injEq] at hl
      obtain ⟨rfl, rfl⟩ := hl
      refine ⟨_, _, _, rfl, rfl, rfl, exit_pop he rfl, fin _ _ _ rfl rfl rfl rfl hroot rfl (.inr ⟨hp, he⟩)⟩
    | @shared fs s t sh k t' hp _ =>
      simp only [List.map_cons, List.cons.injEq] at hl
      obtain ⟨rfl, rfl⟩ := hl
      refine ⟨_, _, _, rfl, rfl, rfl, exit_shared he rfl rfl rfl, fin _ _ _ rfl rfl rfl rfl hroot rfl (.inr ⟨hp, he⟩)⟩
  cases op with
  | root =>
    simp only [Session.step]
    cases hl : s.live with
    | cons a l => exact .inl rfl
    | nil =>
      right
      rcases hpos with ⟨rfl, hc, hs, he⟩ | ⟨hp, _⟩
      · refine ⟨_, _, [⟨.root, Key.new []⟩], recs, paths, by simp only [Builder.rootVisitor, he, Bool.false_eq_true, if_false]; rfl, ?_⟩
        refine ⟨hrep, hroot, rfl, .inr ⟨?_, rfl⟩, ?_, ?_, ?_⟩
        · simp only [hc, hs]; exact .root _
        · simpa using replay_snoc (r := []) hreplay .root (by simp [replay])
        · intro p; simp only [hvis, sharedPtrs_append, sharedPtrs, List.append_nil]
        · exact first_snoc hfirst _ (by intros; simp_all)
      · rw [hlive] at hl
        exact absurd (List.map_eq_nil_iff.1 hl) hp.ne
  | enter k n =>
    simp only [Session.step]
    cases hl : s.live with
    | nil => exact .inl rfl
    | cons kind rest =>
      right
      obtain ⟨hp, he, trees', t, paths', e, h1, h2, h3⟩ := enter kind rest k n false id (by simp) hl
      refine ⟨_, _, ⟨.inline, k⟩ :: frames, recs ++ [⟨stackOf frames ++ [k], n, false⟩], paths', by simp only [vi_inline, Builder.enterInlineImpl, e]; rfl, ?_⟩
      refine ⟨h1, hroot, by simp [← hlive, hl], .inr ⟨.inline k t (hp.mono h2) h3, he⟩, ?_, ?_, ?_⟩
      · exact replay_snoc hreplay _ (by simp [replay, hp.ne])
      · intro p; simp only [hvis, sharedPtrs_append, sharedPtrs, List.append_nil]
      · exact first_snoc hfirst _ (by intros; simp_all)
  | enterUnique k n =>
    simp only [Session.step]
    cases hl : s.live with
    | nil => exact .inl rfl
    | cons kind rest =>
      right
      obtain ⟨hp, he, trees', t, paths', e, h1, h2, h3⟩ := enter kind rest k n true (fun d => { d with unique := true }) (by simp) hl
      refine ⟨_, _, ⟨.unique, k⟩ :: frames, recs ++ [⟨stackOf frames ++ [k], n, true⟩], paths', by simp only [vi_unique, Builder.enterUniqueImpl, e]; rfl, ?_⟩
      refine ⟨h1, hroot, by simp [← hlive, hl], .inr ⟨.unique k t (hp.mono h2) h3, he⟩, ?_, ?_, ?_⟩
      · exact replay_snoc hreplay _ (by simp [replay, hp.ne])
      · intro p; simp only [hvis, sharedPtrs_append, sharedPtrs, List.append_nil]
      · exact first_snoc hfirst _ (by intros; simp_all)
  | enterShared k n ptr =>
    simp only [Session.step]
    cases hl : s.live with
    | nil => exact .inl rfl
    | cons kind rest =>
      right
      obtain ⟨hp, he, trees', t, paths', e, h1, h2, h3⟩ := enter kind rest k n false id (by simp) hl
      by_cases hv : ptr ∈ s.builder.visitedShared
      · refine ⟨⟨{ s.builder with trees := trees' }, kind :: rest⟩, [.shared k n ptr false], frames, recs ++ [⟨stackOf frames ++ [k], n, false⟩], paths', ?_, ?_⟩
        · simp only [vi_shared, Builder.enterSharedImpl, e, if_pos hv]
          rw [exit_pop (b := { s.builder with trees := trees', current := ⟨s.builder.current.tree :: s.builder.current.stack, t⟩ }) he rfl]
        · refine ⟨h1, hroot, by simp [← hlive, hl], .inr ⟨hp.mono h2, he⟩, ?_, ?_, ?_⟩
          · exact replay_snoc hreplay _ (by simp [replay, hp.ne])
          · intro p
            simp only [hvis, sharedPtrs_append, sharedPtrs, List.mem_append, List.mem_singleton]
            rw [hvis] at hv
            exact ⟨.inl, fun h => h.elim id (fun h => h ▸ hv)⟩
          · refine first_snoc hfirst _ ?_
            intro _ _ _ _ e
            cases e
            rw [hvis] at hv
            simp [hv]
      · refine ⟨⟨{ s.builder with trees := trees', visitedShared := ptr :: s.builder.visitedShared, shared := ⟨s.builder.current.tree :: s.builder.current.stack, t⟩ :: s.builder.shared, current := ⟨[], s.builder.root⟩ }, NodeKind.shared :: kind :: rest⟩, [.shared k n ptr true], ⟨.shared, k⟩ :: frames, recs ++ [⟨stackOf frames ++ [k], n, false⟩], paths', ?_, ?_⟩
        · simp only [vi_shared, Builder.enterSharedImpl, e, if_neg hv]
        · refine ⟨h1, hroot, by simp [← hlive, hl], .inr ⟨?_, he⟩, ?_, ?_, ?_⟩
          · simp only [hroot]
            exact .shared k t (hp.mono h2) h3
          · exact replay_snoc hreplay _ (by simp [replay, hp.ne])
          · intro p
            simp only [List.mem_cons, hvis, sharedPtrs_append, sharedPtrs, List.mem_append, List.mem_singleton, List.not_mem_nil, or_false]
            exact or_comm
          · refine first_snoc hfirst _ ?_
            intro _ _ _ _ e
            cases e
            rw [hvis] at hv
            simp [hv]
  | exit =>
    simp only [Session.step]
    cases hl : s.live with
    | nil => exact .inl rfl
    | cons kind rest =>
      right
      obtain ⟨f, fs, b', _, _, _, e, hi⟩ := ends kind rest hl
      exact ⟨_, _, fs, recs, paths, by simp only [VisitorImpl.exit, builder_exitImpl, e, VisitorImpl.endScope]; rfl, hi⟩
  | drop =>
    simp only [Session.step]
    cases hl : s.live with
    | nil => exact .inl rfl
    | cons kind rest =>
      right
      obtain ⟨f, fs, b', _, _, _, e, hi⟩ := ends kind rest hl
      exact ⟨_, _, fs, recs, paths, by simp only [VisitorImpl.drop, builder_exitImpl, e], hi⟩
  | forget => exact absurd rfl hop

/-! ### Leaks -/

theorem Pos.live {paths : List Path} (h0 : paths[0]? = some []) {fs st sh} (h : Pos paths fs st sh) :
    1 + st.stack.length + (sh.map fun st => st.stack.length).sum = fs.length ∧
    ∀ x ∈ sh, x.stack ≠ [] ∧ ∃ p, StackAt paths x.stack x.tree p := by
  induction h with
  | root k => exact ⟨rfl, by simp⟩
  | inline k t' _ h ih => exact ⟨by have := ih.1; simp only [List.length_cons] at *; omega, ih.2⟩
  | unique k t' _ h ih => exact ⟨by have := ih.1; simp only [List.length_cons] at *; omega, ih.2⟩
  | @shared fs s t sh k t' hp h ih =>
    refine ⟨by have := ih.1; simp only [List.length_cons, List.length_nil, List.map_cons, List.sum_cons] at *; omega, ?_⟩
    intro x hx
    rcases List.mem_cons.1 hx with rfl | hx
    · exact ⟨by simp, _, .cons (hp.stackAt h0) h⟩
    · exact ih.2 x hx

theorem Inv.toLive {s own frames recs paths} (h : Inv s own frames recs paths) (hf : frames ≠ []) : Live s.builder s.live.length := by
  obtain ⟨hrep, hroot, hlive, hpos, _⟩ := h
  rcases hpos with ⟨rfl, _⟩ | ⟨hp, he⟩
  · exact absurd rfl hf
  obtain ⟨h1, h2⟩ := hp.live hrep.root
  refine ⟨⟨recs, paths, hrep, ⟨_, hp.stackAt hrep.root⟩, h2⟩, hroot, he, ?_⟩
  rw [hlive, List.length_map, ← h1]
  rfl

/-- Operations after a leak: `root_visitor` panics, everything else goes on, and the leak stays. -/
theorem Live.step {s : Session} {m : Nat} (h : Live s.builder (s.live.length + (m + 1))) (op : Op) :
    s.step op = none ∨ s.step op = some (.error .assertRootNotEntered) ∨
    ∃ s' evs m', s.step op = some (.ok (s', evs)) ∧ Live s'.builder (s'.live.length + (m' + 1)) := by
  have ends : ∀ (kind : NodeKind) (rest : List NodeKind), s.live = kind :: rest →
      ∃ b', s.builder.exitImpl = .ok b' ∧ Live b' (rest.length + (m + 1)) := by
    intro kind rest hl
    rw [hl] at h
    obtain ⟨b', e, h', _⟩ := Live.exit (n := rest.length + m) (by simpa [Nat.add_assoc, Nat.add_comm, Nat.add_left_comm] using h)
    exact ⟨b', e, by simpa [Nat.add_assoc] using h'⟩
  cases op with
  | root =>
    simp only [Session.step]
    cases hl : s.live with
    | nil => exact .inr (.inl (by simp only [Builder.rootVisitor, h.entered, if_true]))
    | cons => exact .inl rfl
  | enter k n =>
    simp only [Session.step]
    cases hl : s.live with
    | nil => exact .inl rfl
    | cons kind rest =>
      obtain ⟨b', e, h', _⟩ := h.enter k n false id (by simp)
      refine .inr (.inr ⟨_, _, m, by simp only [vi_inline, Builder.enterInlineImpl, e]; rfl, ?_⟩)
      rw [hl] at h'
      simpa [Nat.add_assoc, Nat.add_comm, Nat.add_left_comm] using h'
  | enterUnique k n =>
    simp only [Session.step]
    cases hl : s.live with
    | nil => exact .inl rfl
    | cons kind rest =>
      obtain ⟨b', e, h', _⟩ := h.enter k n true (fun d => { d with unique := true }) (by simp)
      refine .inr (.inr ⟨_, _, m, by simp only [vi_unique, Builder.enterUniqueImpl, e]; rfl, ?_⟩)
      rw [hl] at h'
      simpa [Nat.add_assoc, Nat.add_comm, Nat.add_left_comm] using h'
  | enterShared k n ptr =>
    simp only [Session.step]
    cases hl : s.live with
    | nil => exact .inl rfl
    | cons kind rest =>
      obtain ⟨b', e, h', v', hne, hsh⟩ := h.enter k n false id (by simp)
      by_cases hv : ptr ∈ s.builder.visitedShared
      · obtain ⟨b2, e2, h2, _⟩ := Live.exit (n := s.live.length + m) (by simpa [Nat.add_assoc, Nat.add_comm, Nat.add_left_comm] using h')
        refine .inr (.inr ⟨⟨b2, kind :: rest⟩, [.shared k n ptr false], m, by simp only [vi_shared, Builder.enterSharedImpl, e, v', if_pos hv, e2], ?_⟩)
        simp only [← hl]
        simpa [Nat.add_assoc] using h2
      · refine .inr (.inr ⟨⟨{ b' with visitedShared := ptr :: b'.visitedShared, shared := b'.current :: b'.shared, current := ⟨[], b'.root⟩ },
          .shared :: kind :: rest⟩, [.shared k n ptr true], m, by simp only [vi_shared, Builder.enterSharedImpl, e, v', if_neg hv], ?_⟩)
        obtain ⟨⟨recs, paths, hrep, ⟨p, hst⟩, hsh'⟩, hroot, hent, hdepth⟩ := h'
        refine ⟨⟨recs, paths, hrep, ⟨[], .nil (by simp only [hroot]; exact hrep.root)⟩, ?_⟩, hroot, hent, ?_⟩
        · intro st hm
          rcases List.mem_cons.1 hm with rfl | hm
          · exact ⟨hne, p, hst⟩
          · exact hsh' st hm
        · simp only [Builder.depth, hl, List.length_cons, List.length_nil, List.map_cons, List.sum_cons] at hdepth ⊢; omega
  | exit =>
    simp only [Session.step]
    cases hl : s.live with
    | nil => exact .inl rfl
    | cons kind rest =>
      obtain ⟨b', e, h'⟩ := ends kind rest hl
      exact .inr (.inr ⟨_, _, m, by simp only [VisitorImpl.exit, builder_exitImpl, e, VisitorImpl.endScope]; rfl, h'⟩)
  | drop =>
    simp only [Session.step]
    cases hl : s.live with
    | nil => exact .inl rfl
    | cons kind rest =>
      obtain ⟨b', e, h'⟩ := ends kind rest hl
      exact .inr (.inr ⟨⟨b', rest⟩, _, m, by simp only [VisitorImpl.drop, builder_exitImpl, e]; rfl, h'⟩)
  | forget =>
    simp only [Session.step]
    cases hl : s.live with
    | nil => exact .inl rfl
    | cons kind rest =>
      refine .inr (.inr ⟨_, _, m + 1, rfl, ?_⟩)
      rw [hl] at h
      simpa [Nat.add_assoc, Nat.add_comm, Nat.add_left_comm] using h

end Allocative
