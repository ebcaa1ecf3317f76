import Verif.Lemmas.Builder
/-
Execution of visit programs on the builder: it never fails, restores the position, and records the trace.
-/
namespace Allocative

/-- The builder stands inside a root visit at stack `cur` and has recorded `recs`. -/
structure At (b : Builder) (recs : List Rec) (paths : List Path) (cur : Path) : Prop where
  rep : Rep b.trees recs paths
  st : StackAt paths b.current.stack b.current.tree cur
  root : b.root = 0
  entered : b.enteredRootVisitor = true

/-- Same position. -/
structure SamePos (b b' : Builder) : Prop where
  current : b'.current = b.current
  shared : b'.shared = b.shared

theorem SamePos.rfl {b} : SamePos b b := ⟨Eq.refl _, Eq.refl _⟩
theorem SamePos.trans {a b c} (h : SamePos a b) (h' : SamePos b c) : SamePos a c :=
  ⟨h'.current.trans h.current, h'.shared.trans h.shared⟩

/-- Result of running a program part: outcome `b'` at the same position with the records added. -/
def Ran (b : Builder) (recs : List Rec) (paths : List Path) (cur : Path) (t : Trace) (r : Except Panic (Builder × Ctl)) : Prop :=
  ∃ b' paths', r = .ok (b', t.ctl) ∧ At b' (recs ++ t.recs) paths' cur ∧ SamePos b b' ∧ b'.visitedShared = t.visited ∧
    paths <+: paths'

theorem exit_pop {b : Builder} (h : b.enteredRootVisitor = true) {t s} (hs : b.current.stack = t :: s) :
    b.exitImpl = .ok { b with current := ⟨s, t⟩ } := by
  simp [Builder.exitImpl, h, up, hs]

theorem exit_shared {b : Builder} (h : b.enteredRootVisitor = true) (hs : b.current.stack = []) {st sh t s}
    (hsh : b.shared = st :: sh) (hst : st.stack = t :: s) :
    b.exitImpl = .ok { b with current := ⟨s, t⟩, shared := sh } := by
  simp [Builder.exitImpl, h, up, hs, hsh, hst]

theorem finishChild_closes {σ} (impl : VisitorImpl σ) (kind : NodeKind) {f : Fate} {ctl : Ctl} (hf : f.leaks ctl = 0) (s : σ) :
    impl.finishChild kind f ctl s = impl.exitImpl kind s := by
  cases f <;> cases ctl <;> first
    | rfl
    | (simp [Fate.leaks] at hf; done)
    | (simp only [VisitorImpl.finishChild, VisitorImpl.exit, VisitorImpl.endScope]; cases impl.exitImpl kind s <;> rfl)

theorem builder_exitImpl (kind : NodeKind) (b : Builder) : Builder.visitorImpl.exitImpl kind b = b.exitImpl := by
  cases kind <;> rfl

theorem vi_inline : Builder.visitorImpl.enterInlineImpl = Builder.enterInlineImpl := rfl
theorem vi_unique : Builder.visitorImpl.enterUniqueImpl = Builder.enterUniqueImpl := rfl
theorem vi_shared : Builder.visitorImpl.enterSharedImpl = Builder.enterSharedImpl := rfl

/-- The part common to the three kinds of entering a node inline at `cur ++ [k]` and running `body` there. -/
theorem Ran.child {b : Builder} {recs paths cur} (h : At b recs paths cur) (k : Key) (n : Nat) (u : Bool)
    (f : TreeData → TreeData)
    (hf : ∀ d, (f d).size = d.size ∧ (f d).unique = (d.unique || u) ∧ (f d).children = d.children)
    {t : Trace} {body : Builder → Except Panic (Builder × Ctl)}
    (hbody : ∀ b1 recs1 paths1, At b1 recs1 paths1 (cur ++ [k]) → b1.visitedShared = b.visitedShared →
      Ran b1 recs1 paths1 (cur ++ [k]) t (body b1)) :
    ∃ b1 b2 b3, b.downAndAdd k n f = .ok b1 ∧ body b1 = .ok (b2, t.ctl) ∧ b2.exitImpl = .ok b3 ∧
      ∃ paths3, At b3 (recs ++ ⟨cur ++ [k], n, u⟩ :: t.recs) paths3 cur ∧ SamePos b b3 ∧ b3.visitedShared = t.visited ∧
        paths <+: paths3 := by
  obtain ⟨trees1, t1, paths1, he, hrep1, hpre1, hst1⟩ := h.rep.downAndAdd h.st k n u f hf
  obtain ⟨b2, paths2, hb, hat, hsame, hvis, hpre2⟩ :=
    hbody { b with trees := trees1, current := ⟨b.current.tree :: b.current.stack, t1⟩ } (recs ++ [⟨cur ++ [k], n, u⟩]) paths1 ⟨hrep1, hst1, h.root, h.entered⟩ rfl
  have hcur : b2.current = ⟨b.current.tree :: b.current.stack, t1⟩ := hsame.current
  refine ⟨_, b2, { b2 with current := b.current }, he, hb, ?_, paths2, ?_, ⟨rfl, hsame.shared⟩, hvis, hpre1.trans hpre2⟩
  · exact exit_pop hat.entered (by rw [hcur])
  · exact ⟨by simpa using hat.rep, h.st.mono (hpre1.trans hpre2), hat.root, hat.entered⟩

theorem exec_trace (prog : Prog) : ∀ (kind : NodeKind) (b : Builder) (recs paths cur),
    (prog.trace cur b.visitedShared).leaked = 0 → At b recs paths cur → Ran b recs paths cur (prog.trace cur b.visitedShared) (exec Builder.visitorImpl prog kind b) := by
  induction prog with
  | done =>
    intro kind b recs paths cur _ h
    exact ⟨b, paths, rfl, by simpa [Prog.trace] using h, .rfl, rfl, List.prefix_rfl⟩
  | panic =>
    intro kind b recs paths cur _ h
    exact ⟨b, paths, rfl, by simpa [Prog.trace] using h, .rfl, rfl, List.prefix_rfl⟩
  | enter k n f body rest ih1 ih2 =>
    intro kind b recs paths cur hl h
    simp only [Prog.trace] at hl
    have hl1 : (body.trace (cur ++ [k]) b.visitedShared).leaked = 0 := by split at hl <;> simp only at hl <;> omega
    have hf : f.leaks (body.trace (cur ++ [k]) b.visitedShared).ctl = 0 := by
      split at hl <;> (rename_i hc; rw [hc]; simp only at hl; omega)
    obtain ⟨b1, b2, b3, e1, e2, e3, paths3, hat, hsame, hvis, hpre⟩ :=
      Ran.child h k n false id (by simp) (t := body.trace (cur ++ [k]) b.visitedShared)
        (body := exec Builder.visitorImpl body .inline)
        (fun b1 recs1 paths1 h1 hv => hv ▸ ih1 .inline b1 recs1 paths1 _ (hv ▸ hl1) h1)
    simp only [exec, vi_inline, Builder.enterInlineImpl, e1]
    rw [e2]
    simp only [finishChild_closes _ _ hf]
    simp only [builder_exitImpl, e3]
    simp only [Prog.trace]
    cases hc : (body.trace (cur ++ [k]) b.visitedShared).ctl with
    | unwinding => exact ⟨b3, paths3, rfl, hat, hsame, hvis, hpre⟩
    | returned =>
      obtain ⟨b4, paths4, e4, hat4, hsame4, hvis4, hpre4⟩ := ih2 kind b3 _ paths3 cur (by
        rw [hvis]; simp only [hc] at hl; omega) hat
      rw [hvis] at e4 hat4 hvis4
      exact ⟨b4, paths4, e4, by simpa [List.append_assoc] using hat4, hsame.trans hsame4, hvis4, hpre.trans hpre4⟩
  | enterUnique k n f body rest ih1 ih2 =>
    intro kind b recs paths cur hl h
    simp only [Prog.trace] at hl
    have hl1 : (body.trace (cur ++ [k]) b.visitedShared).leaked = 0 := by split at hl <;> simp only at hl <;> omega
    have hf : f.leaks (body.trace (cur ++ [k]) b.visitedShared).ctl = 0 := by
      split at hl <;> (rename_i hc; rw [hc]; simp only at hl; omega)
    obtain ⟨b1, b2, b3, e1, e2, e3, paths3, hat, hsame, hvis, hpre⟩ :=
      Ran.child h k n true (fun d => { d with unique := true }) (by simp) (t := body.trace (cur ++ [k]) b.visitedShared)
        (body := exec Builder.visitorImpl body .unique)
        (fun b1 recs1 paths1 h1 hv => hv ▸ ih1 .unique b1 recs1 paths1 _ (hv ▸ hl1) h1)
    simp only [exec, vi_unique, Builder.enterUniqueImpl, e1]
    rw [e2]
    simp only [finishChild_closes _ _ hf]
    simp only [builder_exitImpl, e3]
    simp only [Prog.trace]
    cases hc : (body.trace (cur ++ [k]) b.visitedShared).ctl with
    | unwinding => exact ⟨b3, paths3, rfl, hat, hsame, hvis, hpre⟩
    | returned =>
      obtain ⟨b4, paths4, e4, hat4, hsame4, hvis4, hpre4⟩ := ih2 kind b3 _ paths3 cur (by
        rw [hvis]; simp only [hc] at hl; omega) hat
      rw [hvis] at e4 hat4 hvis4
      exact ⟨b4, paths4, e4, by simpa [List.append_assoc] using hat4, hsame.trans hsame4, hvis4, hpre.trans hpre4⟩
  | enterShared k n ptr f body rs rn ih1 ih2 ih3 =>
    intro kind b recs paths cur hl h
    simp only [Prog.trace] at hl
    obtain ⟨trees1, t1, paths1, he, hrep1, hpre1, hst1⟩ := h.rep.downAndAdd h.st k n false id (by simp)
    simp only [exec, vi_shared, Builder.enterSharedImpl, he]
    by_cases hv : ptr ∈ b.visitedShared
    · simp only [if_pos hv, Prog.trace]
      have hx := exit_pop (b := { b with trees := trees1, current := ⟨b.current.tree :: b.current.stack, t1⟩ })
        (t := b.current.tree) (s := b.current.stack) h.entered rfl
      rw [hx]
      obtain ⟨b4, paths4, e4, hat4, hsame4, hvis4, hpre4⟩ := ih3 kind { b with trees := trees1 } _ paths1 cur
        (by simpa [hv] using hl)
        ⟨hrep1, h.st.mono hpre1, h.root, h.entered⟩
      exact ⟨b4, paths4, e4, by simpa [List.append_assoc] using hat4, ⟨hsame4.current, hsame4.shared⟩, hvis4,
        hpre1.trans hpre4⟩
    · simp only [if_neg hv, Prog.trace]
      simp only [if_neg hv] at hl
      have hl1 : (body.trace [] (ptr :: b.visitedShared)).leaked = 0 := by split at hl <;> simp only at hl <;> omega
      have hf : f.leaks (body.trace [] (ptr :: b.visitedShared)).ctl = 0 := by
        split at hl <;> (rename_i hc; rw [hc]; simp only at hl; omega)
      obtain ⟨b2, paths2, e2, hat2, hsame2, hvis2, hpre2⟩ := ih1 .shared
        { b with
          trees := trees1
          visitedShared := ptr :: b.visitedShared
          shared := ⟨b.current.tree :: b.current.stack, t1⟩ :: b.shared
          current := ⟨[], b.root⟩ } _ paths1 [] hl1
        ⟨hrep1, .nil (by rw [h.root]; exact hrep1.root), h.root, h.entered⟩
      rw [e2]
      simp only [finishChild_closes _ _ hf, builder_exitImpl]
      rw [exit_shared hat2.entered (by rw [hsame2.current]) (hsame2.shared) (by rfl)]
      have hat3 : At { b2 with current := b.current, shared := b.shared }
          (recs ++ ⟨cur ++ [k], n, false⟩ :: (body.trace [] (ptr :: b.visitedShared)).recs) paths2 cur :=
        ⟨by simpa using hat2.rep, h.st.mono (hpre1.trans hpre2), hat2.root, hat2.entered⟩
      cases hc : (body.trace [] (ptr :: b.visitedShared)).ctl with
      | unwinding => exact ⟨_, paths2, rfl, hat3, ⟨rfl, rfl⟩, hvis2, hpre1.trans hpre2⟩
      | returned =>
        obtain ⟨b4, paths4, e4, hat4, hsame4, hvis4, hpre4⟩ := ih2 kind { b2 with current := b.current, shared := b.shared } _ paths2 cur
          (by simp only [hc] at hl; rw [show ({ b2 with current := b.current, shared := b.shared } : Builder).visitedShared =
                (body.trace [] (ptr :: b.visitedShared)).visited from hvis2]; omega) hat3
        have hv2 : b2.visitedShared = (body.trace [] (ptr :: b.visitedShared)).visited := hvis2
        rw [← hv2]
        exact ⟨b4, paths4, e4, by simpa [List.append_assoc] using hat4, ⟨hsame4.current, hsame4.shared⟩, hvis4,
          hpre1.trans (hpre2.trans hpre4)⟩
  | catchUnwind body rest ih1 ih2 =>
    intro kind b recs paths cur hl h
    simp only [Prog.trace] at hl
    obtain ⟨b1, paths1, e1, hat1, hsame1, hvis1, hpre1⟩ := ih1 kind b recs paths cur (by omega) h
    obtain ⟨b4, paths4, e4, hat4, hsame4, hvis4, hpre4⟩ := ih2 kind b1 _ paths1 cur (by rw [hvis1]; omega) hat1
    rw [hvis1] at e4 hat4 hvis4
    refine ⟨b4, paths4, ?_, by simpa [Prog.trace, List.append_assoc] using hat4, hsame1.trans hsame4, hvis4, hpre1.trans hpre4⟩
    simp only [exec, e1, e4, Prog.trace]

/-- The builder is between roots and has recorded `recs`. -/
structure Idle (b : Builder) (recs : List Rec) (paths : List Path) : Prop where
  rep : Rep b.trees recs paths
  current : b.current = ⟨[], 0⟩
  shared : b.shared = []
  root : b.root = 0
  notEntered : b.enteredRootVisitor = false

theorem Idle.default : Idle Builder.default [] [[]] := ⟨Rep.default, rfl, rfl, rfl, rfl⟩

theorem Idle.useRoot {b recs paths} (h : Idle b recs paths) {prog : Prog} {fate : Fate}
    (hp : (prog.trace [] b.visitedShared).leaked = 0) (hf : fate.leaks (prog.trace [] b.visitedShared).ctl = 0) :
    ∃ b' paths', b.useRoot prog fate = .ok (b', (prog.trace [] b.visitedShared).ctl) ∧
      Idle b' (recs ++ (prog.trace [] b.visitedShared).recs) paths' ∧
      b'.visitedShared = (prog.trace [] b.visitedShared).visited := by
  obtain ⟨b2, paths2, e2, hat2, hsame2, hvis2, _⟩ := exec_trace prog .root { b with enteredRootVisitor := true } recs paths [] hp
    ⟨h.rep, by rw [h.current]; exact .nil h.rep.root, h.root, rfl⟩
  refine ⟨{ b2 with enteredRootVisitor := false }, paths2, ?_, ⟨hat2.rep, ?_, ?_, hat2.root, rfl⟩, hvis2⟩
  · simp only [Builder.useRoot, Builder.rootVisitor, h.notEntered, Bool.false_eq_true, ↓reduceIte, e2]
    rw [finishChild_closes _ _ hf, builder_exitImpl]
    simp [Builder.exitImpl, hat2.entered, up, hsame2.current, hsame2.shared, h.current, h.shared]
  · rw [← h.current]; exact hsame2.current
  · rw [← h.shared]; exact hsame2.shared

theorem Idle.useRoots {hist : List (Prog × Fate)} : ∀ {b recs paths}, Idle b recs paths →
    (traceRoots hist b.visitedShared).leaked = 0 →
    ∃ b' paths', b.useRoots hist = .ok b' ∧ Idle b' (recs ++ (traceRoots hist b.visitedShared).recs) paths' ∧
      b'.visitedShared = (traceRoots hist b.visitedShared).visited := by
  induction hist with
  | nil => intro b recs paths h _; exact ⟨b, paths, rfl, by simpa [traceRoots] using h, rfl⟩
  | cons x rest ih =>
    intro b recs paths h hl
    obtain ⟨prog, fate⟩ := x
    simp only [traceRoots] at hl
    obtain ⟨b1, paths1, e1, h1, hv1⟩ := h.useRoot (prog := prog) (fate := fate) (by omega) (by omega)
    obtain ⟨b2, paths2, e2, h2, hv2⟩ := ih h1 (by rw [hv1]; omega)
    rw [hv1] at h2 hv2
    exact ⟨b2, paths2, by simp only [Builder.useRoots, e1, e2], by simpa [traceRoots, List.append_assoc] using h2, hv2⟩

/-- Histories of a fresh builder. -/
theorem useRoots_default {hist : List (Prog × Fate)} (hl : NoLeaks hist) :
    ∃ b paths, Builder.default.useRoots hist = .ok b ∧ Idle b (records hist) paths := by
  obtain ⟨b, paths, h1, h2, _⟩ := Idle.default.useRoots hl
  exact ⟨b, paths, h1, by simpa [records, Builder.default] using h2⟩

theorem useRoots_append (b : Builder) (h1 h2 : List (Prog × Fate)) :
    b.useRoots (h1 ++ h2) = match b.useRoots h1 with
      | .error e => .error e
      | .ok b => b.useRoots h2 := by
  induction h1 generalizing b with
  | nil => rfl
  | cons x rest ih =>
    obtain ⟨prog, fate⟩ := x
    simp only [List.cons_append, Builder.useRoots]
    cases b.useRoot prog fate with
    | error e => rfl
    | ok r => obtain ⟨b1, c⟩ := r; exact ih b1

end Allocative
