import Verif.Lemmas.Run
/-
Executions with leaked visitors: the number of open positions of the builder is the number of visitors not yet
exited.
-/
namespace Allocative

/-- Number of positions to leave before the builder is between roots again. -/
def Builder.depth (b : Builder) : Nat :=
  1 + b.current.stack.length + (b.shared.map (fun st => st.stack.length)).sum

/-- The builder is inside a root visit with `n` visitors not exited (including the root visitor). -/
structure Live (b : Builder) (n : Nat) : Prop where
  wf : ∃ recs paths, Rep b.trees recs paths ∧ (∃ p, StackAt paths b.current.stack b.current.tree p) ∧
    (∀ st ∈ b.shared, st.stack ≠ [] ∧ ∃ p, StackAt paths st.stack st.tree p)
  root : b.root = 0
  entered : b.enteredRootVisitor = true
  depth : b.depth = n

theorem Live.enter {b n} (h : Live b n) (k : Key) (sz : Nat) (u : Bool) (f : TreeData → TreeData)
    (hf : ∀ d, (f d).size = d.size ∧ (f d).unique = (d.unique || u) ∧ (f d).children = d.children) :
    ∃ b', b.downAndAdd k sz f = .ok b' ∧ Live b' (n + 1) ∧ b'.visitedShared = b.visitedShared ∧ b'.current.stack ≠ [] ∧
      b'.shared = b.shared := by
  obtain ⟨⟨recs, paths, hrep, ⟨p, hst⟩, hsh⟩, hroot, hent, hdepth⟩ := h
  obtain ⟨trees', t, paths', e, hrep', hpre, hst'⟩ := hrep.downAndAdd hst k sz u f hf
  refine ⟨_, e, ⟨⟨_, paths', hrep', ⟨_, hst'⟩, ?_⟩, hroot, hent, ?_⟩, rfl, by simp, rfl⟩
  · intro st hm
    obtain ⟨h1, q, h2⟩ := hsh st hm
    exact ⟨h1, q, h2.mono hpre⟩
  · simp only [Builder.depth, List.length_cons] at hdepth ⊢; omega

theorem StackAt.up {paths s t t' p} (h : StackAt paths (t' :: s) t p) : ∃ q, StackAt paths s t' q := by
  cases h with | cons h _ => exact ⟨_, h⟩

theorem Live.exit {b n} (h : Live b (n + 2)) : ∃ b', b.exitImpl = .ok b' ∧ Live b' (n + 1) ∧ b'.visitedShared = b.visitedShared := by
  obtain ⟨⟨recs, paths, hrep, ⟨p, hst⟩, hsh⟩, hroot, hent, hdepth⟩ := h
  cases hs : b.current.stack with
  | cons t s =>
    rw [hs] at hst
    obtain ⟨q, hq⟩ := hst.up
    refine ⟨_, exit_pop hent hs, ⟨⟨recs, paths, hrep, ⟨q, hq⟩, hsh⟩, hroot, hent, ?_⟩, rfl⟩
    simp only [Builder.depth, hs, List.length_cons] at hdepth ⊢; omega
  | nil =>
    cases hss : b.shared with
    | nil => simp [Builder.depth, hs, hss] at hdepth
    | cons st sh =>
      obtain ⟨hne, q, hq⟩ := hsh st (by simp [hss])
      cases hst2 : st.stack with
      | nil => exact absurd hst2 hne
      | cons t s =>
        rw [hst2] at hq
        obtain ⟨q', hq'⟩ := hq.up
        refine ⟨_, exit_shared hent hs hss hst2, ⟨⟨recs, paths, hrep, ⟨q', hq'⟩, ?_⟩, hroot, hent, ?_⟩, rfl⟩
        · intro st' hm; exact hsh st' (by simp [hss, hm])
        · simp only [Builder.depth, hs, hss, List.length_nil, List.map_cons, List.sum_cons, hst2, List.length_cons] at hdepth ⊢
          omega

theorem Live.finishChild {b n} (h : Live b (n + 2)) (kind : NodeKind) (f : Fate) (ctl : Ctl) :
    ∃ b', Builder.visitorImpl.finishChild kind f ctl b = .ok b' ∧ Live b' (n + 1 + f.leaks ctl) ∧
      b'.visitedShared = b.visitedShared := by
  by_cases hf : f.leaks ctl = 0
  · obtain ⟨b', e, h', hv⟩ := h.exit
    exact ⟨b', by rw [finishChild_closes _ _ hf, builder_exitImpl, e], by rw [hf]; exact h', hv⟩
  · refine ⟨b, ?_, ?_, rfl⟩
    · cases f <;> cases ctl <;> first | rfl | (simp [Fate.leaks] at hf)
    · have : f.leaks ctl = 1 := by cases f <;> cases ctl <;> first | rfl | (simp [Fate.leaks] at hf)
      rw [this]; exact h

theorem exec_live (prog : Prog) : ∀ (kind : NodeKind) (b : Builder) (n : Nat) (cur : Path), Live b (n + 1) →
    ∃ b', exec Builder.visitorImpl prog kind b = .ok (b', (prog.trace cur b.visitedShared).ctl) ∧
      Live b' (n + 1 + (prog.trace cur b.visitedShared).leaked) ∧
      b'.visitedShared = (prog.trace cur b.visitedShared).visited := by
  induction prog with
  | done => intro kind b n cur h; exact ⟨b, rfl, h, rfl⟩
  | panic => intro kind b n cur h; exact ⟨b, rfl, h, rfl⟩
  | enter k sz f body rest ih1 ih2 =>
    intro kind b n cur h
    obtain ⟨b1, e1, h1, v1, _⟩ := h.enter k sz false id (by simp)
    obtain ⟨b2, e2, h2, v2⟩ := ih1 .inline b1 (n + 1) (cur ++ [k]) h1
    rw [v1] at e2 h2 v2
    obtain ⟨b3, e3, h3, v3⟩ := Live.finishChild (n := n + (body.trace (cur ++ [k]) b.visitedShared).leaked)
      (by have : n + 1 + 1 + (body.trace (cur ++ [k]) b.visitedShared).leaked =
            n + (body.trace (cur ++ [k]) b.visitedShared).leaked + 2 := by omega
          rw [← this]; exact h2) .inline f (body.trace (cur ++ [k]) b.visitedShared).ctl
    simp only [exec, vi_inline, Builder.enterInlineImpl, e1, e2, e3, Prog.trace]
    cases hc : (body.trace (cur ++ [k]) b.visitedShared).ctl with
    | unwinding =>
      simp only [hc] at h3
      exact ⟨b3, rfl, by simpa [Nat.add_assoc, Nat.add_comm, Nat.add_left_comm] using h3, by rw [v3, v2]⟩
    | returned =>
      simp only [hc] at h3
      obtain ⟨b4, e4, h4, v4⟩ := ih2 kind b3 (n + (body.trace (cur ++ [k]) b.visitedShared).leaked + f.leaks .returned) cur
        (by rw [show n + (body.trace (cur ++ [k]) b.visitedShared).leaked + f.leaks .returned + 1 =
              n + (body.trace (cur ++ [k]) b.visitedShared).leaked + 1 + f.leaks .returned by omega]; exact h3)
      rw [v3, v2] at e4 h4 v4
      exact ⟨b4, e4, by simpa [Nat.add_assoc, Nat.add_comm, Nat.add_left_comm] using h4, v4⟩
  | enterUnique k sz f body rest ih1 ih2 =>
    intro kind b n cur h
    obtain ⟨b1, e1, h1, v1, _⟩ := h.enter k sz true (fun d => { d with unique := true }) (by simp)
    obtain ⟨b2, e2, h2, v2⟩ := ih1 .unique b1 (n + 1) (cur ++ [k]) h1
    rw [v1] at e2 h2 v2
    obtain ⟨b3, e3, h3, v3⟩ := Live.finishChild (n := n + (body.trace (cur ++ [k]) b.visitedShared).leaked)
      (by have : n + 1 + 1 + (body.trace (cur ++ [k]) b.visitedShared).leaked =
            n + (body.trace (cur ++ [k]) b.visitedShared).leaked + 2 := by omega
          rw [← this]; exact h2) .unique f (body.trace (cur ++ [k]) b.visitedShared).ctl
    simp only [exec, vi_unique, Builder.enterUniqueImpl, e1, e2, e3, Prog.trace]
    cases hc : (body.trace (cur ++ [k]) b.visitedShared).ctl with
    | unwinding =>
      simp only [hc] at h3
      exact ⟨b3, rfl, by simpa [Nat.add_assoc, Nat.add_comm, Nat.add_left_comm] using h3, by rw [v3, v2]⟩
    | returned =>
      simp only [hc] at h3
      obtain ⟨b4, e4, h4, v4⟩ := ih2 kind b3 (n + (body.trace (cur ++ [k]) b.visitedShared).leaked + f.leaks .returned) cur
        (by rw [show n + (body.trace (cur ++ [k]) b.visitedShared).leaked + f.leaks .returned + 1 =
              n + (body.trace (cur ++ [k]) b.visitedShared).leaked + 1 + f.leaks .returned by omega]; exact h3)
      rw [v3, v2] at e4 h4 v4
      exact ⟨b4, e4, by simpa [Nat.add_assoc, Nat.add_comm, Nat.add_left_comm] using h4, v4⟩
  | enterShared k sz ptr f body rs rn ih1 ih2 ih3 =>
    intro kind b n cur h
    obtain ⟨b1, e1, h1, v1, hne1, hsh1⟩ := h.enter k sz false id (by simp)
    simp only [exec, vi_shared, Builder.enterSharedImpl, e1, v1, Prog.trace]
    by_cases hv : ptr ∈ b.visitedShared
    · simp only [if_pos hv]
      obtain ⟨b2, e2, h2, v2⟩ := h1.exit
      simp only [e2]
      obtain ⟨b4, e4, h4, v4⟩ := ih3 kind b2 n cur h2
      rw [v2, v1] at e4 h4 v4
      exact ⟨b4, e4, h4, v4⟩
    · simp only [if_neg hv]
      have hlive : Live { b1 with
          visitedShared := ptr :: b.visitedShared
          shared := b1.current :: b1.shared
          current := { stack := [], tree := b1.root } } (n + 2) := by
        obtain ⟨⟨recs, paths, hrep, ⟨p, hst⟩, hsh⟩, hroot, hent, hdepth⟩ := h1
        refine ⟨⟨recs, paths, hrep, ⟨[], .nil (by rw [hroot]; exact hrep.root)⟩, ?_⟩, hroot, hent, ?_⟩
        · intro st hm
          rcases List.mem_cons.1 hm with rfl | hm
          · exact ⟨hne1, p, hst⟩
          · exact hsh st hm
        · simp only [Builder.depth, List.length_nil, List.map_cons, List.sum_cons] at hdepth ⊢; omega
      obtain ⟨b2, e2, h2, v2⟩ := ih1 .shared _ (n + 1) [] hlive
      simp only at e2 h2 v2
      obtain ⟨b3, e3, h3, v3⟩ := Live.finishChild (n := n + (body.trace [] (ptr :: b.visitedShared)).leaked)
        (by have : n + 1 + 1 + (body.trace [] (ptr :: b.visitedShared)).leaked =
              n + (body.trace [] (ptr :: b.visitedShared)).leaked + 2 := by omega
            rw [← this]; exact h2) .shared f (body.trace [] (ptr :: b.visitedShared)).ctl
      simp only [e2, e3]
      cases hc : (body.trace [] (ptr :: b.visitedShared)).ctl with
      | unwinding =>
        simp only [hc] at h3
        exact ⟨b3, rfl, by simpa [Nat.add_assoc, Nat.add_comm, Nat.add_left_comm] using h3, by rw [v3, v2]⟩
      | returned =>
        simp only [hc] at h3
        obtain ⟨b4, e4, h4, v4⟩ := ih2 kind b3 (n + (body.trace [] (ptr :: b.visitedShared)).leaked + f.leaks .returned) cur
          (by rw [show n + (body.trace [] (ptr :: b.visitedShared)).leaked + f.leaks .returned + 1 =
                n + (body.trace [] (ptr :: b.visitedShared)).leaked + 1 + f.leaks .returned by omega]; exact h3)
        rw [v3, v2] at e4 h4 v4
        exact ⟨b4, e4, by simpa [Nat.add_assoc, Nat.add_comm, Nat.add_left_comm] using h4, v4⟩
  | catchUnwind body rest ih1 ih2 =>
    intro kind b n cur h
    obtain ⟨b1, e1, h1, v1⟩ := ih1 kind b n cur h
    obtain ⟨b2, e2, h2, v2⟩ := ih2 kind b1 (n + (body.trace cur b.visitedShared).leaked) cur
      (by rw [show n + (body.trace cur b.visitedShared).leaked + 1 = n + 1 + (body.trace cur b.visitedShared).leaked by omega]
          exact h1)
    rw [v1] at e2 h2 v2
    exact ⟨b2, by simp only [exec, e1, e2, Prog.trace],
      by simpa [Prog.trace, Nat.add_assoc, Nat.add_comm, Nat.add_left_comm] using h2, v2⟩

/-- A root use that leaks leaves the builder inside a visit. -/
theorem Idle.useRoot_leak {b recs paths} (h : Idle b recs paths) (prog : Prog) (fate : Fate)
    (hl : 0 < (prog.trace [] b.visitedShared).leaked + fate.leaks (prog.trace [] b.visitedShared).ctl) :
    ∃ b' ctl, b.useRoot prog fate = .ok (b', ctl) ∧
      Live b' ((prog.trace [] b.visitedShared).leaked + fate.leaks (prog.trace [] b.visitedShared).ctl) := by
  have h0 : Live { b with enteredRootVisitor := true } (0 + 1) := by
    refine ⟨⟨recs, paths, h.rep, ⟨[], ?_⟩, ?_⟩, h.root, rfl, ?_⟩
    · simp only [h.current]; exact .nil h.rep.root
    · simp [h.shared]
    · simp [Builder.depth, h.current, h.shared]
  obtain ⟨b2, e2, h2, v2⟩ := exec_live prog .root _ 0 [] h0
  simp only at e2 h2 v2
  simp only [Builder.useRoot, Builder.rootVisitor, h.notEntered, Bool.false_eq_true, ↓reduceIte, e2]
  cases hn : (prog.trace [] b.visitedShared).leaked with
  | zero =>
    rw [hn] at h2
    have hf : fate.leaks (prog.trace [] b.visitedShared).ctl ≠ 0 := by omega
    refine ⟨b2, (prog.trace [] b.visitedShared).ctl, ?_, ?_⟩
    · generalize (prog.trace [] b.visitedShared).ctl = c at hf
      have : VisitorImpl.finishChild Builder.visitorImpl .root fate c b2 = .ok b2 := by
        cases fate <;> cases c <;> first | rfl | (simp [Fate.leaks] at hf)
      rw [this]
    · have : fate.leaks (prog.trace [] b.visitedShared).ctl = 1 := by
        generalize (prog.trace [] b.visitedShared).ctl = c at hf
        cases fate <;> cases c <;> first | rfl | (simp [Fate.leaks] at hf)
      rw [this]; exact h2
  | succ m =>
    rw [hn] at h2
    obtain ⟨b3, e3, h3, v3⟩ := Live.finishChild (n := m) (by rw [show m + 2 = 0 + 1 + (m + 1) by omega]; exact h2) .root fate
      (prog.trace [] b.visitedShared).ctl
    exact ⟨b3, _, by rw [e3], h3⟩

end Allocative
