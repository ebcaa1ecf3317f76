import Verif.Model.Registry
import Verif.Lemmas.Locks
set_option linter.unusedSimpArgs false
/-
C29 (registration of global roots), C30 (no deadlock).
-/
namespace Allocative.Registry
variable {body : Root → List Instr → Prop}

/-- Roots whose registration by `t` has returned, in that order. -/
def returnedBy (t : Tid) (tr : List Event) : List Root :=
  tr.filterMap fun e => match e with
    | .ret t' (.register r) _ => if t' = t then some r else none
    | _ => none

/-- Roots whose registration has been called by `t`, in that order. -/
def calledBy (t : Tid) (tr : List Event) : List Root :=
  tr.filterMap fun e => match e with
    | .call t' (.register r) => if t' = t then some r else none
    | _ => none

/-- The entries of `t` in a list of roots labelled with the thread that registered them. -/
def entriesOf (t : Tid) (T : List (Tid × Root)) : List Root := (T.filter (fun x => x.1 == t)).map Prod.snd

/-- The thread has the lock. -/
def Phase.holds : Phase → Bool
  | .holding _ => true
  | .leaving _ _ => true
  | _ => false

/-- The lock and its owner. -/
structure LockInv (c : State) : Prop where
  clean : c.poisoned = false
  owner : ∀ t, c.owner = some t ↔ (c.thread t).phase.holds = true

theorem setAt_eq {α : Type} (f : Nat → α) (a : Nat) (x : α) (b : Nat) : setAt f a x b = if b = a then x else f b := rfl

theorem LockInv.initial (programs : Tid → List Instr) : LockInv (initial programs) :=
  ⟨rfl, fun t => by simp [Registry.initial, Phase.holds]⟩

theorem LockInv.step {c e c'} (h : LockInv c) (s : Step body c e c') : LockInv c' := by
  have hc := h.clean
  have ho := h.owner
  cases s with
  | @call t o k ht =>
    refine ⟨hc, fun u => ?_⟩
    simp only [setAt_eq]
    split
    · rename_i e; subst e; have := ho u; rw [ht] at this; simpa [Phase.holds] using this
    · exact ho u
  | @acquire t o k ht hn hp =>
    refine ⟨hc, fun u => ?_⟩
    simp only [setAt_eq]
    split
    · rename_i e; subst e; simp [Phase.holds]
    · rename_i e
      have := ho u
      rw [hn] at this
      simp only [Option.some.injEq]
      constructor
      · intro h; exact absurd h.symm e
      · intro h; exact absurd (this.2 h) (by simp)
  | @unwrapPoisoned t o k ht hn hp => rw [hc] at hp; cases hp
  | @push t r k ht =>
    refine ⟨hc, fun u => ?_⟩
    simp only [setAt_eq]
    split
    · rename_i e; subst e; have := ho u; rw [ht] at this; simpa [Phase.holds] using this
    · exact ho u
  | @clone t k ht =>
    refine ⟨hc, fun u => ?_⟩
    simp only [setAt_eq]
    split
    · rename_i e; subst e; have := ho u; rw [ht] at this; simpa [Phase.holds] using this
    · exact ho u
  | @release t o l k ht =>
    have hme := ho t
    rw [ht] at hme
    simp only [Phase.holds, iff_true] at hme
    refine ⟨hc, fun u => ?_⟩
    simp only [setAt_eq]
    split
    · rename_i e; subst e; simp [Phase.holds]
    · rename_i e
      have := ho u
      rw [hme] at this
      constructor
      · intro h; cases h
      · intro h; have := this.2 h; simp only [Option.some.injEq] at this; exact absurd this.symm e
  | @visit t r b k ht hb =>
    refine ⟨hc, fun u => ?_⟩
    simp only [setAt_eq]
    split
    · rename_i e; subst e; have := ho u; rw [ht] at this; simpa [Phase.holds] using this
    · exact ho u
  | @panic t k ht =>
    have hme := ho t
    rw [ht] at hme
    refine ⟨?_, fun u => ?_⟩
    · simp only [hc, Bool.false_or]
      simp only [Phase.holds, Bool.false_eq_true, iff_false] at hme
      simpa using hme
    · simp only [setAt_eq]
      split
      · rename_i e; subst e; simpa [Phase.holds] using hme
      · exact ho u

theorem LockInv.steps {c tr c'} (h : LockInv c) (s : Steps body c tr c') : LockInv c' := by
  induction s with
  | refl => exact h
  | snoc _ hs ih => exact ih.step hs

/-- Registrations in progress whose `push` is done. -/
def Phase.pushed : Phase → List Root
  | .leaving (.register r) _ => [r]
  | _ => []

/-- Registrations in progress. -/
def Phase.pending : Phase → List Root
  | .waiting (.register r) => [r]
  | .holding (.register r) => [r]
  | .leaving (.register r) _ => [r]
  | _ => []

/-- The registry after some events: for each thread its returned registrations and the one that is about to return. -/
structure Registered (tr : List Event) (c : State) (T : List (Tid × Root)) : Prop where
  roots : T.map Prod.snd = c.roots
  entries : ∀ t, entriesOf t T = returnedBy t tr ++ (c.thread t).phase.pushed
  called : ∀ t, calledBy t tr = returnedBy t tr ++ (c.thread t).phase.pending

theorem returnedBy_append (t : Tid) (a b : List Event) : returnedBy t (a ++ b) = returnedBy t a ++ returnedBy t b := by simp [returnedBy]
theorem calledBy_append (t : Tid) (a b : List Event) : calledBy t (a ++ b) = calledBy t a ++ calledBy t b := by simp [calledBy]
theorem entriesOf_append (t : Tid) (a b : List (Tid × Root)) : entriesOf t (a ++ b) = entriesOf t a ++ entriesOf t b := by simp [entriesOf]

theorem Registered.step {tr c T e c'} (hl : LockInv c) (h : Registered tr c T) (s : Step body c e c') : ∃ T', Registered (tr ++ e) c' T' := by
  have he := h.entries
  have hc := h.called
  cases s with
  | @call t o k ht =>
    refine ⟨T, h.roots, fun u => ?_, fun u => ?_⟩
    · have := he u
      simp only [setAt_eq, returnedBy_append]
      split
      · rename_i e; subst e; rw [ht] at this; simpa [returnedBy, Phase.pushed] using this
      · simpa [returnedBy] using this
    · have := hc u
      simp only [setAt_eq, returnedBy_append, calledBy_append, this]
      split
      · rename_i e; subst e; rw [ht]
        cases o <;> simp [returnedBy, calledBy, Phase.pending]
      · rename_i e
        cases o <;> simp [returnedBy, calledBy, Ne.symm e]
  | @acquire t o k ht hn hp =>
    refine ⟨T, h.roots, fun u => ?_, fun u => ?_⟩
    · have := he u
      simp only [setAt_eq, List.append_nil]
      split
      · rename_i e; subst e; rw [ht] at this; simpa [Phase.pushed] using this
      · exact this
    · have := hc u
      simp only [setAt_eq, List.append_nil, this]
      split
      · rename_i e; subst e; rw [ht]; cases o <;> rfl
      · rfl
  | @unwrapPoisoned t o k ht hn hp => rw [hl.clean] at hp; cases hp
  | @push t r k ht =>
    refine ⟨T ++ [(t, r)], by simp [h.roots], fun u => ?_, fun u => ?_⟩
    · have := he u
      simp only [setAt_eq, List.append_nil, entriesOf_append, this]
      split
      · rename_i e; subst e; rw [ht]; simp [entriesOf, Phase.pushed]
      · rename_i e; simp [entriesOf, Ne.symm e]
    · have := hc u
      simp only [setAt_eq, List.append_nil, this]
      split
      · rename_i e; subst e; rw [ht]; rfl
      · rfl
  | @clone t k ht =>
    refine ⟨T, h.roots, fun u => ?_, fun u => ?_⟩
    · have := he u
      simp only [setAt_eq, List.append_nil]
      split
      · rename_i e; subst e; rw [ht] at this; simpa [Phase.pushed] using this
      · exact this
    · have := hc u
      simp only [setAt_eq, List.append_nil, this]
      split
      · rename_i e; subst e; rw [ht]; rfl
      · rfl
  | @release t o l k ht =>
    refine ⟨T, h.roots, fun u => ?_, fun u => ?_⟩
    · have := he u
      simp only [setAt_eq, returnedBy_append, this]
      split
      · rename_i e; subst e; rw [ht]
        cases o <;> simp [returnedBy, Phase.pushed]
      · rename_i e
        cases o <;> simp [returnedBy, Ne.symm e]
    · have := hc u
      simp only [setAt_eq, returnedBy_append, calledBy_append, this]
      split
      · rename_i e; subst e; rw [ht]
        cases o <;> simp [returnedBy, calledBy, Phase.pending]
      · rename_i e
        cases o <;> simp [returnedBy, calledBy, Ne.symm e]
  | @visit t r b k ht hb =>
    refine ⟨T, h.roots, fun u => ?_, fun u => ?_⟩
    · have := he u
      simp only [setAt_eq, List.append_nil]
      split
      · rename_i e; subst e; rw [ht] at this; simpa [Phase.pushed] using this
      · exact this
    · have := hc u
      simp only [setAt_eq, List.append_nil, this]
      split
      · rename_i e; subst e; rw [ht]
      · rfl
  | @panic t k ht =>
    refine ⟨T, h.roots, fun u => ?_, fun u => ?_⟩
    · have := he u
      simp only [setAt_eq, returnedBy_append]
      split
      · rename_i e; subst e; rw [ht] at this; simpa [returnedBy, Phase.pushed] using this
      · simpa [returnedBy] using this
    · have := hc u
      simp only [setAt_eq, returnedBy_append, calledBy_append, this]
      split
      · rename_i e; subst e; rw [ht]; simp [returnedBy, calledBy]
      · simp [returnedBy, calledBy]

/-- C29. After any interleaving the registry contains, for each thread, its registrations in the order in which it made them: all that have
returned, possibly the one in progress, and nothing else. -/
theorem C29_registry (programs : Tid → List Instr) (tr : List Event) (c : State) (h : Steps body (initial programs) tr c) :
    ∃ T : List (Tid × Root), T.map Prod.snd = c.roots ∧
      ∀ t, returnedBy t tr <+: entriesOf t T ∧ entriesOf t T <+: calledBy t tr ∧ (calledBy t tr).length ≤ (returnedBy t tr).length + 1 := by
  have key : LockInv c ∧ ∃ T, Registered tr c T := by
    generalize hi : initial programs = c0 at h
    induction h with
    | refl =>
      subst hi
      refine ⟨.initial _, [], rfl, fun t => ?_, fun t => ?_⟩
      · simp [entriesOf, returnedBy, Registry.initial, Phase.pushed]
      · simp [calledBy, returnedBy, Registry.initial, Phase.pending]
    | snoc _ hs ih =>
      obtain ⟨hl, T, hT⟩ := ih
      exact ⟨hl.step hs, hT.step hl hs⟩
  obtain ⟨_, T, hT⟩ := key
  refine ⟨T, hT.roots, fun t => ?_⟩
  rw [hT.entries t, hT.called t]
  refine ⟨List.prefix_append _ _, ?_, ?_⟩
  · rw [List.prefix_append_right_inj]
    cases (c.thread t).phase with
    | leaving o l => cases o <;> exact List.prefix_refl _
    | outside => exact List.prefix_refl _
    | waiting o => exact List.nil_prefix
    | holding o => exact List.nil_prefix
  · cases (c.thread t).phase with
    | outside => simp [Phase.pending]
    | waiting o => cases o <;> simp [Phase.pending]
    | holding o => cases o <;> simp [Phase.pending]
    | leaving o l => cases o <;> simp [Phase.pending]

/-- When all threads have returned from their calls, the registry has each registration exactly as often as it was made. -/
theorem C29_complete (programs : Tid → List Instr) (tr : List Event) (c : State) (h : Steps body (initial programs) tr c)
    (hend : ∀ t, returnedBy t tr = calledBy t tr) :
    ∃ T : List (Tid × Root), T.map Prod.snd = c.roots ∧ ∀ t, entriesOf t T = calledBy t tr := by
  obtain ⟨T, e, hT⟩ := C29_registry programs tr c h
  refine ⟨T, e, fun t => ?_⟩
  obtain ⟨h1, h2, _⟩ := hT t
  rw [hend t] at h1
  exact (h2.eq_of_length (Nat.le_antisymm h2.length_le h1.length_le))

theorem Step.grows {c e c'} (h : Step body c e c') : c.roots <+: c'.roots := by
  cases h <;> simp

/-- C29. Nothing is ever removed or reordered. -/
theorem C29_grows {c tr c'} (h : Steps body c tr c') : c.roots <+: c'.roots := by
  induction h with
  | refl => exact List.prefix_refl _
  | snoc _ hs ih => exact ih.trans hs.grows

/-- A call of `roots()` in progress. -/
def Snap (start : List Root) (c : State) : Phase → Prop
  | .waiting .roots => True
  | .holding .roots => True
  | .leaving .roots l => start <+: l ∧ l <+: c.roots
  | _ => False

theorem snap_step {c c' : State} {e : List Event} {t : Tid} {start : List Root} (hs : Step body c e c') (hst : start <+: c.roots)
    (h : Snap start c (c.thread t).phase) (he : ∀ x ∈ e, x.tid ≠ t) : Snap start c' (c'.thread t).phase := by
  have hg := hs.grows
  have hother : c'.thread t = c.thread t → Snap start c' (c'.thread t).phase := by
    intro e
    rw [e]
    revert h
    cases (c.thread t).phase with
    | outside => exact id
    | waiting o => cases o <;> exact id
    | holding o => cases o <;> exact id
    | leaving o l =>
      cases o with
      | register => exact id
      | roots => exact fun h => ⟨h.1, h.2.trans hg⟩
  cases hs with
  | @call u o k hu => exact hother (by simp only [setAt_eq]; rw [if_neg]; have := he (.call u o) (by simp); exact fun h => this h.symm)
  | @acquire u o k hu hn hp =>
    by_cases hut : t = u
    · subst hut; rw [hu] at h; simp only [setAt_same]
      cases o with
      | register => exact h
      | roots => trivial
    · exact hother (by simp only [setAt_eq]; rw [if_neg hut])
  | @unwrapPoisoned u o k hu hn hp => exact hother (by simp only [setAt_eq]; rw [if_neg]; have := he (.died u) (by simp); exact fun h => this h.symm)
  | @push u r k hu =>
    by_cases hut : t = u
    · subst hut; rw [hu] at h; exact h.elim
    · exact hother (by simp only [setAt_eq]; rw [if_neg hut])
  | @clone u k hu =>
    by_cases hut : t = u
    · subst hut; simp only [setAt_same]; exact ⟨hst, List.prefix_refl _⟩
    · exact hother (by simp only [setAt_eq]; rw [if_neg hut])
  | @release u o l k hu => exact hother (by simp only [setAt_eq]; rw [if_neg]; have := he (.ret u o l) (by simp); exact fun h => this h.symm)
  | @visit u r b k hu hb =>
    by_cases hut : t = u
    · subst hut; rw [hu] at h; exact h.elim
    · exact hother (by simp only [setAt_eq]; rw [if_neg hut])
  | @panic u k hu => exact hother (by simp only [setAt_eq]; rw [if_neg]; have := he (.died u) (by simp); exact fun h => this h.symm)

/-- C29. The roots that `visit_global_roots` goes through: an initial part of the registry as it is when the snapshot is returned (hence of the
registry at any later time), and it contains the registry as it was when the call began. -/
theorem C29_snapshot {c1 c2 c3 c4 : State} {t : Tid} {tr : List Event} {L : List Root} (hcall : Step body c1 [.call t .roots] c2)
    (hbetween : Steps body c2 tr c3) (hothers : ∀ e ∈ tr, e.tid ≠ t) (hret : Step body c3 [.ret t .roots L] c4) :
    c1.roots <+: L ∧ L <+: c4.roots ∧ ∃ k, (c4.thread t).todo = L.map .visit ++ k := by
  have h2 : c2.roots = c1.roots ∧ Snap c1.roots c2 (c2.thread t).phase := by
    generalize he : [Event.call t .roots] = e at hcall
    cases hcall with
    | call hu => cases he; refine ⟨rfl, ?_⟩; simp only [setAt_same]; trivial
    | acquire => cases he
    | unwrapPoisoned => cases he
    | push => cases he
    | clone => cases he
    | release => cases he
    | visit => cases he
    | panic => cases he
  have h3 : Snap c1.roots c3 (c3.thread t).phase := by
    have hg : c1.roots <+: c2.roots := by rw [h2.1]; exact List.prefix_refl _
    have hs := h2.2
    clear h2 hret
    have hx : ∀ {c2 tr c3}, Steps body c2 tr c3 → (∀ e ∈ tr, e.tid ≠ t) → c1.roots <+: c2.roots → Snap c1.roots c2 (c2.thread t).phase →
        c1.roots <+: c3.roots ∧ Snap c1.roots c3 (c3.thread t).phase := by
      intro c2 tr c3 h
      induction h with
      | refl => exact fun _ h1 h2 => ⟨h1, h2⟩
      | snoc _ hs ih =>
        intro hothers h1 h2
        obtain ⟨i1, i2⟩ := ih (fun e he => hothers e (by simp [he])) h1 h2
        exact ⟨i1.trans hs.grows, snap_step hs i1 i2 (fun e he => hothers e (by simp [he]))⟩
    exact (hx hbetween hothers hg hs).2
  generalize he : [Event.ret t .roots L] = e at hret
  cases hret with
  | release hu =>
    cases he
    rw [hu] at h3
    simp only [setAt_same]
    exact ⟨h3.1, h3.2, _, rfl⟩
  | call => cases he
  | acquire => cases he
  | unwrapPoisoned => cases he
  | push => cases he
  | clone => cases he
  | visit => cases he
  | panic => cases he

/-- C30. No deadlock and no poisoning: in every reachable state, either all threads have finished or some thread can make a step; the lock is
never poisoned; and a thread that visits a root (or does anything else outside of `register_root` and `roots`) does not hold the lock. -/
theorem C30_no_deadlock (programs : Tid → List Instr) (hb : ∀ r, ∃ b, body r b) (tr : List Event) (c : State)
    (h : Steps body (initial programs) tr c) :
    ((∀ t, (c.thread t).phase = .outside ∧ (c.thread t).todo = []) ∨ ∃ e c', Step body c e c') ∧ c.poisoned = false ∧
    (∀ t, (c.thread t).phase = .outside → c.owner ≠ some t) := by
  have hl := (LockInv.initial programs).steps h
  refine ⟨?_, hl.clean, fun t ht ho => ?_⟩
  · by_cases hfin : ∀ t, (c.thread t).phase = .outside ∧ (c.thread t).todo = []
    · exact .inl hfin
    · right
      -- a thread that is in the lock can go on
      have hin : ∀ t, (c.thread t).phase.holds = true → ∃ e c', Step body c e c' := by
        intro t ht
        generalize hx : c.thread t = x at ht
        obtain ⟨ph, k⟩ := x
        cases ph with
        | outside => cases ht
        | waiting o => cases ht
        | holding o =>
          cases o with
          | register r => exact ⟨_, _, .push hx⟩
          | roots => exact ⟨_, _, .clone hx⟩
        | leaving o l => exact ⟨_, _, .release hx⟩
      cases ho : c.owner with
      | some t => exact hin t ((hl.owner t).1 ho)
      | none =>
        simp only [Classical.not_forall] at hfin
        obtain ⟨t, ht⟩ := hfin
        generalize hx : c.thread t = x at ht
        obtain ⟨ph, k⟩ := x
        cases ph with
        | outside =>
          cases k with
          | nil => exact absurd ⟨rfl, rfl⟩ ht
          | cons i k =>
            cases i with
            | call o => exact ⟨_, _, .call hx⟩
            | visit r =>
              obtain ⟨b, hb⟩ := hb r
              exact ⟨_, _, .visit hx hb⟩
            | panic => exact ⟨_, _, .panic hx⟩
        | waiting o => exact ⟨_, _, .acquire hx ho hl.clean⟩
        | holding o => exact hin t (by rw [hx]; rfl)
        | leaving o l => exact hin t (by rw [hx]; rfl)
  · have := (hl.owner t).1 ho
    rw [ht] at this
    cases this

/-- C30. Whoever has the lock gives it up in at most two steps of its own, without waiting for anybody. -/
theorem C30_lock_released {c : State} {t : Tid} (hl : (c.thread t).phase.holds = true) :
    ∃ tr c', Steps body c tr c' ∧ c'.owner = none ∧ (c'.thread t).phase = .outside ∧ ∀ u, u ≠ t → c'.thread u = c.thread u := by
  have hrel : ∀ (c : State) o l k, c.thread t = ⟨.leaving o l, k⟩ →
      ∃ e c', Step body c e c' ∧ c'.owner = none ∧ (c'.thread t).phase = .outside ∧ ∀ u, u ≠ t → c'.thread u = c.thread u := by
    intro c o l k hx
    exact ⟨_, _, .release hx, rfl, by simp only [setAt_same], fun u hu => by simp only [setAt_eq, if_neg hu]⟩
  generalize hx : c.thread t = x at hl
  obtain ⟨ph, k⟩ := x
  cases ph with
  | outside => cases hl
  | waiting o => cases hl
  | leaving o l =>
    obtain ⟨e, c', h1, h2⟩ := hrel c o l k hx
    exact ⟨_, c', .snoc (.refl _) h1, h2⟩
  | holding o =>
    cases o with
    | register r =>
      obtain ⟨e, c', h1, h2, h3, h4⟩ := hrel { c with roots := c.roots ++ [r], thread := setAt c.thread t ⟨.leaving (.register r) [], k⟩ } (.register r) [] k (setAt_same _ _ _)
      exact ⟨_, c', .snoc (.snoc (.refl _) (.push hx)) h1, h2, h3, fun u hu => by rw [h4 u hu]; simp only [setAt_eq, if_neg hu]⟩
    | roots =>
      obtain ⟨e, c', h1, h2, h3, h4⟩ := hrel { c with thread := setAt c.thread t ⟨.leaving .roots c.roots, k⟩ } .roots c.roots k (setAt_same _ _ _)
      exact ⟨_, c', .snoc (.snoc (.refl _) (.clone hx)) h1, h2, h3, fun u hu => by rw [h4 u hu]; simp only [setAt_eq, if_neg hu]⟩

/-! An execution: thread 1 registers root 5, thread 2 visits all roots; the visit of root 5 registers root 6 and visits all roots again. -/
namespace Ex
def visitBody : Root → List Instr → Prop := fun r b => if r = 5 then b = [.call (.register 6), .call .roots] else b = []
def programs : Tid → List Instr := fun t => if t = 1 then [.call (.register 5)] else if t = 2 then [.call .roots] else []
end Ex

/-- The events of the execution. -/
def Ex.events : List Event := [.call 1 (.register 5), .call 2 .roots, .ret 1 (.register 5) [], .ret 2 .roots [5], .call 2 (.register 6), .ret 2 (.register 6) []]

theorem Ex.execution : ∃ c, Steps Ex.visitBody (initial Ex.programs) Ex.events c ∧ c.roots = [5, 6] := by
  have s0 := Steps.refl (body := Ex.visitBody) (initial Ex.programs)
  have s1 := s0.snoc (.call (t := 1) (o := .register 5) (k := []) rfl)
  have s2 := s1.snoc (.acquire (t := 1) (o := .register 5) (k := []) rfl rfl rfl)
  have s3 := s2.snoc (.push (t := 1) (r := 5) (k := []) rfl)
  have s4 := s3.snoc (.call (t := 2) (o := .roots) (k := []) rfl)
  have s5 := s4.snoc (.release (t := 1) (o := .register 5) (l := []) (k := []) rfl)
  have s6 := s5.snoc (.acquire (t := 2) (o := .roots) (k := []) rfl rfl rfl)
  have s7 := s6.snoc (.clone (t := 2) (k := []) rfl)
  have s8 := s7.snoc (.release (t := 2) (o := .roots) (l := [5]) (k := []) rfl)
  have s9 := s8.snoc (.visit (t := 2) (r := 5) (b := [.call (.register 6), .call .roots]) (k := []) rfl rfl)
  have s10 := s9.snoc (.call (t := 2) (o := .register 6) (k := [.call .roots]) rfl)
  have s11 := s10.snoc (.acquire (t := 2) (o := .register 6) (k := [.call .roots]) rfl rfl rfl)
  have s12 := s11.snoc (.push (t := 2) (r := 6) (k := [.call .roots]) rfl)
  have s13 := s12.snoc (.release (t := 2) (o := .register 6) (l := []) (k := [.call .roots]) rfl)
  exact ⟨_, s13, rfl⟩

example : ∃ c, Steps Ex.visitBody (initial Ex.programs) Ex.events c ∧ ∃ T : List (Tid × Root), T.map Prod.snd = c.roots ∧
    ∀ t, returnedBy t Ex.events <+: entriesOf t T ∧ entriesOf t T <+: calledBy t Ex.events ∧ (calledBy t Ex.events).length ≤ (returnedBy t Ex.events).length + 1 := by
  obtain ⟨c, h, -⟩ := Ex.execution
  exact ⟨c, h, C29_registry _ _ _ h⟩

example : ∃ c, Steps Ex.visitBody (initial Ex.programs) Ex.events c ∧ ∃ T : List (Tid × Root), T.map Prod.snd = c.roots ∧ ∀ t, entriesOf t T = calledBy t Ex.events := by
  obtain ⟨c, h, -⟩ := Ex.execution
  exact ⟨c, h, C29_complete _ _ _ h fun t => rfl⟩

example : ∃ c : State, (initial Ex.programs).roots <+: c.roots ∧ c.roots = [5, 6] := by
  obtain ⟨c, h, e⟩ := Ex.execution
  exact ⟨c, C29_grows h, e⟩

theorem Ex.visitBody_total (r : Root) : ∃ b, Ex.visitBody r b := by unfold Ex.visitBody; split <;> exact ⟨_, rfl⟩

example : ∃ c, Steps Ex.visitBody (initial Ex.programs) Ex.events c ∧
    ((∀ t, (c.thread t).phase = .outside ∧ (c.thread t).todo = []) ∨ ∃ e c', Step Ex.visitBody c e c') ∧ c.poisoned = false ∧
    (∀ t, (c.thread t).phase = .outside → c.owner ≠ some t) := by
  obtain ⟨c, h, -⟩ := Ex.execution
  exact ⟨c, h, C30_no_deadlock _ Ex.visitBody_total _ _ h⟩

/-- Thread 1 has the lock and is to push root 5; thread 2 is to call `roots()`. -/
def Ex.locked : State := ⟨some 1, false, [], fun t => if t = 1 then ⟨.holding (.register 5), []⟩ else if t = 2 then ⟨.outside, [.call .roots]⟩ else ⟨.outside, []⟩⟩

example : ∃ tr c, Steps Ex.visitBody (initial Ex.programs) tr c ∧ c.owner = some 1 ∧ c.thread 1 = Ex.locked.thread 1 :=
  ⟨_, _, ((Steps.refl (initial Ex.programs)).snoc (.call (t := 1) (o := .register 5) (k := []) rfl)).snoc (.acquire (t := 1) (o := .register 5) (k := []) rfl rfl rfl), rfl, rfl⟩

example := C30_lock_released (body := Ex.visitBody) (c := Ex.locked) (t := 1) rfl

/-- Thread 2 calls `roots()` while thread 1 has the lock; thread 1 pushes root 5 before thread 2 gets the lock. -/
example : ∃ c4 : State, Ex.locked.roots <+: [5] ∧ [5] <+: c4.roots ∧ ∃ k, (c4.thread 2).todo = [5].map Instr.visit ++ k := by
  have s1 := Step.call (body := Ex.visitBody) (c := Ex.locked) (t := 2) (o := .roots) (k := []) rfl
  have s2 := (Steps.refl (body := Ex.visitBody) { Ex.locked with thread := setAt Ex.locked.thread 2 ⟨.waiting .roots, []⟩ }).snoc (.push (t := 1) (r := 5) (k := []) rfl)
  have s3 := s2.snoc (.release (t := 1) (o := .register 5) (l := []) (k := []) rfl)
  have s4 := s3.snoc (.acquire (t := 2) (o := .roots) (k := []) rfl rfl rfl)
  have s5 := s4.snoc (.clone (t := 2) (k := []) rfl)
  exact ⟨_, C29_snapshot s1 s5 (by simp [Event.tid]) (.release (t := 2) (o := .roots) (l := [5]) (k := []) rfl)⟩

end Allocative.Registry
