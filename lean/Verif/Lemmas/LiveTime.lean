import Verif.Lemmas.Live
set_option linter.unusedSimpArgs false
/-
Lemmas for C61: what the store can be during a visit, depending on what other threads do.
-/
namespace Allocative

/-- The store with a hold taken. -/
def Hold.take (st : Store) : Hold → Store
  | .lock how a => { st with lock := setAt st.lock a (how.acquire (st.lock a)) }
  | .ref p => { st with count := setAt st.count p { st.count p with held := (st.count p).held + 1 } }

/-- The hold can be taken. -/
def Hold.Can (st : Store) : Hold → Prop
  | .lock how a => how.granted (st.lock a) = true
  | .ref p => (st.count p).alive = true

/-- The guards and references held are those of `st`, and `hs` on top. -/
def Own (st : Store) : List Hold → Store → Prop
  | [], st' => st.SameHeld st'
  | h :: hs, st' => ∃ st1, Own st hs st1 ∧ h.Can st1 ∧ (h.take st1).SameHeld st'

theorem Own.same {st : Store} {hs : List Hold} {st' st'' : Store} (h : Own st hs st') (h' : st'.SameHeld st'') : Own st hs st'' := by
  cases hs with
  | nil => exact h.trans h'
  | cons x hs => obtain ⟨st1, h1, h2, h3⟩ := h; exact ⟨st1, h1, h2, h3.trans h'⟩

theorem Timeline.own {panics : Prop} {env : Env} (he : env.Respectful) {st : Store} {n : Nat} {hs m st'} (h : Timeline panics env st n hs m st') : Own st hs st' := by
  induction h with
  | start => exact .refl _
  | others _ ih => exact ih.same (he.sameHeld _ _)
  | acquire how a _ hg ih => exact ⟨_, ih, hg, .refl _⟩
  | release how a ctl _ _ ih =>
    obtain ⟨st1, h1, h2, h3⟩ := ih
    exact h1.same (held_lock h2 h3 ctl)
  | upgrade p _ hg ih => exact ⟨_, ih, hg, .refl _⟩
  | drop p _ ih =>
    obtain ⟨st1, h1, h2, h3⟩ := ih
    exact h1.same (held_count h3)

theorem Own.lock {st : Store} {a : Ptr} : ∀ {hs st'}, Own st hs st' → (∀ how, .lock how a ∉ hs) →
    (st'.lock a).heldExclusive = (st.lock a).heldExclusive ∧ (st'.lock a).heldShared = (st.lock a).heldShared
  | [], _, h, _ => h.1 a
  | .lock how b :: hs, st', ⟨st1, h1, _, h3⟩, hn => by
    have ih := h1.lock (a := a) fun how h => hn how (List.mem_cons_of_mem _ h)
    have hb : a ≠ b := fun e => hn how (by simp [e])
    have := h3.1 a
    simp only [Hold.take, setAt, hb, if_false] at this
    exact ⟨this.1.trans ih.1, this.2.trans ih.2⟩
  | .ref p :: hs, st', ⟨st1, h1, _, h3⟩, hn => by
    have ih := h1.lock (a := a) fun how h => hn how (List.mem_cons_of_mem _ h)
    have := h3.1 a
    exact ⟨this.1.trans ih.1, this.2.trans ih.2⟩

/-- The visit has a guard. -/
def LockState.Held (s : LockState) : Prop := s.heldExclusive = true ∨ 0 < s.heldShared

theorem Own.held {st : Store} {a : Ptr} {how : Access} (hh : how ≠ .get) : ∀ {hs st'}, Own st hs st' → .lock how a ∈ hs → (st'.lock a).Held
  | .lock how' b :: hs, st', ⟨st1, h1, _, h3⟩, hm => by
    have h4 := h3.1 a
    simp only [LockState.Held, h4.1, h4.2]
    rcases List.mem_cons.1 hm with e | hm
    · cases e
      simp only [Hold.take, setAt, if_true]
      cases how <;> simp_all [Access.acquire]
    · have ih := h1.held hh hm
      simp only [Hold.take, setAt]
      split
      · rename_i e
        subst e
        simp only [LockState.Held] at ih
        cases how' <;> simp_all [Access.acquire] <;> omega
      · exact ih
  | .ref p :: hs, st', ⟨st1, h1, _, h3⟩, hm => by
    have h4 := h3.1 a
    simp only [LockState.Held, h4.1, h4.2]
    rcases List.mem_cons.1 hm with e | hm
    · cases e
    · exact h1.held hh hm

/-- What others do to a lock. -/
def LockState.others (s : LockState) : Bool × Nat × Bool × Bool × Bool := (s.othersExclusive, s.othersShared, s.refuses, s.poisoned, s.init)

theorem Timeline.lockInv {env : Env} {P : Bool × Nat × Bool × Bool × Bool → Prop} {a : Ptr} (hP : ∀ n st, P (st.lock a).others → P ((env n st).lock a).others)
    {st : Store} {n : Nat} (h0 : P (st.lock a).others) {hs m st'} (h : Timeline False env st n hs m st') : P (st'.lock a).others := by
  induction h with
  | start => exact h0
  | others _ ih => exact hP _ _ ih
  | acquire how b _ _ ih =>
    simp only [setAt]
    split
    · subst b; cases how <;> exact ih
    · exact ih
  | release how b ctl _ hc ih =>
    simp only [setAt]
    split
    · subst b
      cases ctl with
      | returned => cases how <;> exact ih
      | unwinding => exact (hc rfl).elim
    · exact ih
  | upgrade _ _ _ ih => exact ih
  | drop _ _ ih => exact ih

theorem Timeline.memInv {panics : Prop} {env : Env} {P : (Ptr → Nat) → Prop} (hP : ∀ n st, P st.mem → P (env n st).mem)
    {st : Store} {n : Nat} (h0 : P st.mem) {hs m st'} (h : Timeline panics env st n hs m st') : P st'.mem := by
  induction h with
  | start => exact h0
  | others _ ih => exact hP _ _ ih
  | acquire _ _ _ _ ih => exact ih
  | release _ _ _ _ _ ih => exact ih
  | upgrade _ _ _ ih => exact ih
  | drop _ _ ih => exact ih

/-- What is read while a guard is held was there when the guard was taken. -/
theorem Timeline.guarded {panics : Prop} {env : Env} (he : env.Respectful) {a : Ptr} (hk : ∀ n st, (st.lock a).Held → (env n st).mem a = st.mem a) {st : Store} {n : Nat}
    {how : Access} (hh : how ≠ .get) {hs m st'} (h : Timeline panics env st n hs m st') (hm : .lock how a ∈ hs) :
    ∃ hs1 m1 st1, Timeline panics env st n hs1 m1 st1 ∧ how.granted (st1.lock a) = true ∧ st1.mem a = st'.mem a := by
  induction h with
  | start => cases hm
  | others ht ih =>
    obtain ⟨hs1, m1, st1, h1, h2, h3⟩ := ih hm
    exact ⟨hs1, m1, st1, h1, h2, by rw [hk _ _ ((ht.own he).held hh hm)]; exact h3⟩
  | acquire how' b ht hg ih =>
    rcases List.mem_cons.1 hm with e | hm
    · cases e; exact ⟨_, _, _, ht, hg, rfl⟩
    · exact ih hm
  | release how' b ctl _ _ ih => exact ih (by simp [hm])
  | upgrade p _ _ ih =>
    rcases List.mem_cons.1 hm with e | hm
    · cases e
    · exact ih hm
  | drop p _ ih => exact ih (by simp [hm])

/-- Nobody else runs: the store is that at the start with the holds on top. -/
def Stacked (st : Store) : List Hold → Store → Prop
  | [], st' => st' = st
  | h :: hs, st' => ∃ st1, Stacked st hs st1 ∧ h.Can st1 ∧ st' = h.take st1

theorem Timeline.stacked {st : Store} {n : Nat} {hs m st'} (h : Timeline False .quiet st n hs m st') : Stacked st hs st' := by
  induction h with
  | start => rfl
  | others _ ih => exact ih
  | acquire how a _ hg ih => exact ⟨_, ih, hg, rfl⟩
  | release how a ctl _ hc ih =>
    obtain ⟨st1, h1, h2, rfl⟩ := ih
    cases ctl with
    | unwinding => exact (hc rfl).elim
    | returned =>
      simp only [Hold.take]
      rw [setAt_setAt, setAt_same, release_acquire h2, setAt_self]
      exact h1
  | upgrade p _ hg ih => exact ⟨_, ih, hg, rfl⟩
  | drop p _ ih =>
    obtain ⟨st1, h1, h2, rfl⟩ := ih
    simp only [Hold.take]
    rw [setAt_setAt, setAt_same, drop_upgrade h2, setAt_self]
    exact h1

theorem Stacked.lock {st : Store} {a : Ptr} : ∀ {hs st'}, Stacked st hs st' → (∀ how, .lock how a ∉ hs) → st'.lock a = st.lock a
  | [], _, h, _ => by rw [h]
  | .lock how b :: hs, st', ⟨st1, h1, _, h3⟩, hn => by
    have ih := h1.lock (a := a) fun how h => hn how (List.mem_cons_of_mem _ h)
    have hb : a ≠ b := fun e => hn how (by simp [e])
    rw [h3]
    simp only [Hold.take, setAt, hb, if_false]
    exact ih
  | .ref p :: hs, st', ⟨st1, h1, _, h3⟩, hn => by
    have ih := h1.lock (a := a) fun how h => hn how (List.mem_cons_of_mem _ h)
    rw [h3]
    exact ih

theorem Stacked.alive {st : Store} {p : Ptr} : ∀ {hs st'}, Stacked st hs st' → (st'.count p).alive = (st.count p).alive
  | [], _, h => by rw [h]
  | .lock how b :: hs, st', ⟨st1, h1, _, h3⟩ => by
    rw [h3, ← h1.alive (p := p)]
    rfl
  | .ref q :: hs, st', ⟨st1, h1, h2, h3⟩ => by
    rw [h3, ← h1.alive (p := p)]
    simp only [Hold.take, setAt]
    split
    · rename_i e
      subst e
      simp only [Hold.Can] at h2
      rw [h2]
      simp only [CountState.alive, bne_iff_ne, ne_eq]
      omega
    · rfl

theorem Stacked.mem {st : Store} : ∀ {hs st'}, Stacked st hs st' → st'.mem = st.mem
  | [], _, h => by rw [h]
  | .lock how b :: hs, st', ⟨st1, h1, _, h3⟩ => by rw [h3, ← h1.mem]; rfl
  | .ref q :: hs, st', ⟨st1, h1, h2, h3⟩ => by rw [h3, ← h1.mem]; rfl

end Allocative
