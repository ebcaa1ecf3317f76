import Verif.Spec.Locks
set_option linter.unusedSimpArgs false
/-
Execution of visits with locks.
-/
namespace Allocative
variable {σ : Type}

/-- Sequential execution. -/
theorem exec_seq (impl : VisitorImpl σ) (a b : Prog) : ∀ kind s, exec impl (a.seq b) kind s =
    match exec impl a kind s with
    | .error e => .error e
    | .ok (s, .unwinding) => .ok (s, .unwinding)
    | .ok (s, .returned) => exec impl b kind s := by
  induction a with
  | done => intro kind s; rfl
  | panic => intro kind s; rfl
  | enter k n f body rest _ ih =>
    intro kind s
    simp only [Prog.seq, exec]
    split
    · rfl
    · split
      · rfl
      · split
        · rfl
        · split
          · rfl
          · exact ih _ _
  | enterUnique k n f body rest _ ih =>
    intro kind s
    simp only [Prog.seq, exec]
    split
    · rfl
    · split
      · rfl
      · split
        · rfl
        · split
          · rfl
          · exact ih _ _
  | enterShared k n p f body rs rn _ ihs ihn =>
    intro kind s
    simp only [Prog.seq, exec]
    split
    · rfl
    · exact ihn _ _
    · split
      · rfl
      · split
        · rfl
        · split
          · rfl
          · exact ihs _ _
  | catchUnwind body rest _ ih =>
    intro kind s
    simp only [Prog.seq, exec]
    split
    · rfl
    · exact ih _ _

theorem trace_seq (a b : Prog) : ∀ cur vis, (a.seq b).trace cur vis =
    match (a.trace cur vis).ctl with
    | .unwinding => a.trace cur vis
    | .returned => ⟨(a.trace cur vis).recs ++ (b.trace cur (a.trace cur vis).visited).recs, (b.trace cur (a.trace cur vis).visited).visited,
        (b.trace cur (a.trace cur vis).visited).ctl, (a.trace cur vis).leaked + (b.trace cur (a.trace cur vis).visited).leaked⟩ := by
  induction a with
  | done => intro cur vis; simp [Prog.seq, Prog.trace]
  | panic => intro cur vis; simp [Prog.seq, Prog.trace]
  | enter k n f body rest _ ih =>
    intro cur vis
    simp only [Prog.seq, Prog.trace]
    cases hc : (body.trace (cur ++ [k]) vis).ctl with
    | unwinding => simp [hc]
    | returned =>
      simp only [hc, ih]
      cases hd : (rest.trace cur (body.trace (cur ++ [k]) vis).visited).ctl <;> simp [hd, Nat.add_assoc]
  | enterUnique k n f body rest _ ih =>
    intro cur vis
    simp only [Prog.seq, Prog.trace]
    cases hc : (body.trace (cur ++ [k]) vis).ctl with
    | unwinding => simp [hc]
    | returned =>
      simp only [hc, ih]
      cases hd : (rest.trace cur (body.trace (cur ++ [k]) vis).visited).ctl <;> simp [hd, Nat.add_assoc]
  | enterShared k n p f body rs rn _ ih1 ih2 =>
    intro cur vis
    simp only [Prog.seq, Prog.trace]
    split
    · simp only [ih2]
      cases hd : (rn.trace cur vis).ctl <;> simp [hd, Nat.add_assoc]
    · cases hc : (body.trace [] (p :: vis)).ctl with
      | unwinding => simp [hc]
      | returned =>
        simp only [hc, ih1]
        cases hd : (rs.trace cur (body.trace [] (p :: vis)).visited).ctl <;> simp [hd, Nat.add_assoc]
  | catchUnwind body rest _ ih =>
    intro cur vis
    simp only [Prog.seq, Prog.trace, ih]
    cases hd : (rest.trace cur (body.trace cur vis).visited).ctl <;> simp [hd, Nat.add_assoc]

/-- The states of the store that can be found from a time on, as needed for the induction. -/
structure Moments (panics : Prop) (env : Env) (T : Access → Ptr → Prop) (I : List Hold → Store → Prop) (W : Ptr → Prop) (J : List Hold → Nat → Store → Prop) : Prop where
  never : ∀ {hs m st a}, J hs m st → (∀ k, ((env.looksAgain m st k).lock a).HeldExclusively) → W a
  mem : ∀ {hs m st}, J hs m st → I hs st
  others : ∀ {hs m st}, J hs m st → J hs (m + 1) (env m st)
  acquire : ∀ how a, T how a → ∀ {hs m st}, J hs m st → Access.granted (st.lock a) how = true →
    J (.lock how a :: hs) m { st with lock := setAt st.lock a (how.acquire (st.lock a)) }
  release : ∀ how a ctl {hs m st}, J (.lock how a :: hs) m st → (ctl = .unwinding → panics) → J hs m { st with lock := setAt st.lock a (Access.release (st.lock a) how ctl) }
  upgrade : ∀ p {hs m st}, J hs m st → (st.count p).alive = true →
    J (.ref p :: hs) m { st with count := setAt st.count p { st.count p with held := (st.count p).held + 1 } }
  drop : ∀ p {hs m st}, J (.ref p :: hs) m st → J hs m { st with count := setAt st.count p (st.count p).drop }

theorem Moments.timeline (panics : Prop) (env : Env) (T : Access → Ptr → Prop) (st : Store) (n : Nat) :
    Moments panics env T (env.Occurs panics st n) (env.HeldForEver panics T st n) (fun hs m st' => Timeline panics env st n hs m st' ∧ ∀ how b, .lock how b ∈ hs → T how b) where
  never h hk := ⟨_, _, _, h.1, h.2, hk⟩
  mem h := ⟨_, h.1⟩
  others h := ⟨h.1.others, h.2⟩
  acquire how a hT _ _ _ h hg := ⟨h.1.acquire how a hg, fun how' b hb => by
    rcases List.mem_cons.1 hb with hb | hb
    · cases hb; exact hT
    · exact h.2 _ _ hb⟩
  release how a ctl _ _ _ h hc := ⟨h.1.release how a ctl hc, fun _ _ hb => h.2 _ _ (List.mem_cons_of_mem _ hb)⟩
  upgrade p _ _ _ h hg := ⟨h.1.upgrade p hg, fun how' b hb => by
    rcases List.mem_cons.1 hb with hb | hb
    · cases hb
    · exact h.2 _ _ hb⟩
  drop p _ _ _ h := ⟨h.1.drop p, fun _ _ hb => h.2 _ _ (List.mem_cons_of_mem _ hb)⟩

theorem Moments.start {panics : Prop} {env : Env} {T : Access → Ptr → Prop} {st : Store} {n : Nat} : Timeline panics env st n [] n st ∧ ∀ how b, Hold.lock how b ∈ [] → T how b :=
  ⟨.start, fun _ _ h => by cases h⟩

/-- A call either returns at one of the looks, with access if it is one that waits; or it waits for ever, and then the lock is exclusively held at every look. -/
theorem call_returns {env : Env} {how : Access} {a : Ptr} {n : Nat} {st st' : Store} {n' : Nat} (h : how.call env a n st = some (st', n')) :
    ∃ k, st' = env.looksAgain n st k ∧ n' = n + k + 1 ∧ (how.blocking = true → how.granted (st'.lock a) = true) ∧ (how.blocking = false → k = 0) ∧
      ∀ j, j < k → how.granted ((env.looksAgain n st j).lock a) = false := by
  unfold Access.call at h
  split at h
  · rename_i hg
    simp only [Option.some.injEq, Prod.mk.injEq] at h
    obtain ⟨rfl, rfl⟩ := h
    exact ⟨0, rfl, rfl, fun _ => hg, fun _ => rfl, fun j hj => (Nat.not_lt_zero _ hj).elim⟩
  · split at h
    · rename_i hb
      split at h
      · rename_i hk
        simp only [Option.some.injEq, Prod.mk.injEq] at h
        obtain ⟨rfl, rfl⟩ := h
        exact ⟨hk.choose, rfl, rfl, fun _ => hk.choose_spec.1, fun h => (by rw [h] at hb; cases hb), hk.choose_spec.2⟩
      · cases h
    · rename_i hb
      simp only [Option.some.injEq, Prod.mk.injEq] at h
      obtain ⟨rfl, rfl⟩ := h
      exact ⟨0, rfl, rfl, fun h => (hb h).elim, fun _ => rfl, fun j hj => (Nat.not_lt_zero _ hj).elim⟩

theorem first_granted {P : Nat → Bool} : ∀ k, P k = true → ∃ k, P k = true ∧ ∀ j, j < k → P j = false := by
  intro k
  induction k using Nat.strongRecOn with
  | ind k ih =>
    intro h
    by_cases hj : ∃ j, j < k ∧ P j = true
    · obtain ⟨j, hj, hp⟩ := hj; exact ih j hj hp
    · exact ⟨k, h, fun j hjk => by
        cases hp : P j with
        | false => rfl
        | true => exact (hj ⟨j, hjk, hp⟩).elim⟩

theorem not_readable {s : LockState} (h : Access.granted s .read = false) : s.HeldExclusively := by
  unfold LockState.HeldExclusively
  simp only [Access.granted, LockState.readable] at h
  revert h
  cases s.othersExclusive <;> cases s.heldExclusive <;> simp

theorem call_never {env : Env} {how : Access} {a : Ptr} {n : Nat} {st : Store} (h : how.call env a n st = none) :
    how.blocking = true ∧ ∀ k, ((env.looksAgain n st k).lock a).HeldExclusively := by
  unfold Access.call at h
  split at h
  · cases h
  · split at h
    · rename_i hb
      split at h
      · cases h
      · rename_i hk
        refine ⟨hb, fun k => ?_⟩
        cases hg : how.granted ((env.looksAgain n st k).lock a) with
        | true => exact (hk (first_granted (P := fun k => how.granted ((env.looksAgain n st k).lock a)) k hg)).elim
        | false => cases how <;> cases hb; exact not_readable hg
    · cases h

theorem call_nonblocking {env : Env} {how : Access} {a : Ptr} {n : Nat} {st : Store} (h : how.blocking = false) : how.call env a n st = some (env n st, n + 1) := by
  unfold Access.call
  rw [h]
  split <;> rfl

theorem call_granted {env : Env} {how : Access} {a : Ptr} {n : Nat} {st : Store} (h : how.granted ((env n st).lock a) = true) : how.call env a n st = some (env n st, n + 1) := by
  unfold Access.call
  rw [if_pos h]

theorem Moments.again {panics : Prop} {env : Env} {T : Access → Ptr → Prop} {I : List Hold → Store → Prop} {W : Ptr → Prop} {J : List Hold → Nat → Store → Prop} (hM : Moments panics env T I W J)
    {hs n st} (hj : J hs n st) : ∀ k, J hs (n + k + 1) (env.looksAgain n st k)
  | 0 => hM.others hj
  | k + 1 => hM.others (hM.again hj k)

theorem Resolves.total {panics : Prop} {env : Env} {T : Access → Ptr → Prop} {I : List Hold → Store → Prop} {W : Ptr → Prop} {J : List Hold → Nat → Store → Prop} (hM : Moments panics env T I W J) (p : LProg) :
    (∀ how a, p.Takes how a → T how a) → ∀ {hs n st}, J hs n st → ∃ q, Resolves I W hs p q := by
  induction p with
  | done => exact fun _ _ _ _ _ => ⟨_, .done⟩
  | panic => exact fun _ _ _ _ _ => ⟨_, .panic⟩
  | enter k n f b r ihb ihr =>
    intro hT hs n st hj
    obtain ⟨_, h⟩ := ihb (fun _ _ h => hT _ _ (.enterBody _ _ _ _ _ h)) hj; obtain ⟨_, h'⟩ := ihr (fun _ _ h => hT _ _ (.enterRest _ _ _ _ _ h)) hj; exact ⟨_, .enter _ _ _ h h'⟩
  | enterUnique k n f b r ihb ihr =>
    intro hT hs n st hj
    obtain ⟨_, h⟩ := ihb (fun _ _ h => hT _ _ (.uniqueBody _ _ _ _ _ h)) hj; obtain ⟨_, h'⟩ := ihr (fun _ _ h => hT _ _ (.uniqueRest _ _ _ _ _ h)) hj; exact ⟨_, .enterUnique _ _ _ h h'⟩
  | enterShared k n p f b r q ihb ihr ihq =>
    intro hT hs n st hj
    obtain ⟨_, h⟩ := ihb (fun _ _ h => hT _ _ (.sharedBody _ _ _ _ _ _ _ h)) hj; obtain ⟨_, h'⟩ := ihr (fun _ _ h => hT _ _ (.sharedSome _ _ _ _ _ _ _ h)) hj
    obtain ⟨_, h''⟩ := ihq (fun _ _ h => hT _ _ (.sharedNone _ _ _ _ _ _ _ h)) hj; exact ⟨_, .enterShared _ _ _ _ h h' h''⟩
  | catchUnwind b r ihb ihr =>
    intro hT hs n st hj
    obtain ⟨_, h⟩ := ihb (fun _ _ h => hT _ _ (.catchBody _ _ h)) hj; obtain ⟨_, h'⟩ := ihr (fun _ _ h => hT _ _ (.catchRest _ _ h)) hj; exact ⟨_, .catchUnwind h h'⟩
  | access h a i r ihi ihr =>
    intro hT hs n st hj
    have hi' := @ihi (fun _ _ h => hT _ _ (.inside _ _ _ _ h))
    obtain ⟨_, hr⟩ := ihr (fun _ _ h => hT _ _ (.after _ _ _ _ h)) hj
    have ha := @Moments.acquire _ _ _ _ _ _ hM h a (hT _ _ (.here _ _))
    cases hg : h.granted (st.lock a) with
    | true => obtain ⟨_, hi⟩ := hi' (ha hj hg); exact ⟨_, .visited _ _ (hM.mem hj) hg hi hr⟩
    | false =>
      cases hb : h.blocking with
      | false => exact ⟨_, .skipped _ _ _ (hM.mem hj) hg (by rw [hb]; intro h; cases h) hr⟩
      | true =>
        cases hc : h.call env a n st with
        | none => exact ⟨_, .skipped _ _ _ (hM.mem hj) hg (fun _ => hM.never hj (call_never hc).2) hr⟩
        | some x =>
          obtain ⟨st', n'⟩ := x
          obtain ⟨k, rfl, rfl, hg', -, -⟩ := call_returns hc
          have hj' := hM.again hj k
          obtain ⟨_, hi⟩ := hi' (ha hj' (hg' hb))
          exact ⟨_, .visited _ _ (hM.mem hj') (hg' hb) hi hr⟩
  | upgrade p i r ihi ihr =>
    intro hT hs n st hj
    obtain ⟨_, hr⟩ := ihr (fun _ _ h => hT _ _ (.afterUpgrade _ _ _ h)) hj
    cases hg : (st.count p).alive with
    | true => obtain ⟨_, hi⟩ := ihi (fun _ _ h => hT _ _ (.upgraded _ _ _ h)) (hM.upgrade p hj hg); exact ⟨_, .alive _ (hM.mem hj) hg hi hr⟩
    | false => exact ⟨_, .dead _ _ (hM.mem hj) hg hr⟩
  | load a next ih => intro hT hs n st hj; obtain ⟨_, h'⟩ := ih (st.mem a) (fun _ _ h => hT _ _ (.loaded _ _ _ h)) hj; exact ⟨_, .read a next (hM.mem hj) h'⟩

theorem Store.SameHeld.refl (st : Store) : st.SameHeld st := ⟨fun _ => ⟨rfl, rfl⟩, fun _ => rfl⟩
theorem Store.SameHeld.trans {a b c : Store} (h : a.SameHeld b) (h' : b.SameHeld c) : a.SameHeld c :=
  ⟨fun x => ⟨(h'.1 x).1.trans (h.1 x).1, (h'.1 x).2.trans (h.1 x).2⟩, fun p => (h'.2 p).trans (h.2 p)⟩

theorem Env.Respectful.sameHeld {env : Env} (h : env.Respectful) (n st) : Store.SameHeld st (env n st) :=
  ⟨(h n st).1, fun p => ((h n st).2 p).1⟩

theorem Env.Respectful.sameHeld_again {env : Env} (h : env.Respectful) (n st) : ∀ k, Store.SameHeld st (env.looksAgain n st k)
  | 0 => h.sameHeld n st
  | k + 1 => (h.sameHeld_again n st k).trans (h.sameHeld _ _)

/-- A guard acquired and released. -/
theorem held_lock {how : Access} {st st' : Store} {a : Ptr} (hg : how.granted (st.lock a) = true)
    (h : Store.SameHeld { st with lock := setAt st.lock a (how.acquire (st.lock a)) } st') (ctl : Ctl) :
    st.SameHeld { st' with lock := setAt st'.lock a (how.release (st'.lock a) ctl) } := by
  refine ⟨fun b => ?_, h.2⟩
  have hb := h.1 b
  simp only [setAt] at hb ⊢
  split
  · rename_i e
    subst e
    simp only [if_true] at hb
    cases how <;> cases ctl <;> simp only [Access.acquire, Access.release, Access.granted, LockState.free, LockState.readable,
      Bool.and_eq_true, Bool.not_eq_true', beq_iff_eq] at * <;> constructor <;>
      first
      | exact hb.1
      | exact hb.2
      | (rw [hb.2]; omega)
      | (rw [hg.1.1.1.2])
      | (rw [hg.1.1.1.1.2])
      | (simp_all; done)
  · rename_i e
    simpa [e] using hb

theorem held_count {st st' : Store} {p : Ptr}
    (h : Store.SameHeld { st with count := setAt st.count p { st.count p with held := (st.count p).held + 1 } } st') :
    st.SameHeld { st' with count := setAt st'.count p (st'.count p).drop } := by
  refine ⟨h.1, fun q => ?_⟩
  have hq := h.2 q
  simp only [setAt] at hq ⊢
  split
  · rename_i e
    subst e
    simp only [if_true] at hq
    simp only [CountState.drop]
    omega
  · rename_i e
    simpa [e] using hq

theorem LProg.Takes.not_blocking {how : Access} {a : Ptr} {p : LProg} (h : p.Takes how a) : p.NeverWaits → how.blocking = false := by
  induction h with
  | here i r => exact fun h => h.1
  | enterBody _ _ _ _ _ _ ih => exact fun h => ih h.1
  | enterRest _ _ _ _ _ _ ih => exact fun h => ih h.2
  | uniqueBody _ _ _ _ _ _ ih => exact fun h => ih h.1
  | uniqueRest _ _ _ _ _ _ ih => exact fun h => ih h.2
  | sharedBody _ _ _ _ _ _ _ _ ih => exact fun h => ih h.1
  | sharedSome _ _ _ _ _ _ _ _ ih => exact fun h => ih h.2.1
  | sharedNone _ _ _ _ _ _ _ _ ih => exact fun h => ih h.2.2
  | catchBody _ _ _ ih => exact fun h => ih h.1
  | catchRest _ _ _ ih => exact fun h => ih h.2
  | inside _ _ _ _ _ ih => exact fun h => ih h.2.1
  | after _ _ _ _ _ ih => exact fun h => ih h.2.2
  | upgraded _ _ _ _ ih => exact fun h => ih h.1
  | afterUpgrade _ _ _ _ ih => exact fun h => ih h.2
  | loaded _ _ _ _ ih => exact fun h => ih (h _)

theorem LProg.WaitsFor.not_neverWaits {a : Ptr} {p : LProg} (h : p.WaitsFor a) : ¬ p.NeverWaits := by
  obtain ⟨how, hb, h⟩ := h
  intro hn
  rw [h.not_blocking hn] at hb
  cases hb

theorem Resolves.mono {I : List Hold → Store → Prop} {W W' : Ptr → Prop} {hs : List Hold} {p : LProg} {q : Prog} (h : Resolves I W hs p q) :
    (∀ a, p.WaitsFor a → W a → W' a) → Resolves I W' hs p q := by
  induction h with
  | done => exact fun _ => .done
  | panic => exact fun _ => .panic
  | enter k n f _ _ ih1 ih2 =>
    exact fun h => .enter k n f (ih1 fun a ⟨how, hb, ht⟩ => h a ⟨how, hb, .enterBody _ _ _ _ _ ht⟩) (ih2 fun a ⟨how, hb, ht⟩ => h a ⟨how, hb, .enterRest _ _ _ _ _ ht⟩)
  | enterUnique k n f _ _ ih1 ih2 =>
    exact fun h => .enterUnique k n f (ih1 fun a ⟨how, hb, ht⟩ => h a ⟨how, hb, .uniqueBody _ _ _ _ _ ht⟩) (ih2 fun a ⟨how, hb, ht⟩ => h a ⟨how, hb, .uniqueRest _ _ _ _ _ ht⟩)
  | enterShared k n p f _ _ _ ih1 ih2 ih3 =>
    exact fun h => .enterShared k n p f (ih1 fun a ⟨how, hb, ht⟩ => h a ⟨how, hb, .sharedBody _ _ _ _ _ _ _ ht⟩) (ih2 fun a ⟨how, hb, ht⟩ => h a ⟨how, hb, .sharedSome _ _ _ _ _ _ _ ht⟩)
      (ih3 fun a ⟨how, hb, ht⟩ => h a ⟨how, hb, .sharedNone _ _ _ _ _ _ _ ht⟩)
  | catchUnwind _ _ ih1 ih2 =>
    exact fun h => .catchUnwind (ih1 fun a ⟨how, hb, ht⟩ => h a ⟨how, hb, .catchBody _ _ ht⟩) (ih2 fun a ⟨how, hb, ht⟩ => h a ⟨how, hb, .catchRest _ _ ht⟩)
  | visited how a hI hg _ _ ih1 ih2 =>
    exact fun h => .visited how a hI hg (ih1 fun a ⟨how, hb, ht⟩ => h a ⟨how, hb, .inside _ _ _ _ ht⟩) (ih2 fun a ⟨how, hb, ht⟩ => h a ⟨how, hb, .after _ _ _ _ ht⟩)
  | skipped how a i hI hg hw _ ih =>
    exact fun h => .skipped how a i hI hg (fun hb => h a ⟨how, hb, .here _ _⟩ (hw hb)) (ih fun a ⟨how, hb, ht⟩ => h a ⟨how, hb, .after _ _ _ _ ht⟩)
  | alive p hI hg _ _ ih1 ih2 =>
    exact fun h => .alive p hI hg (ih1 fun a ⟨how, hb, ht⟩ => h a ⟨how, hb, .upgraded _ _ _ ht⟩) (ih2 fun a ⟨how, hb, ht⟩ => h a ⟨how, hb, .afterUpgrade _ _ _ ht⟩)
  | dead p i hI hg _ ih => exact fun h => .dead p i hI hg (ih fun a ⟨how, hb, ht⟩ => h a ⟨how, hb, .afterUpgrade _ _ _ ht⟩)
  | read a next hI _ ih => exact fun h => .read a next hI (ih fun a ⟨how, hb, ht⟩ => h a ⟨how, hb, .loaded _ _ _ ht⟩)

/-- A visit of a lock that may be waited for, if none is held for ever. -/
theorem Resolves.noWaits {I : List Hold → Store → Prop} {W W' : Ptr → Prop} {hs : List Hold} {p : LProg} {q : Prog} (h : Resolves I W hs p q) (hn : p.NeverWaits) : Resolves I W' hs p q :=
  h.mono fun _ hw _ => (hw.not_neverWaits hn).elim

section
variable {panics : Prop} {T : Access → Ptr → Prop} {I : List Hold → Store → Prop} {W : Ptr → Prop} {J : List Hold → Nat → Store → Prop} {impl : VisitorImpl σ} {env : Env}

/-- What holds of every execution of a visit with locks. -/
def LGood (panics : Prop) (I : List Hold → Store → Prop) (W : Ptr → Prop) (J : List Hold → Nat → Store → Prop) (impl : VisitorImpl σ) (hs : List Hold) (p : LProg) (kind : NodeKind) (s : σ)
    (st : Store) : LResult σ → Prop
  | .failed e => ∃ q, Resolves I W hs p q ∧ exec impl q kind s = .error e
  | .stuck a => p.WaitsFor a ∧ W a
  | .ended s' st' n' ctl => ∃ q, Resolves I W hs p q ∧ exec impl q kind s = .ok (s', ctl) ∧ st.SameHeld st' ∧ ((ctl = .unwinding → panics) → J hs n' st')

/-- A child visitor. -/
theorem LGood.child (hM : Moments panics env T I W J) {hs : List Hold} {p b r : LProg} {kind ck : NodeKind} {f : Fate} {s s1 : σ} {st : Store} {n : Nat} (hI : J hs n st)
    (hT : ∀ how a, p.Takes how a → T how a) (hw : ∀ how a, (b.Takes how a → p.Takes how a) ∧ (r.Takes how a → p.Takes how a))
    (ihb : LGood panics I W J impl hs b ck s1 st (execL impl env b ck s1 st n))
    (ihr : ∀ s st n, J hs n st → LGood panics I W J impl hs r kind s st (execL impl env r kind s st n))
    (mk : ∀ b' r', Resolves I W hs b b' → Resolves I W hs r r' → ∃ q, Resolves I W hs p q ∧ exec impl q kind s =
      match exec impl b' ck s1 with
      | .error e => .error e
      | .ok (s, ctl) =>
        match impl.finishChild ck f ctl s with
        | .error e => .error e
        | .ok s =>
          match ctl with
          | .unwinding => .ok (s, .unwinding)
          | .returned => exec impl r' kind s) :
    LGood panics I W J impl hs p kind s st ((execL impl env b ck s1 st n).thenFinish impl ck f (execL impl env r kind)) := by
  obtain ⟨r0, hr0⟩ := Resolves.total hM r (fun _ _ h => hT _ _ ((hw _ _).2 h)) hI
  generalize execL impl env b ck s1 st n = x at ihb
  cases x with
  | failed e =>
    obtain ⟨b', hb, eb⟩ := ihb
    obtain ⟨q, hq, e'⟩ := mk b' r0 hb hr0
    refine ⟨q, hq, ?_⟩
    rw [e', eb]
  | stuck a => exact ⟨ihb.1.imp fun _ h => ⟨h.1, (hw _ _).1 h.2⟩, ihb.2⟩
  | ended s' st' n' ctl =>
    obtain ⟨b', hb, eb, hh, hj⟩ := ihb
    simp only [LResult.thenFinish]
    cases hf : impl.finishChild ck f ctl s' with
    | error e =>
      obtain ⟨q, hq, e'⟩ := mk b' r0 hb hr0
      refine ⟨q, hq, ?_⟩
      rw [e', eb]; simp only [hf]
    | ok s2 =>
      cases ctl with
      | unwinding =>
        obtain ⟨q, hq, e'⟩ := mk b' r0 hb hr0
        refine ⟨q, hq, ?_, hh, hj⟩
        rw [e', eb]; simp only [hf]
      | returned =>
        have ih := ihr s2 st' n' (hj (by simp))
        simp only []
        generalize execL impl env r kind s2 st' n' = y at ih
        cases y with
        | failed e =>
          obtain ⟨r', hr, er⟩ := ih
          obtain ⟨q, hq, e'⟩ := mk b' r' hb hr
          refine ⟨q, hq, ?_⟩
          rw [e', eb]; simp only [hf, er]
        | stuck a => exact ⟨ih.1.imp fun _ h => ⟨h.1, (hw _ _).2 h.2⟩, ih.2⟩
        | ended s3 st3 n3 ctl3 =>
          obtain ⟨r', hr, er, hh', hj'⟩ := ih
          obtain ⟨q, hq, e'⟩ := mk b' r' hb hr
          refine ⟨q, hq, ?_, hh.trans hh', hj'⟩
          rw [e', eb]; simp only [hf, er]

/-- The part behind a lock or weak pointer. -/
theorem LGood.behind (hM : Moments panics env T I W J) {hs : List Hold} {x : Hold} {p i r : LProg} {kind : NodeKind} {s : σ} {st st0 : Store} {n n0 : Nat}
    {f : Nat → Store → Ctl → Store} (hI : J hs n0 st)
    (hT : ∀ how a, p.Takes how a → T how a) (hw : ∀ how a, (i.Takes how a → p.Takes how a) ∧ (r.Takes how a → p.Takes how a))
    (ihi : LGood panics I W J impl (x :: hs) i kind s st0 (execL impl env i kind s st0 n))
    (ihr : ∀ s st n, J hs n st → LGood panics I W J impl hs r kind s st (execL impl env r kind s st n))
    (mk : ∀ i' r', Resolves I W (x :: hs) i i' → Resolves I W hs r r' → Resolves I W hs p (i'.seq r'))
    (hheld : ∀ n st' ctl, Store.SameHeld st0 st' → st.SameHeld (f n st' ctl))
    (hrel : ∀ n st' ctl, J (x :: hs) n st' → (ctl = .unwinding → panics) → J hs (n + 1) (f n st' ctl)) :
    LGood panics I W J impl hs p kind s st ((execL impl env i kind s st0 n).thenRelease f (execL impl env r kind)) := by
  obtain ⟨r0, hr0⟩ := Resolves.total hM r (fun _ _ h => hT _ _ ((hw _ _).2 h)) hI
  generalize execL impl env i kind s st0 n = x at ihi
  cases x with
  | failed e =>
    obtain ⟨i', hi, ei⟩ := ihi
    refine ⟨_, mk _ _ hi hr0, ?_⟩
    rw [exec_seq, ei]
  | stuck a => exact ⟨ihi.1.imp fun _ h => ⟨h.1, (hw _ _).1 h.2⟩, ihi.2⟩
  | ended s' st' n' ctl =>
    obtain ⟨i', hi, ei, hh, hj⟩ := ihi
    simp only [LResult.thenRelease]
    cases ctl with
    | unwinding =>
      refine ⟨_, mk _ _ hi hr0, ?_, hheld _ _ _ hh, fun h => hrel _ _ _ (hj h) h⟩
      rw [exec_seq, ei]
    | returned =>
      have ih := ihr s' (f n' st' .returned) (n' + 1) (hrel _ _ _ (hj (by simp)) (by simp))
      simp only []
      generalize execL impl env r kind s' (f n' st' .returned) (n' + 1) = y at ih
      cases y with
      | failed e =>
        obtain ⟨r', hr, er⟩ := ih
        refine ⟨_, mk _ _ hi hr, ?_⟩
        rw [exec_seq, ei]; simp only [er]
      | stuck a => exact ⟨ih.1.imp fun _ h => ⟨h.1, (hw _ _).2 h.2⟩, ih.2⟩
      | ended s3 st3 n3 ctl3 =>
        obtain ⟨r', hr, er, hh', hj'⟩ := ih
        refine ⟨_, mk _ _ hi hr, ?_, (hheld _ _ _ hh).trans hh', hj'⟩
        rw [exec_seq, ei]; simp only [er]

/-- The part after a lock or weak pointer that is passed over. -/
theorem LGood.weaken {hs : List Hold} {p r : LProg} {kind : NodeKind} {s : σ} {st st0 : Store} {x : LResult σ}
    (hw : ∀ how a, r.Takes how a → p.Takes how a) (h : LGood panics I W J impl hs r kind s st0 x)
    (mk : ∀ r', Resolves I W hs r r' → Resolves I W hs p r') (hheld : st.SameHeld st0) : LGood panics I W J impl hs p kind s st x := by
  cases x with
  | failed e => obtain ⟨q, hq, e'⟩ := h; exact ⟨q, mk _ hq, e'⟩
  | stuck a => exact ⟨h.1.imp fun _ h => ⟨h.1, hw _ _ h.2⟩, h.2⟩
  | ended s' st' n' ctl => obtain ⟨q, hq, e', hh, hj⟩ := h; exact ⟨q, mk _ hq, e', hheld.trans hh, hj⟩

theorem execL_good (impl : VisitorImpl σ) (env : Env) (he : env.Respectful) (hM : Moments panics env T I W J) (p : LProg) : (∀ how a, p.Takes how a → T how a) → (¬ panics → p.NoCatch) →
    ∀ hs kind s st n, J hs n st → LGood panics I W J impl hs p kind s st (execL impl env p kind s st n) := by
  induction p with
  | done => intro _ _ hs kind s st n hj; exact ⟨_, .done, rfl, .refl _, fun _ => hj⟩
  | panic => intro _ _ hs kind s st n hj; exact ⟨_, .panic, rfl, .refl _, fun _ => hj⟩
  | enter k sz f b r ihb ihr =>
    intro hT hc hs kind s st n hj
    simp only [execL]
    cases hx : impl.enterInlineImpl s k sz kind with
    | error e =>
      obtain ⟨q, hq⟩ := Resolves.total hM (.enter k sz f b r) hT hj
      refine ⟨q, hq, ?_⟩
      cases hq; simp only [exec, hx]
    | ok s1 =>
      refine LGood.child hM hj hT (fun _ _ => ⟨.enterBody _ _ _ _ _, .enterRest _ _ _ _ _⟩) (ihb (fun _ _ h => hT _ _ (.enterBody _ _ _ _ _ h)) (fun h => (hc h).1) _ _ _ _ _ hj) (ihr (fun _ _ h => hT _ _ (.enterRest _ _ _ _ _ h)) (fun h => (hc h).2) _ _) fun b' r' hb hr => ⟨_, .enter k sz f hb hr, ?_⟩
      simp only [exec, hx]; rfl
  | enterUnique k sz f b r ihb ihr =>
    intro hT hc hs kind s st n hj
    simp only [execL]
    cases hx : impl.enterUniqueImpl s k sz kind with
    | error e =>
      obtain ⟨q, hq⟩ := Resolves.total hM (.enterUnique k sz f b r) hT hj
      refine ⟨q, hq, ?_⟩
      cases hq; simp only [exec, hx]
    | ok s1 =>
      refine LGood.child hM hj hT (fun _ _ => ⟨.uniqueBody _ _ _ _ _, .uniqueRest _ _ _ _ _⟩) (ihb (fun _ _ h => hT _ _ (.uniqueBody _ _ _ _ _ h)) (fun h => (hc h).1) _ _ _ _ _ hj) (ihr (fun _ _ h => hT _ _ (.uniqueRest _ _ _ _ _ h)) (fun h => (hc h).2) _ _) fun b' r' hb hr => ⟨_, .enterUnique k sz f hb hr, ?_⟩
      simp only [exec, hx]; rfl
  | enterShared k sz p f b r q ihb ihr ihq =>
    intro hT hc hs kind s st n hj
    simp only [execL]
    obtain ⟨b0, hb0⟩ := Resolves.total hM b (fun _ _ h => hT _ _ (.sharedBody _ _ _ _ _ _ _ h)) hj
    obtain ⟨r0, hr0⟩ := Resolves.total hM r (fun _ _ h => hT _ _ (.sharedSome _ _ _ _ _ _ _ h)) hj
    obtain ⟨q0, hq0⟩ := Resolves.total hM q (fun _ _ h => hT _ _ (.sharedNone _ _ _ _ _ _ _ h)) hj
    cases hx : impl.enterSharedImpl s k sz p kind with
    | error e =>
      refine ⟨_, .enterShared k sz p f hb0 hr0 hq0, ?_⟩
      simp only [exec, hx]
    | ok x =>
      obtain ⟨g, s1⟩ := x
      cases g with
      | false =>
        simp only []
        have ih := ihq (fun _ _ h => hT _ _ (.sharedNone _ _ _ _ _ _ _ h)) (fun h => (hc h).2.2) hs kind s1 st n hj
        generalize execL impl env q kind s1 st n = y at ih
        cases y with
        | failed e =>
          obtain ⟨q', hq, e'⟩ := ih
          refine ⟨_, .enterShared k sz p f hb0 hr0 hq, ?_⟩
          simp only [exec, hx, e']
        | stuck a => exact ⟨ih.1.imp fun _ h => ⟨h.1, .sharedNone _ _ _ _ _ _ _ h.2⟩, ih.2⟩
        | ended s' st' n' ctl =>
          obtain ⟨q', hq, e', hh, hj'⟩ := ih
          refine ⟨_, .enterShared k sz p f hb0 hr0 hq, ?_, hh, hj'⟩
          simp only [exec, hx, e']
      | true =>
        refine LGood.child hM hj hT (fun _ _ => ⟨.sharedBody _ _ _ _ _ _ _, .sharedSome _ _ _ _ _ _ _⟩) (ihb (fun _ _ h => hT _ _ (.sharedBody _ _ _ _ _ _ _ h)) (fun h => (hc h).1) _ _ _ _ _ hj) (ihr (fun _ _ h => hT _ _ (.sharedSome _ _ _ _ _ _ _ h)) (fun h => (hc h).2.1) _ _)
          fun b' r' hb hr => ⟨_, .enterShared k sz p f hb hr hq0, ?_⟩
        simp only [exec, hx]; rfl
  | catchUnwind b r ihb ihr =>
    intro hT hc hs kind s st n hj
    have hp : panics := Classical.byContradiction fun h => hc h
    simp only [execL]
    have ih := ihb (fun _ _ h => hT _ _ (.catchBody _ _ h)) (fun h => absurd hp h) hs kind s st n hj
    obtain ⟨r0, hr0⟩ := Resolves.total hM r (fun _ _ h => hT _ _ (.catchRest _ _ h)) hj
    generalize execL impl env b kind s st n = x at ih
    cases x with
    | failed e =>
      obtain ⟨b', hb, eb⟩ := ih
      refine ⟨_, .catchUnwind hb hr0, ?_⟩
      simp only [exec, eb]
    | stuck a => exact ⟨ih.1.imp fun _ h => ⟨h.1, .catchBody _ _ h.2⟩, ih.2⟩
    | ended s' st' n' ctl =>
      obtain ⟨b', hb, eb, hh, hj1⟩ := ih
      simp only []
      have ih := ihr (fun _ _ h => hT _ _ (.catchRest _ _ h)) (fun h => absurd hp h) hs kind s' st' n' (hj1 fun _ => hp)
      generalize execL impl env r kind s' st' n' = y at ih
      cases y with
      | failed e =>
        obtain ⟨r', hr, er⟩ := ih
        refine ⟨_, .catchUnwind hb hr, ?_⟩
        simp only [exec, eb, er]
      | stuck a => exact ⟨ih.1.imp fun _ h => ⟨h.1, .catchRest _ _ h.2⟩, ih.2⟩
      | ended s3 st3 n3 ctl3 =>
        obtain ⟨r', hr, er, hh', hj2⟩ := ih
        refine ⟨_, .catchUnwind hb hr, ?_, hh.trans hh', hj2⟩
        simp only [exec, eb, er]
  | access how a i r ihi ihr =>
    intro hT hc hs kind s st n hj
    simp only [execL]
    cases hcall : how.call env a n st with
    | none => exact ⟨⟨_, (call_never hcall).1, .here _ _⟩, hM.never hj (call_never hcall).2⟩
    | some x =>
      obtain ⟨st1, n1⟩ := x
      obtain ⟨k, rfl, rfl, hgb, -, -⟩ := call_returns hcall
      have hj1 := hM.again hj k
      have hs1 := he.sameHeld_again n st k
      simp only []
      split
      · rename_i hg
        refine LGood.behind hM hj hT (fun _ _ => ⟨.inside _ _ _ _, .after _ _ _ _⟩) (ihi (fun _ _ h => hT _ _ (.inside _ _ _ _ h)) (fun h => (hc h).1) _ _ _ _ _ (hM.acquire how a (hT _ _ (.here _ _)) hj1 hg)) (ihr (fun _ _ h => hT _ _ (.after _ _ _ _ h)) (fun h => (hc h).2) _ _)
          (fun _ _ => .visited how a (hM.mem hj1) hg) ?_ ?_
        · intro n' st' ctl hh
          exact hs1.trans (held_lock hg (hh.trans (he.sameHeld n' st')) ctl)
        · intro n' st' ctl hj' hp
          exact hM.release how a ctl (hM.others hj') hp
      · rename_i hg
        exact LGood.weaken (fun _ _ => .after _ _ _ _) (ihr (fun _ _ h => hT _ _ (.after _ _ _ _ h)) (fun h => (hc h).2) _ _ _ _ _ hj1)
          (fun _ => .skipped how a i (hM.mem hj1) (by simpa using hg) (fun h => (hg (hgb h)).elim)) hs1
  | upgrade p i r ihi ihr =>
    intro hT hc hs kind s st n hj
    simp only [execL]
    split
    · rename_i hg
      refine LGood.behind hM hj hT (fun _ _ => ⟨.upgraded _ _ _, .afterUpgrade _ _ _⟩) (ihi (fun _ _ h => hT _ _ (.upgraded _ _ _ h)) (fun h => (hc h).1) _ _ _ _ _ (hM.upgrade p (hM.others hj) hg)) (ihr (fun _ _ h => hT _ _ (.afterUpgrade _ _ _ h)) (fun h => (hc h).2) _ _)
        (fun _ _ => .alive p (hM.mem (hM.others hj)) hg) ?_ ?_
      · intro n' st' ctl hh
        exact (he.sameHeld n st).trans (held_count (hh.trans (he.sameHeld n' st')))
      · intro n' st' ctl hj' _
        exact hM.drop p (hM.others hj')
    · rename_i hg
      exact LGood.weaken (fun _ _ => .afterUpgrade _ _ _) (ihr (fun _ _ h => hT _ _ (.afterUpgrade _ _ _ h)) (fun h => (hc h).2) _ _ _ _ _ (hM.others hj)) (fun _ => .dead p i (hM.mem (hM.others hj)) (by simpa using hg)) (he.sameHeld n st)
  | load a next ih =>
    intro hT hc hs kind s st n hj
    simp only [execL]
    exact LGood.weaken (fun _ _ => .loaded _ _ _) (ih _ (fun _ _ h => hT _ _ (.loaded _ _ _ h)) (fun h => hc h _) _ _ _ _ _ (hM.others hj)) (fun _ => .read a next (hM.mem (hM.others hj))) (he.sameHeld n st)

end

/-! ### Nobody else runs -/

theorem setAt_setAt {α : Type} (f : Ptr → α) (a : Ptr) (x y : α) : setAt (setAt f a x) a y = setAt f a y := by
  funext b; simp only [setAt]; split <;> rfl

theorem setAt_self {α : Type} (f : Ptr → α) (a : Ptr) : setAt f a (f a) = f := by
  funext b; simp only [setAt]; split
  · rename_i h; rw [h]
  · rfl

theorem setAt_same {α : Type} (f : Ptr → α) (a : Ptr) (x : α) : setAt f a x a = x := by simp [setAt]

theorem release_acquire {how : Access} {s : LockState} (hg : how.granted s = true) : how.release (how.acquire s) .returned = s := by
  obtain ⟨a, b, c, d, e, f, g⟩ := s
  cases how <;> simp_all [Access.acquire, Access.release, Access.granted, LockState.free, LockState.readable]

theorem drop_upgrade {c : CountState} (h : c.alive = true) : CountState.drop { c with held := c.held + 1 } = c := by
  obtain ⟨a, b, d⟩ := c
  simp only [CountState.alive, bne_iff_ne, ne_eq, CountState.drop, Nat.add_sub_cancel] at *
  rw [if_neg h]

/-- Both ways to run a visit end in the same way. -/
def QuietGood (impl : VisitorImpl σ) (q : Prog) (kind : NodeKind) (s : σ) (st : Store) (r : LResult σ) : Prop :=
  (∃ e, r = .failed e ∧ exec impl q kind s = .error e) ∨
  (∃ s' n', r = .ended s' st n' .returned ∧ exec impl q kind s = .ok (s', .returned))

theorem looksAgain_quiet (n : Nat) (st : Store) : ∀ k, Env.quiet.looksAgain n st k = st
  | 0 => rfl
  | k + 1 => looksAgain_quiet n st k

theorem call_quiet {how : Access} {a : Ptr} {n : Nat} {st : Store} : how.call .quiet a n st = if how.granted (st.lock a) then some (st, n + 1) else if how.blocking then none else some (st, n + 1) := by
  cases hg : how.granted (st.lock a) with
  | true => exact call_granted hg
  | false =>
    cases hb : how.blocking with
    | false => exact call_nonblocking hb
    | true =>
      cases hc : how.call .quiet a n st with
      | none => rfl
      | some x =>
        obtain ⟨st', n'⟩ := x
        obtain ⟨k, rfl, -, h, -, -⟩ := call_returns hc
        rw [looksAgain_quiet, hg] at h
        cases h hb

theorem execL_quiet (impl : VisitorImpl σ) (p : LProg) (hp : p.NoPanic) : ∀ kind s st n, p.AvailableIn st →
    QuietGood impl (p.resolveIn st) kind s st (execL impl .quiet p kind s st n) := by
  induction p with
  | done => intro kind s st n _; exact .inr ⟨_, _, rfl, rfl⟩
  | panic => cases hp
  | enter k sz f b r ihb ihr =>
    intro kind s st n hw
    simp only [execL, LProg.resolveIn]
    cases hx : impl.enterInlineImpl s k sz kind with
    | error e => exact .inl ⟨e, rfl, by simp only [exec, hx]⟩
    | ok s1 =>
      rcases ihb hp.1 .inline s1 st n hw.1 with ⟨e, e1, e2⟩ | ⟨s2, n2, e1, e2⟩
      · exact .inl ⟨e, by simp only [e1, LResult.thenFinish], by simp only [exec, hx, e2]⟩
      · cases hf : impl.finishChild .inline f .returned s2 with
        | error e => exact .inl ⟨e, by simp only [e1, LResult.thenFinish, hf], by simp only [exec, hx, e2, hf]⟩
        | ok s3 =>
          rcases ihr hp.2 kind s3 st n2 hw.2 with ⟨e, e3, e4⟩ | ⟨s4, n4, e3, e4⟩
          · exact .inl ⟨e, by simp only [e1, LResult.thenFinish, hf, e3], by simp only [exec, hx, e2, hf, e4]⟩
          · exact .inr ⟨s4, n4, by simp only [e1, LResult.thenFinish, hf, e3], by simp only [exec, hx, e2, hf, e4]⟩
  | enterUnique k sz f b r ihb ihr =>
    intro kind s st n hw
    simp only [execL, LProg.resolveIn]
    cases hx : impl.enterUniqueImpl s k sz kind with
    | error e => exact .inl ⟨e, rfl, by simp only [exec, hx]⟩
    | ok s1 =>
      rcases ihb hp.1 .unique s1 st n hw.1 with ⟨e, e1, e2⟩ | ⟨s2, n2, e1, e2⟩
      · exact .inl ⟨e, by simp only [e1, LResult.thenFinish], by simp only [exec, hx, e2]⟩
      · cases hf : impl.finishChild .unique f .returned s2 with
        | error e => exact .inl ⟨e, by simp only [e1, LResult.thenFinish, hf], by simp only [exec, hx, e2, hf]⟩
        | ok s3 =>
          rcases ihr hp.2 kind s3 st n2 hw.2 with ⟨e, e3, e4⟩ | ⟨s4, n4, e3, e4⟩
          · exact .inl ⟨e, by simp only [e1, LResult.thenFinish, hf, e3], by simp only [exec, hx, e2, hf, e4]⟩
          · exact .inr ⟨s4, n4, by simp only [e1, LResult.thenFinish, hf, e3], by simp only [exec, hx, e2, hf, e4]⟩
  | enterShared k sz p f b r q ihb ihr ihq =>
    intro kind s st n hw
    simp only [execL, LProg.resolveIn]
    cases hx : impl.enterSharedImpl s k sz p kind with
    | error e => exact .inl ⟨e, rfl, by simp only [exec, hx]⟩
    | ok x =>
      obtain ⟨g, s1⟩ := x
      cases g with
      | false =>
        rcases ihq hp.2.2 kind s1 st n hw.2.2 with ⟨e, e3, e4⟩ | ⟨s4, n4, e3, e4⟩
        · exact .inl ⟨e, e3, by simp only [exec, hx, e4]⟩
        · exact .inr ⟨s4, n4, e3, by simp only [exec, hx, e4]⟩
      | true =>
        rcases ihb hp.1 .shared s1 st n hw.1 with ⟨e, e1, e2⟩ | ⟨s2, n2, e1, e2⟩
        · exact .inl ⟨e, by simp only [e1, LResult.thenFinish], by simp only [exec, hx, e2]⟩
        · cases hf : impl.finishChild .shared f .returned s2 with
          | error e => exact .inl ⟨e, by simp only [e1, LResult.thenFinish, hf], by simp only [exec, hx, e2, hf]⟩
          | ok s3 =>
            rcases ihr hp.2.1 kind s3 st n2 hw.2.1 with ⟨e, e3, e4⟩ | ⟨s4, n4, e3, e4⟩
            · exact .inl ⟨e, by simp only [e1, LResult.thenFinish, hf, e3], by simp only [exec, hx, e2, hf, e4]⟩
            · exact .inr ⟨s4, n4, by simp only [e1, LResult.thenFinish, hf, e3], by simp only [exec, hx, e2, hf, e4]⟩
  | catchUnwind b r ihb ihr =>
    intro kind s st n hw
    simp only [execL, LProg.resolveIn]
    rcases ihb hp.1 kind s st n hw.1 with ⟨e, e1, e2⟩ | ⟨s2, n2, e1, e2⟩
    · exact .inl ⟨e, by simp only [e1], by simp only [exec, e2]⟩
    · rcases ihr hp.2 kind s2 st n2 hw.2 with ⟨e, e3, e4⟩ | ⟨s4, n4, e3, e4⟩
      · exact .inl ⟨e, by simp only [e1, e3], by simp only [exec, e2, e4]⟩
      · exact .inr ⟨s4, n4, by simp only [e1, e3], by simp only [exec, e2, e4]⟩
  | access how a i r ihi ihr =>
    intro kind s st n hw
    have hdef : execL impl .quiet (.access how a i r) kind s st n =
        if how.granted (st.lock a) then
          (execL impl .quiet i kind s { st with lock := setAt st.lock a (how.acquire (st.lock a)) } (n + 1)).thenRelease
            (fun _ st ctl => { st with lock := setAt st.lock a (how.release (st.lock a) ctl) }) (execL impl .quiet r kind)
        else if how.blocking then .stuck a
        else execL impl .quiet r kind s st (n + 1) := by
      simp only [execL, call_quiet]
      cases hg : how.granted (st.lock a) <;> cases hb : how.blocking <;> simp [hg, Env.quiet]
    rw [hdef, LProg.resolveIn]
    by_cases hg : how.granted (st.lock a) = true
    · rw [if_pos hg, if_pos hg]
      rw [LProg.AvailableIn, if_pos hg] at hw
      rcases ihi hp.1 kind s { st with lock := setAt st.lock a (how.acquire (st.lock a)) } (n + 1) hw.1 with ⟨e, e1, e2⟩ | ⟨s2, n2, e1, e2⟩
      · refine .inl ⟨e, ?_, by rw [exec_seq, e2]⟩
        rw [e1]; rfl
      · have hst : (⟨setAt (setAt st.lock a (how.acquire (st.lock a))) a (how.release (setAt st.lock a (how.acquire (st.lock a)) a) .returned),
            st.count, st.mem⟩ : Store) = st := by
          rw [setAt_setAt, setAt_same, release_acquire hg, setAt_self]
        rw [e1]
        simp only [LResult.thenRelease, hst]
        rcases ihr hp.2 kind s2 st (n2 + 1) hw.2 with ⟨e, e3, e4⟩ | ⟨s4, n4, e3, e4⟩
        · exact .inl ⟨e, e3, by rw [exec_seq, e2]; exact e4⟩
        · exact .inr ⟨s4, n4, e3, by rw [exec_seq, e2]; exact e4⟩
    · rw [LProg.AvailableIn, if_neg hg] at hw
      rw [if_neg hg, if_neg hg, if_neg (by rw [hw.1]; simp)]
      exact ihr hp.2 kind s st (n + 1) hw.2
  | upgrade p i r ihi ihr =>
    intro kind s st n hw
    have hdef : execL impl .quiet (.upgrade p i r) kind s st n =
        if (st.count p).alive then
          (execL impl .quiet i kind s { st with count := setAt st.count p { st.count p with held := (st.count p).held + 1 } } (n + 1)).thenRelease
            (fun _ st _ => { st with count := setAt st.count p (st.count p).drop }) (execL impl .quiet r kind)
        else execL impl .quiet r kind s st (n + 1) := rfl
    rw [hdef, LProg.resolveIn]
    by_cases hg : (st.count p).alive = true
    · rw [if_pos hg, if_pos hg]
      rw [LProg.AvailableIn, if_pos hg] at hw
      rcases ihi hp.1 kind s { st with count := setAt st.count p { st.count p with held := (st.count p).held + 1 } } (n + 1) hw.1 with
        ⟨e, e1, e2⟩ | ⟨s2, n2, e1, e2⟩
      · refine .inl ⟨e, ?_, by rw [exec_seq, e2]⟩
        rw [e1]; rfl
      · have hst : (⟨st.lock, setAt (setAt st.count p { st.count p with held := (st.count p).held + 1 }) p
              (setAt st.count p { st.count p with held := (st.count p).held + 1 } p).drop, st.mem⟩ : Store) = st := by
          rw [setAt_setAt, setAt_same, drop_upgrade hg, setAt_self]
        rw [e1]
        simp only [LResult.thenRelease, hst]
        rcases ihr hp.2 kind s2 st (n2 + 1) hw.2 with ⟨e, e3, e4⟩ | ⟨s4, n4, e3, e4⟩
        · exact .inl ⟨e, e3, by rw [exec_seq, e2]; exact e4⟩
        · exact .inr ⟨s4, n4, e3, by rw [exec_seq, e2]; exact e4⟩
    · rw [LProg.AvailableIn, if_neg hg] at hw
      rw [if_neg hg, if_neg hg]
      exact ihr hp.2 kind s st (n + 1) hw
  | load a next ih =>
    intro kind s st n hw
    exact ih _ (hp _) kind s st (n + 1) hw

theorem LProg.NeverWaits.available {p : LProg} : ∀ {st}, p.NeverWaits → p.AvailableIn st := by
  induction p with
  | done => intros; trivial
  | panic => intros; trivial
  | enter k n f b r ihb ihr => exact fun h => ⟨ihb h.1, ihr h.2⟩
  | enterUnique k n f b r ihb ihr => exact fun h => ⟨ihb h.1, ihr h.2⟩
  | enterShared k n p f b r q ihb ihr ihq => exact fun h => ⟨ihb h.1, ihr h.2.1, ihq h.2.2⟩
  | catchUnwind b r ihb ihr => exact fun h => ⟨ihb h.1, ihr h.2⟩
  | access how a i r ihi ihr =>
    intro st h
    rw [LProg.AvailableIn]
    split
    · exact ⟨ihi h.2.1, ihr h.2.2⟩
    · exact ⟨h.1, ihr h.2.2⟩
  | upgrade p i r ihi ihr =>
    intro st h
    rw [LProg.AvailableIn]
    split
    · exact ⟨ihi h.1, ihr h.2⟩
    · exact ihr h.2
  | load a next ih => exact fun h => ih _ (h _)

/-! ### Visits without locks -/

theorem lift_resolveIn (q : Prog) : ∀ st, q.lift.resolveIn st = q := by
  induction q <;> intro st <;> simp_all [Prog.lift, LProg.resolveIn]

theorem lift_neverWaits (q : Prog) : q.lift.NeverWaits := by
  induction q <;> simp_all [Prog.lift, LProg.NeverWaits]

/-! ### Nobody else runs, but the visit may panic -/

theorem SameButPoison.refl (st : Store) : st.SameButPoison st := ⟨fun _ => rfl, fun _ => rfl, rfl⟩

theorem SameButPoison.trans {a b c : Store} (h : a.SameButPoison b) (h' : b.SameButPoison c) : a.SameButPoison c :=
  ⟨fun x => by rw [h'.1 x, h.1 x], fun p => (h'.2.1 p).trans (h.2.1 p), h'.2.2.trans h.2.2⟩

theorem poison_lock {how : Access} {st st' : Store} {a : Ptr} (hg : how.granted (st.lock a) = true)
    (h : Store.SameButPoison { st with lock := setAt st.lock a (how.acquire (st.lock a)) } st') (ctl : Ctl) :
    st.SameButPoison { st' with lock := setAt st'.lock a (how.release (st'.lock a) ctl) } := by
  refine ⟨fun b => ?_, h.2⟩
  have hb := h.1 b
  simp only [setAt] at hb ⊢
  split
  · rename_i e
    subst e
    simp only [if_true] at hb
    generalize st.lock b = x at *
    generalize st'.lock b = y at *
    obtain ⟨a, b, c, d, e, f, g⟩ := x
    obtain ⟨a', b', c', d', e', f', g'⟩ := y
    cases how <;> cases ctl <;> simp_all [Access.acquire, Access.release, Access.granted, LockState.free, LockState.readable]
  · rename_i e
    simpa [e] using hb

theorem poison_count {st st' : Store} {p : Ptr} (hg : (st.count p).alive = true)
    (h : Store.SameButPoison { st with count := setAt st.count p { st.count p with held := (st.count p).held + 1 } } st') :
    st.SameButPoison { st' with count := setAt st'.count p (st'.count p).drop } := by
  refine ⟨h.1, fun q => ?_, h.2.2⟩
  have hq := h.2.1 q
  simp only [setAt] at hq ⊢
  split
  · rename_i e
    subst e
    simp only [if_true] at hq
    rw [hq, drop_upgrade hg]
  · rename_i e
    simpa [e] using hq

/-- The store at the end of a visit, if it ends. -/
def LResult.StoreIs (P : Store → Prop) : LResult σ → Prop
  | .ended _ st _ _ => P st
  | _ => True

theorem StoreIs.thenFinish {impl : VisitorImpl σ} {ck f} {k : σ → Store → Nat → LResult σ} {st : Store} {x : LResult σ}
    (h : x.StoreIs st.SameButPoison) (hk : ∀ s st n, (k s st n).StoreIs st.SameButPoison) :
    (x.thenFinish impl ck f k).StoreIs st.SameButPoison := by
  cases x with
  | failed => trivial
  | stuck => trivial
  | ended s' st' n' ctl =>
    simp only [LResult.thenFinish]
    split
    · trivial
    · cases ctl with
      | unwinding => exact h
      | returned =>
        simp only []
        rename_i s2 _
        have := hk s2 st' n'
        revert this
        generalize k s2 st' n' = y
        intro hy
        cases y with
        | failed => trivial
        | stuck => trivial
        | ended => exact SameButPoison.trans h hy

theorem StoreIs.thenRelease {f : Nat → Store → Ctl → Store} {k : σ → Store → Nat → LResult σ} {st st0 : Store} {x : LResult σ}
    (h : x.StoreIs st0.SameButPoison) (hf : ∀ n st' ctl, st0.SameButPoison st' → st.SameButPoison (f n st' ctl))
    (hk : ∀ s st n, (k s st n).StoreIs st.SameButPoison) :
    (x.thenRelease f k).StoreIs st.SameButPoison := by
  cases x with
  | failed => trivial
  | stuck => trivial
  | ended s' st' n' ctl =>
    cases ctl with
    | unwinding => exact hf _ _ _ h
    | returned =>
      simp only [LResult.thenRelease]
      have := hk s' (f n' st' .returned) (n' + 1)
      revert this
      generalize k s' (f n' st' .returned) (n' + 1) = y
      intro hy
      cases y with
      | failed => trivial
      | stuck => trivial
      | ended => exact SameButPoison.trans (hf _ _ _ h) hy

theorem execL_poison (impl : VisitorImpl σ) (p : LProg) : ∀ kind s st n,
    (execL impl .quiet p kind s st n).StoreIs st.SameButPoison := by
  induction p with
  | done => intro kind s st n; exact SameButPoison.refl _
  | panic => intro kind s st n; exact SameButPoison.refl _
  | enter k sz f b r ihb ihr =>
    intro kind s st n
    simp only [execL]
    split
    · trivial
    · exact StoreIs.thenFinish (ihb _ _ _ _) (ihr _)
  | enterUnique k sz f b r ihb ihr =>
    intro kind s st n
    simp only [execL]
    split
    · trivial
    · exact StoreIs.thenFinish (ihb _ _ _ _) (ihr _)
  | enterShared k sz p f b r q ihb ihr ihq =>
    intro kind s st n
    simp only [execL]
    split
    · trivial
    · exact ihq _ _ _ _
    · exact StoreIs.thenFinish (ihb _ _ _ _) (ihr _)
  | catchUnwind b r ihb ihr =>
    intro kind s st n
    simp only [execL]
    have ih := ihb kind s st n
    generalize execL impl .quiet b kind s st n = x at ih
    cases x with
    | failed => trivial
    | stuck => trivial
    | ended s' st' n' ctl =>
      simp only []
      have ih' := ihr kind s' st' n'
      generalize execL impl .quiet r kind s' st' n' = y at ih'
      cases y with
      | failed => trivial
      | stuck => trivial
      | ended => exact SameButPoison.trans ih ih'
  | access how a i r ihi ihr =>
    intro kind s st n
    simp only [execL, call_quiet]
    cases hg : how.granted (st.lock a) with
    | true =>
      simp only [if_true, hg]
      exact StoreIs.thenRelease (ihi _ _ _ _) (fun n' st' ctl hh => poison_lock hg hh ctl) (ihr _)
    | false =>
      cases hb : how.blocking
      · simp only [hg, Bool.false_eq_true, if_false]
        exact ihr _ _ _ _
      · trivial
  | upgrade p i r ihi ihr =>
    intro kind s st n
    simp only [execL]
    split
    · rename_i hg
      exact StoreIs.thenRelease (ihi _ _ _ _) (fun n' st' ctl hh => poison_count hg hh) (ihr _)
    · exact ihr _ _ _ _
  | load a next ih =>
    intro kind s st n
    simp only [execL]
    exact ih _ _ _ _ _

end Allocative
