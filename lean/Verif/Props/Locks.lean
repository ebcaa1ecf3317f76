import Verif.Lemmas.Locks
import Verif.Lemmas.Own
import Verif.Props.Objects
set_option linter.unusedSimpArgs false
/-
C31 (locks are never waited for), C44 (weak pointers), C51 (DashMap does wait).
-/
namespace Allocative
variable {σ : Type}

/-- C31, any visitor.  Whatever other threads do to the locks meanwhile, a visit that uses the calls of the `Allocative` implementations for
locks and cells (`NeverWaits`) never waits; it does what some visit without locks does, in which at each lock the contents are either
visited or left out, visited only if the lock granted access at some moment, left out only if it refused at some moment (so a lock that always grants access is visited), and in
which everything read from memory was there at some moment, where these are moments at which the visit has taken exactly the locks and references around that place; and at the
end, also if it panics, it holds exactly the guards and references it held before.  With `panics = False` (if the visit does not catch panics) the moments are such that the visit
itself has not poisoned anything before. -/
theorem C31_never_waits (panics : Prop) (impl : VisitorImpl σ) (env : Env) (he : env.Respectful) (p : LProg) (hc : ¬ panics → p.NoCatch) (hw : p.NeverWaits)
    (kind : NodeKind) (s : σ) (st : Store) (n : Nat) :
    ∃ q, Resolves (env.Occurs panics st n) (fun _ => False) [] p q ∧
      match execL impl env p kind s st n with
      | .stuck _ => False
      | .failed e => exec impl q kind s = .error e
      | .ended s' st' _ ctl => exec impl q kind s = .ok (s', ctl) ∧ st.SameHeld st' := by
  have h := execL_good impl env he (.timeline panics env (fun _ _ => True) st n) p (fun _ _ _ => trivial) hc [] kind s st n Moments.start
  revert h
  generalize execL impl env p kind s st n = x
  intro h
  cases x with
  | failed e => obtain ⟨q, h1, h2⟩ := h; exact ⟨q, h1.noWaits hw, h2⟩
  | stuck a => exact (h.1.not_neverWaits hw).elim
  | ended s' st' n' ctl => obtain ⟨q, h1, h2, h3, _⟩ := h; exact ⟨q, h1.noWaits hw, h2, h3⟩

theorem seq_closes {a b : Prog} (ha : a.Closes) (hb : b.Closes) : (a.seq b).Closes := by
  induction a with
  | done => exact hb
  | panic => trivial
  | enter k n f body rest _ ih => exact ⟨ha.1, ha.2.1, ih ha.2.2⟩
  | enterUnique k n f body rest _ ih => exact ⟨ha.1, ha.2.1, ih ha.2.2⟩
  | enterShared k n p f body rs rn _ ih1 ih2 => exact ⟨ha.1, ha.2.1, ih1 ha.2.2.1, ih2 ha.2.2.2⟩
  | catchUnwind body rest _ ih => exact ⟨ha.1, ih ha.2⟩

theorem Resolves.closes {I : List Hold → Store → Prop} {W : Ptr → Prop} {hs : List Hold} {p : LProg} {q : Prog} (h : Resolves I W hs p q) : p.Closes → q.Closes := by
  induction h with
  | done => exact id
  | panic => exact id
  | enter k n f _ _ ih1 ih2 => exact fun h => ⟨h.1, ih1 h.2.1, ih2 h.2.2⟩
  | enterUnique k n f _ _ ih1 ih2 => exact fun h => ⟨h.1, ih1 h.2.1, ih2 h.2.2⟩
  | enterShared k n p f _ _ _ ih1 ih2 ih3 => exact fun h => ⟨h.1, ih1 h.2.1, ih2 h.2.2.1, ih3 h.2.2.2⟩
  | catchUnwind _ _ ih1 ih2 => exact fun h => ⟨ih1 h.1, ih2 h.2⟩
  | visited _ _ _ _ _ _ ih1 ih2 => exact fun h => seq_closes (ih1 h.1) (ih2 h.2)
  | skipped _ _ _ _ _ _ _ ih => exact fun h => ih h.2
  | alive _ _ _ _ _ ih1 ih2 => exact fun h => seq_closes (ih1 h.1) (ih2 h.2)
  | dead _ _ _ _ _ ih => exact fun h => ih h.2
  | read _ _ _ _ ih => exact fun h => ih (h _)

/-- A visit that does not panic, resolved. -/
theorem Resolves.returns {I : List Hold → Store → Prop} {W : Ptr → Prop} {hs : List Hold} {p : LProg} {q : Prog} (h : Resolves I W hs p q) : p.NoPanic → ∀ cur vis, (q.trace cur vis).ctl = .returned := by
  induction h with
  | done => exact fun _ _ _ => rfl
  | panic => exact fun h => h.elim
  | enter k n f _ _ ih1 ih2 => intro h cur vis; simp only [Prog.trace, ih1 h.1, ih2 h.2]
  | enterUnique k n f _ _ ih1 ih2 => intro h cur vis; simp only [Prog.trace, ih1 h.1, ih2 h.2]
  | enterShared k n p f _ _ _ ih1 ih2 ih3 =>
    intro h cur vis
    simp only [Prog.trace]
    split
    · exact ih3 h.2.2 _ _
    · simp only [ih1 h.1, ih2 h.2.1]
  | catchUnwind _ _ ih1 ih2 => intro h cur vis; simp only [Prog.trace, ih2 h.2]
  | visited _ _ _ _ _ _ ih1 ih2 => intro h cur vis; simp only [trace_seq, ih1 h.1, ih2 h.2]
  | skipped _ _ _ _ _ _ _ ih => exact fun h => ih h.2
  | alive _ _ _ _ _ ih1 ih2 => intro h cur vis; simp only [trace_seq, ih1 h.1, ih2 h.2]
  | dead _ _ _ _ _ ih => exact fun h => ih h.2
  | read _ _ _ _ ih => exact fun h => ih (h _)

/-- A history waits for ever at a lock. -/
def WaitsAt (W : Ptr → Prop) (hist : List (LProg × Fate)) (a : Ptr) : Prop := (∃ x ∈ hist, x.1.WaitsFor a) ∧ W a

theorem useRootsL_waits {panics : Prop} {T : Access → Ptr → Prop} {I : List Hold → Store → Prop} {W : Ptr → Prop} {J : List Hold → Nat → Store → Prop} (env : Env) (he : env.Respectful) (hM : Moments panics env T I W J)
    (hist : List (LProg × Fate)) (hh : ∀ x ∈ hist, x.1.Closes ∧ (x.2 = .exit ∨ x.2 = .drop))
    (hT : ∀ x ∈ hist, ∀ how a, x.1.Takes how a → T how a) (hn : ¬ panics → ∀ x ∈ hist, x.1.NoCatch ∧ ∀ q, Resolves I W [] x.1 q → ∀ vis, (q.trace [] vis).ctl = .returned) : ∀ b recs paths st n, J [] n st → Idle b recs paths →
    (∃ a, b.useRootsL env hist st n = .stuck a ∧ WaitsAt W hist a) ∨ ∃ hist' b' st' n', ResolvesEach I W hist hist' ∧ (∀ vis, (traceRoots hist' vis).leaked = 0) ∧
      b.useRootsL env hist st n = .ended b' st' n' .returned ∧ b.useRoots hist' = .ok b' ∧ st.SameHeld st' ∧ J [] n' st' := by
  induction hist with
  | nil => intro b recs paths st n hj h; exact .inr ⟨[], b, st, n, .nil, fun _ => rfl, rfl, rfl, .refl _, hj⟩
  | cons x hist ih =>
    intro b recs paths st n hj h
    obtain ⟨p, f⟩ := x
    obtain ⟨hc, hf⟩ := hh (p, f) (by simp)
    have hroot : b.rootVisitor = .ok { b with enteredRootVisitor := true } := by
      simp only [Builder.rootVisitor, h.notEntered, Bool.false_eq_true, if_false]
    have hx : (∃ a, execL Builder.visitorImpl env p .root { b with enteredRootVisitor := true } st n = .stuck a ∧ WaitsAt W ((p, f) :: hist) a) ∨ ∃ q, Resolves I W [] p q ∧
        match execL Builder.visitorImpl env p .root { b with enteredRootVisitor := true } st n with
        | .stuck _ => False
        | .failed e => exec Builder.visitorImpl q .root { b with enteredRootVisitor := true } = .error e
        | .ended s' st' n' ctl => exec Builder.visitorImpl q .root { b with enteredRootVisitor := true } = .ok (s', ctl) ∧ st.SameHeld st' ∧
          ((ctl = .unwinding → panics) → J [] n' st') := by
      have h := execL_good Builder.visitorImpl env he hM p (hT (p, f) (by simp)) (fun hp => (hn hp (p, f) (by simp)).1) [] .root { b with enteredRootVisitor := true } st n hj
      revert h
      generalize execL Builder.visitorImpl env p .root { b with enteredRootVisitor := true } st n = x
      intro h
      cases x with
      | failed e => exact .inr h
      | stuck a => exact .inl ⟨a, rfl, ⟨_, List.mem_cons_self, h.1⟩, h.2⟩
      | ended s' st' n' ctl => exact .inr h
    rcases hx with ⟨a, hx, hw⟩ | ⟨q, hq, hx⟩
    · exact .inl ⟨a, by simp only [Builder.useRootsL, Builder.useRootL, hroot, hx], hw⟩
    have hqc := hq.closes hc
    have hleak : ∀ vis, (q.trace [] vis).leaked = 0 := fun vis => closes_noLeak q [] vis hqc
    have hleak' : ∀ ctl, f.leaks ctl = 0 := by intro ctl; rcases hf with rfl | rfl <;> cases ctl <;> rfl
    obtain ⟨b1, paths1, e1, h1, hv1⟩ := h.useRoot (prog := q) (fate := f) (hleak _) (hleak' _)
    -- the run with locks follows the run of the resolved program
    have hL : ∃ st1 n1 ctl, b.useRootL env p f st n = .ended b1 st1 n1 ctl ∧ st.SameHeld st1 ∧ J [] n1 st1 := by
      simp only [Builder.useRoot, hroot] at e1
      simp only [Builder.useRootL, hroot]
      revert hx
      generalize execL Builder.visitorImpl env p .root { b with enteredRootVisitor := true } st n = y
      intro hx
      cases y with
      | failed e => simp only at hx; rw [hx] at e1; cases e1
      | stuck a => exact hx.elim
      | ended s' st' n' ctl =>
        simp only at hx
        rw [hx.1] at e1
        simp only at e1 ⊢
        split at e1
        · cases e1
        · rename_i s2 e2
          simp only [Except.ok.injEq, Prod.mk.injEq] at e1
          rw [e2]
          refine ⟨st', n', ctl, by simp only [e1.1], hx.2.1, hx.2.2 fun hu => Classical.byContradiction fun hp => ?_⟩
          have := (hn hp (p, f) (by simp)).2 q hq b.visitedShared
          rw [← e1.2, hu] at this
          cases this
    obtain ⟨st1, n1, ctl, e2, hs, hj1⟩ := hL
    rcases ih (fun x hx => hh x (by simp [hx])) (fun x hx => hT x (by simp [hx])) (fun hp x hx => hn hp x (by simp [hx])) b1 _ _ st1 n1 hj1 h1 with ⟨a, hx', ⟨x, hxm, hxw⟩, hw⟩ | ⟨hist', b2, st2, n2, hr, hl, e3, e4, hs', hj2⟩
    · exact .inl ⟨a, by simp only [Builder.useRootsL, e2, hx'], ⟨x, by simp [hxm], hxw⟩, hw⟩
    refine .inr ⟨(q, f) :: hist', b2, st2, n2, .cons hq hr, ?_, ?_, ?_, hs.trans hs', hj2⟩
    · intro vis; simp only [traceRoots, hleak, hleak', hl]
    · simp only [Builder.useRootsL, e2, e3]
    · simp only [Builder.useRoots, e1, e4]

theorem useRootsL_idle {panics : Prop} {T : Access → Ptr → Prop} {I : List Hold → Store → Prop} {W : Ptr → Prop} {J : List Hold → Nat → Store → Prop} (env : Env) (he : env.Respectful) (hM : Moments panics env T I W J)
    (hist : List (LProg × Fate)) (hh : ∀ x ∈ hist, x.1.NeverWaits ∧ x.1.Closes ∧ (x.2 = .exit ∨ x.2 = .drop))
    (hT : ∀ x ∈ hist, ∀ how a, x.1.Takes how a → T how a) (hn : ¬ panics → ∀ x ∈ hist, x.1.NoCatch ∧ ∀ q, Resolves I W [] x.1 q → ∀ vis, (q.trace [] vis).ctl = .returned) (b recs paths st n) (hj : J [] n st) (h : Idle b recs paths) :
    ∃ hist' b' st' n', ResolvesEach I W hist hist' ∧ (∀ vis, (traceRoots hist' vis).leaked = 0) ∧
      b.useRootsL env hist st n = .ended b' st' n' .returned ∧ b.useRoots hist' = .ok b' ∧ st.SameHeld st' ∧ J [] n' st' := by
  rcases useRootsL_waits env he hM hist (fun x hx => (hh x hx).2) hT hn b recs paths st n hj h with ⟨a, -, ⟨x, hx, hw⟩, -⟩ | h
  · exact (hw.not_neverWaits (hh x hx).1).elim
  · exact h

theorem ResolvesEach.mono {I : List Hold → Store → Prop} {W W' : Ptr → Prop} {l : List (LProg × Fate)} {l' : List (Prog × Fate)} (h : ResolvesEach I W l l') :
    (∀ x ∈ l, ∀ a, x.1.WaitsFor a → W a → W' a) → ResolvesEach I W' l l' := by
  induction h with
  | nil => exact fun _ => .nil
  | cons h _ ih => exact fun hn => .cons (h.mono (hn _ List.mem_cons_self)) (ih fun x hx => hn x (List.mem_cons_of_mem _ hx))

theorem ResolvesEach.noWaits {I : List Hold → Store → Prop} {W W' : Ptr → Prop} {l : List (LProg × Fate)} {l' : List (Prog × Fate)} (h : ResolvesEach I W l l')
    (hn : ∀ x ∈ l, x.1.NeverWaits) : ResolvesEach I W' l l' := h.mono fun x hx _ hw _ => (hw.not_neverWaits (hn x hx)).elim

/-- C31, builder.  A history of root visits of data with locks, in any state of the locks and under any interference: nothing waits, nothing in
the builder panics, all locks taken by the visits have been released, and the builder is that of a history without locks
(to which C01-C19 apply), where at each lock the contents are either visited or left out, each for a reason that was there at some moment during the history.
With `panics = False` (if no visit panics) those are moments before which no visit has poisoned anything. -/
theorem C31_history (panics : Prop) (env : Env) (he : env.Respectful) (hist : List (LProg × Fate))
    (hh : ∀ x ∈ hist, x.1.NeverWaits ∧ x.1.Closes ∧ (x.2 = .exit ∨ x.2 = .drop)) (hp : ¬ panics → ∀ x ∈ hist, x.1.NoCatch ∧ x.1.NoPanic) (st : Store) (n : Nat) :
    ∃ hist' b st' n', ResolvesEach (env.Occurs panics st n) (fun _ => False) hist hist' ∧ NoLeaks hist' ∧ Builder.default.useRootsL env hist st n = .ended b st' n' .returned ∧
      Builder.default.useRoots hist' = .ok b ∧ st.SameHeld st' ∧ env.Occurs panics st n [] st' := by
  obtain ⟨hist', b, st', n', h1, h2, h3, h4, h5, h6⟩ := useRootsL_idle env he (.timeline panics env (fun _ _ => True) st n) hist hh (fun _ _ _ _ _ => trivial)
    (fun h x hx => ⟨(hp h x hx).1, fun q hq vis => hq.returns (hp h x hx).2 _ _⟩) _ _ _ st n Moments.start Idle.default
  exact ⟨hist', b, st', n', h1.noWaits fun x hx => (hh x hx).1, h2 [], h3, h4, h5, n', h6.1⟩

/-- C31, nobody else runs and the visit does not panic: every lock and counter is as before, and the contents of a lock are visited
exactly if it grants access (`resolveIn`). -/
theorem C31_restored (impl : VisitorImpl σ) (p : LProg) (hp : p.NoPanic) (hw : p.NeverWaits) (kind : NodeKind) (s : σ) (st : Store) (n : Nat) :
    (∃ e, execL impl .quiet p kind s st n = .failed e ∧ exec impl (p.resolveIn st) kind s = .error e) ∨
    (∃ s' n', execL impl .quiet p kind s st n = .ended s' st n' .returned ∧ exec impl (p.resolveIn st) kind s = .ok (s', .returned)) :=
  execL_quiet impl p hp kind s st n hw.available

/-- C31, nobody else runs but visits may panic: the only change is that mutexes may have become poisoned. -/
theorem C31_only_poison (impl : VisitorImpl σ) (p : LProg) (kind : NodeKind) (s : σ) (st : Store) (n : Nat) (s' st' n' ctl)
    (h : execL impl .quiet p kind s st n = .ended s' st' n' ctl) : st.SameButPoison st' := by
  have := execL_poison impl p kind s st n
  rw [h] at this
  exact this

/-- C31, which states of a lock or cell give access to the contents. -/
theorem C31_access (s : LockState) :
    (Access.granted s .stdTryLock = true ↔ s.othersExclusive = false ∧ s.heldExclusive = false ∧ s.othersShared = 0 ∧ s.heldShared = 0 ∧
      s.refuses = false ∧ s.poisoned = false) ∧
    (Access.granted s .tryLock = true ↔ s.othersExclusive = false ∧ s.heldExclusive = false ∧ s.othersShared = 0 ∧ s.heldShared = 0 ∧
      s.refuses = false) ∧
    (Access.granted s .stdTryRead = true ↔ s.othersExclusive = false ∧ s.heldExclusive = false ∧ s.refuses = false ∧ s.poisoned = false) ∧
    (Access.granted s .tryRead = true ↔ s.othersExclusive = false ∧ s.heldExclusive = false ∧ s.refuses = false) ∧
    (Access.granted s .get = true ↔ s.init = true) := by
  obtain ⟨a, b, c, d, e, f, g⟩ := s
  refine ⟨?_, ?_, ?_, ?_, ?_⟩ <;> simp [Access.granted, LockState.free, LockState.readable] <;> grind

/-- C31, the implementations for locks and cells.  If access is granted, the value and the field `data` with the contents; otherwise the value only.
(`Impl.cell` is the implementation used by C32 and C48.) -/
theorem C31_cell (how : Access) (a : Ptr) (self : Ty) (v : Value) (content : Ptr → Prog) (st : Store) :
    (LImpl.cell how a self v.sizeOfVal (v.visit.visitWith content).lift).resolveIn st =
      (Impl.cell self (if how.granted (st.lock a) then some v else none)).visit.visitWith content := by
  simp only [LImpl.cell, LProg.resolveIn, lift_resolveIn]
  split <;> simp [Impl.cell, Impl.sized, Visit.enterSelfSized, Visit.enter, Visit.field, Visit.fieldWith, Obj.visitWith, Ending.fate, Prog.seq]

theorem visitWith_noCatch {content : Ptr → Prog} (h : ∀ p, (content p).lift.NoCatch) (o : Obj) : (o.visitWith content).lift.NoCatch := by
  induction o with
  | nil => trivial
  | inline k n e i r ih1 ih2 => exact ⟨ih1, ih2⟩
  | unique k n e i r ih1 ih2 => exact ⟨ih1, ih2⟩
  | shared k n p e r ih => exact ⟨h p, ih, ih⟩

theorem lift_resolves {I : List Hold → Store → Prop} {W : Ptr → Prop} {hs : List Hold} (q : Prog) : ∀ q', Resolves I W hs q.lift q' → q' = q := by
  induction q with
  | done => intro q' h; cases h; rfl
  | panic => intro q' h; cases h; rfl
  | enter k n f b r ih1 ih2 => intro q' h; cases h with | enter _ _ _ h1 h2 => rw [ih1 _ h1, ih2 _ h2]
  | enterUnique k n f b r ih1 ih2 => intro q' h; cases h with | enterUnique _ _ _ h1 h2 => rw [ih1 _ h1, ih2 _ h2]
  | enterShared k n p f b r q ih1 ih2 ih3 => intro q' h; cases h with | enterShared _ _ _ _ h1 h2 h3 => rw [ih1 _ h1, ih2 _ h2, ih3 _ h3]
  | catchUnwind b r ih1 ih2 => intro q' h; cases h with | catchUnwind h1 h2 => rw [ih1 _ h1, ih2 _ h2]

/-- C31, a lock or cell whose contents other threads replace meanwhile (`vals x` is the value in it when memory has `x`): the visit is that of a cell
which is not accessible, and then it was not at some moment at which the visit itself had taken nothing; or that of a cell with a value in it that was there at some moment at which
the visit had access to it. -/
theorem C31_cell_concurrent (panics : Prop) (impl : VisitorImpl σ) (env : Env) (he : env.Respectful) (how : Access) (hh : how ≠ .read) (a addr : Ptr) (self : Ty)
    (size : Nat) (vals : Nat → Value) (hv : ∀ x, (vals x).sizeOfVal = size) (content : Ptr → Prog) (hcc : ¬ panics → ∀ p, (content p).lift.NoCatch) (kind : NodeKind) (s : σ) (st : Store) (n : Nat) :
    ∃ v, ((v = none ∧ ∃ st', env.Occurs panics st n [] st' ∧ how.granted (st'.lock a) = false) ∨ ∃ st', env.Occurs panics st n [.lock how a] st' ∧ v = some (vals (st'.mem addr))) ∧
      match execL impl env (LImpl.cell how a self size (.load addr fun x => ((vals x).visit.visitWith content).lift)) kind s st n with
      | .stuck _ => False
      | .failed e => exec impl ((Impl.cell self v).visit.visitWith content) kind s = .error e
      | .ended s' st' _ ctl => exec impl ((Impl.cell self v).visit.visitWith content) kind s = .ok (s', ctl) ∧ st.SameHeld st' := by
  have hw : (LImpl.cell how a self size (.load addr fun x => ((vals x).visit.visitWith content).lift)).NeverWaits := by
    refine ⟨⟨?_, ⟨fun x => lift_neverWaits _, trivial⟩, trivial⟩, trivial⟩
    cases how <;> first | rfl | exact absurd rfl hh
  obtain ⟨q, hq, h⟩ := C31_never_waits panics impl env he (LImpl.cell how a self size (.load addr fun x => ((vals x).visit.visitWith content).lift))
    (fun hp => ⟨⟨⟨fun x => visitWith_noCatch (hcc hp) _, trivial⟩, trivial⟩, trivial⟩) hw kind s st n
  have : ∃ v, ((v = none ∧ ∃ st', env.Occurs panics st n [] st' ∧ how.granted (st'.lock a) = false) ∨ ∃ st', env.Occurs panics st n [.lock how a] st' ∧ v = some (vals (st'.mem addr))) ∧ q = (Impl.cell self v).visit.visitWith content := by
    cases hq with
    | enter _ _ _ h1 h2 =>
      cases h2
      cases h1 with
      | visited _ _ _ _ h1 h2 =>
        cases h2
        cases h1 with
        | enter _ _ _ h1 h2 =>
          cases h2
          cases h1 with
          | read _ _ ho h1 =>
            rw [lift_resolves _ _ h1]
            refine ⟨some (vals _), .inr ⟨_, ho, rfl⟩, ?_⟩
            simp [Impl.cell, Impl.sized, Visit.enterSelfSized, Visit.enter, Visit.field, Visit.fieldWith, Obj.visitWith, Ending.fate, Prog.seq, hv]
      | skipped _ _ _ ho hg _ h1 =>
        cases h1
        exact ⟨none, .inl ⟨rfl, _, ho, hg⟩, by simp [Impl.cell, Impl.sized, Visit.enterSelfSized, Visit.enter, Obj.visitWith, Ending.fate]⟩
  obtain ⟨v, hv', rfl⟩ := this
  exact ⟨v, hv', h⟩

/-- C31, once_cell's cells. -/
theorem C31_once_cell (a : Ptr) (self : Ty) (v : Value) (content : Ptr → Prog) (st : Store) :
    (LImpl.onceCell a self (v.visit.visitWith content).lift).resolveIn st =
      (Impl.onceCell self (if (st.lock a).init then some v else none)).visit.visitWith content := by
  have seq_done : ∀ p : Prog, p.seq .done = p := by
    intro p; induction p <;> simp_all [Prog.seq]
  simp only [LImpl.onceCell, LProg.resolveIn, lift_resolveIn, Access.granted]
  split <;> simp [Impl.onceCell, Impl.sized, Visit.enterSelfSized, Visit.enter, Obj.visitWith, Ending.fate, Prog.seq, seq_done]

/-- C31, `Arc` and `Rc` around locks: the same entry as without locks, and the contents are visited with the visitor of the shared pointer. -/
theorem C31_arc (self : Ty) (ptrSize : Nat) (p : Ptr) (inner : LProg) (st : Store) :
    (LImpl.arc self ptrSize p inner).resolveIn st = (Impl.arc self ptrSize p).visit.visitWith fun _ => inner.resolveIn st := by
  simp [LImpl.arc, LProg.resolveIn, Impl.arc, Impl.sized, Visit.enterSelfSized, Visit.enter, Obj.visitWith, Ending.fate]

-- two pointers to one mutex: its contents are counted once
example : (records [((LImpl.arc ⟨ascii "A", 8, true⟩ 8 7 (LImpl.cell .tryLock 7 ⟨ascii "M", 24, true⟩ 16 .done)).resolveIn
      ⟨fun _ => ⟨false, 0, false, false, true, false, 0⟩, fun _ => ⟨1, 0, 0⟩, fun _ => 0⟩, .exit),
    ((LImpl.arc ⟨ascii "A", 8, true⟩ 8 7 (LImpl.cell .tryLock 7 ⟨ascii "M", 24, true⟩ 16 .done)).resolveIn
      ⟨fun _ => ⟨false, 0, false, false, true, false, 0⟩, fun _ => ⟨1, 0, 0⟩, fun _ => 0⟩, .exit)]).map (fun r => r.size) = [8, 8, 24, 16, 8, 8] := by
  decide +kernel

/-- C31, all of these are visits that never wait, and they do not panic unless the contents do. -/
theorem C31_impls_never_wait (a : Ptr) (self : Ty) (size : Nat) (content : LProg) (h : content.NeverWaits) (hc : content.Closes) :
    (∀ how : Access, how ≠ .read → (LImpl.cell how a self size content).NeverWaits ∧ (LImpl.cell how a self size content).Closes) ∧
    (LImpl.onceCell a self content).NeverWaits ∧ (LImpl.onceCell a self content).Closes ∧
    (LImpl.weak a self content).NeverWaits ∧ (LImpl.weak a self content).Closes ∧
    (LImpl.arc self size a content).NeverWaits ∧ (LImpl.arc self size a content).Closes := by
  refine ⟨fun how hh => ?_, ?_, ?_, ?_, ?_, ?_, ?_⟩ <;>
    simp_all [LImpl.cell, LImpl.onceCell, LImpl.weak, LImpl.arc, LProg.NeverWaits, LProg.Closes, Access.blocking]

/-- C31, re-entrance.  A lock that is reached again while the visit has it locked: only its own size, no deadlock. -/
theorem C31_reentrant (how how' : Access) (hx : how = .stdTryLock ∨ how = .tryLock) (hy : how' ≠ .read ∧ how' ≠ .get) (a : Ptr)
    (self self' : Ty) (n n' : Nat) (content : LProg) (st : Store) (hg : how.granted (st.lock a) = true) :
    (LImpl.cell how a self n (LImpl.cell how' a self' n' content)).resolveIn st =
      .enter self.key self.size .exit
        (.enter dataName n .exit (.enter self'.key self'.size .exit .done .done) .done) .done := by
  have h2 : how'.granted (how.acquire (st.lock a)) = false := by
    rcases hx with rfl | rfl <;> cases how' <;> simp_all [Access.granted, Access.acquire, LockState.free, LockState.readable]
  simp only [LImpl.cell, LProg.resolveIn, hg, if_true, setAt_same, h2]
  simp [Prog.seq]

/-- C31, hazard: a panic of the contents of a `std::sync::Mutex` that is being visited poisons it (a read lock it does not). -/
theorem C31_panic_poisons (self : Ty) (n : Nat) (a : Ptr) (st : Store) (hg : Access.granted (st.lock a) .stdTryLock = true) (t : Nat) :
    ∃ s' st' t', execL SizeOf.visitorImpl .quiet (LImpl.cell .stdTryLock a self n .panic) .root 0 st t = .ended s' st' t' .unwinding ∧
      (st'.lock a).poisoned = true ∧ Access.granted (st'.lock a) .stdTryLock = false := by
  refine ⟨0, ⟨setAt (setAt st.lock a (Access.acquire (st.lock a) .stdTryLock)) a
    (Access.release (setAt st.lock a (Access.acquire (st.lock a) .stdTryLock) a) .stdTryLock .unwinding), st.count, st.mem⟩, t + 2, ?_, ?_, ?_⟩
  · simp only [LImpl.cell, execL, call_granted (env := Env.quiet) (n := t) (st := st) hg, Env.quiet, hg, if_true, SizeOf.visitorImpl, LResult.thenFinish, LResult.thenRelease,
      VisitorImpl.finishChild, VisitorImpl.drop, VisitorImpl.exitImpl]
  · simp [setAt_same, Access.release]
  · simp [setAt_same, Access.release, Access.granted]

namespace Ex
/-- Everything free. -/
def lock0 : LockState := ⟨false, 0, false, false, true, false, 0⟩
/-- A store with a free lock 1, a lock 2 taken by somebody else, a lock 3 poisoned, and cell 9 alive through one reference. -/
def store : Store where
  lock := fun a => if a = 2 then { lock0 with othersExclusive := true } else if a = 3 then { lock0 with poisoned := true } else lock0
  count := fun p => if p = 9 then ⟨1, 0, 0⟩ else ⟨0, 0, 0⟩
  mem := fun a => a % 5
def T : Ty := ⟨ascii "T", 16, true⟩
def M : Ty := ⟨ascii "M", 24, true⟩
def content : LProg := .enter T.key 16 .exit .done .done
/-- Four locks one after the other, one of them nested in itself, and two weak pointers. -/
def locks : LProg :=
  .enter (k "S") 200 .drop
    (.enter (k "a") 24 .exit (LImpl.cell .stdTryLock 1 M 16 (LImpl.cell .tryRead 1 M 16 content))
      (.enter (k "b") 24 .exit (LImpl.cell .tryLock 2 M 16 content)
        (.enter (k "c") 24 .exit (LImpl.cell .stdTryRead 3 M 16 content)
          (.enter (k "d") 24 .exit (LImpl.cell .tryRead 3 M 16 content)
            (.enter (k "w") 8 .exit (LImpl.weak 9 M (LImpl.arc T 8 9 content))
              (.enter (k "x") 8 .exit (LImpl.weak 10 M (LImpl.arc T 8 10 content)) .done)))))) .done

example : locks.NeverWaits ∧ locks.NoPanic ∧ locks.Closes := by
  simp [locks, LProg.NeverWaits, LProg.NoPanic, LProg.Closes, LImpl.cell, LImpl.weak, LImpl.arc, content, Access.blocking]

example : (records [(locks.resolveIn store, .exit)]).map (fun r => (r.path.names.map (fun s => s.length), r.size)) =
    [([1], 200), ([1, 1], 24), ([1, 1, 1], 24), ([1, 1, 1, 4], 16), ([1, 1, 1, 4, 1], 24),
      ([1, 1], 24), ([1, 1, 1], 24), ([1, 1], 24), ([1, 1, 1], 24),
      ([1, 1], 24), ([1, 1, 1], 24), ([1, 1, 1, 4], 16), ([1, 1, 1, 4, 1], 16),
      ([1, 1], 8), ([1, 1, 1], 24), ([1, 1, 1, 1], 16), ([1, 1, 1, 1, 3], 8), ([1], 16),
      ([1, 1], 8), ([1, 1, 1], 24)] := by decide +kernel

/-- Another thread that keeps locking and unlocking everything. -/
def busy : Env := fun n st =>
  { lock := fun a => { st.lock a with othersExclusive := n % 2 == 1 }, count := fun p => { st.count p with others := n % 3 },
    mem := fun a => n + a }

example : busy.Respectful := fun _ _ => ⟨fun _ => ⟨rfl, rfl⟩, fun _ => ⟨rfl, rfl⟩⟩
end Ex

/-! ### C44 -/

/-- C44. A `Weak` whose target is gone records the value itself and nothing else. -/
theorem C44_weak_gone (a : Ptr) (self : Ty) (strong : LProg) (st : Store) (cur : Path) (vis : List Ptr) (h : (st.count a).alive = false) :
    let t := ((LImpl.weak a self strong).resolveIn st).trace cur vis
    t.recs = [⟨cur ++ [self.key], self.size, false⟩] ∧ t.visited = vis ∧ t.ctl = .returned := by
  intro t
  simp only [t, LImpl.weak, LProg.resolveIn, h, Bool.false_eq_true, if_false, Prog.trace]
  simp

/-- C44. A `Weak` whose target is alive records the value itself and, one level deeper, what the `Arc` (or `Rc`) for the same target records. -/
theorem C44_weak_alive (a : Ptr) (self strong : Ty) (ptrSize : Nat) (p : Ptr) (content : Ptr → Prog) (st : Store) (cur : Path) (vis : List Ptr)
    (h : (st.count a).alive = true) :
    let arc := (Impl.arc strong ptrSize p).visit.visitWith content
    let t := ((LImpl.weak a self arc.lift).resolveIn st).trace cur vis
    let t' := arc.trace (cur ++ [self.key]) vis
    t.recs = ⟨cur ++ [self.key], self.size, false⟩ :: t'.recs ∧ t.visited = t'.visited ∧ t.ctl = t'.ctl := by
  intro arc t t'
  have seq_done : ∀ p : Prog, p.seq .done = p := by
    intro p; induction p <;> simp_all [Prog.seq]
  simp only [t, t', LImpl.weak, LProg.resolveIn, h, if_true, lift_resolveIn, seq_done, Prog.trace]
  generalize arc.trace (cur ++ [self.key]) vis = x
  obtain ⟨r, v, c, l⟩ := x
  cases c <;> simp

/-- C44. The model of `Weak` used for object graphs (C08, C32) is what remains of it in each state of the strong count. -/
theorem C44_weak_value (a : Ptr) (self strong : Ty) (ptrSize : Nat) (p : Ptr) (content : Ptr → Prog) (st : Store) :
    (LImpl.weak a self ((Impl.arc strong ptrSize p).visit.visitWith content).lift).resolveIn st =
      (Impl.weak self (if (st.count a).alive then some (Impl.arc strong ptrSize p) else none)).visit.visitWith content := by
  have seq_done : ∀ p : Prog, p.seq .done = p := by
    intro p; induction p <;> simp_all [Prog.seq]
  simp only [LImpl.weak, LProg.resolveIn, lift_resolveIn, seq_done]
  split <;> simp [Impl.weak, Impl.sized, Visit.enterSelfSized, Visit.enter, Obj.visitWith, Ending.fate]

/-- C44. Cells reached through weak pointers only are counted like any other: once if the target is alive, never through dead ones. -/
theorem C44_counted_once (heap : Heap) (roots : List Obj) (self strong : Ty) (ptrSize : Nat) (p : Ptr)
    (hroot : (Impl.weak self (some (Impl.arc strong ptrSize p))).visit ∈ roots)
    (L : List Ptr) (hn : L.Nodup) (hL : ∀ p, p ∈ L ↔ Reachable heap roots p) (fuel : Nat) (hf : L.length ≤ fuel) :
    p ∈ L ∧ (records (visits heap fuel roots)).Perm (roots.flatMap (fun o => o.own []) ++ L.flatMap fun p => (heap p).own []) ∧
    ∀ dead : Ty, (Impl.weak dead none).visit.ptrs = [] := by
  refine ⟨(hL p).2 (.root hroot ?_), (C08_counted_once_iff_reachable heap roots L hn hL fuel hf).2, fun dead => rfl⟩
  simp [Impl.weak, Impl.arc, Impl.sized, Visit.enterSelfSized, Visit.enter, Obj.ptrs]

example : ∃ (heap : Heap) (roots : List Obj), (Impl.weak Ex.M (some (Impl.arc Ex.T 8 9))).visit ∈ roots ∧
    ∀ p, p ∈ [9] ↔ Reachable heap roots p := by
  refine ⟨fun _ => .inline (Ex.k "x") 24 .exit .nil .nil, [(Impl.weak Ex.M (some (Impl.arc Ex.T 8 9))).visit, (Impl.weak Ex.M none).visit,
    (Impl.weak Ex.M (some (Impl.arc Ex.T 8 9))).visit], by simp, fun p => ⟨?_, ?_⟩⟩
  · intro h
    simp only [List.mem_singleton] at h
    subst h
    exact .root (o := (Impl.weak Ex.M (some (Impl.arc Ex.T 8 9))).visit) (by simp) (by decide)
  · intro h
    induction h with
    | root ho hp =>
      simp only [List.mem_cons, List.not_mem_nil, or_false] at ho
      rcases ho with rfl | rfl | rfl
      · simpa [Impl.weak, Impl.arc, Impl.sized, Visit.enterSelfSized, Visit.enter, Obj.ptrs] using hp
      · simp [Impl.weak, Impl.sized, Visit.enterSelfSized, Visit.enter, Obj.ptrs] at hp
      · simpa [Impl.weak, Impl.arc, Impl.sized, Visit.enterSelfSized, Visit.enter, Obj.ptrs] using hp
    | step _ hp _ => simp [Obj.ptrs] at hp

/-- C44. Without interference no strong count changes and no destructor runs, even if the visit panics. -/
theorem C44_counts_restored (impl : VisitorImpl σ) (p : LProg) (kind : NodeKind) (s : σ) (st : Store) (n : Nat) (s' st' n' ctl)
    (h : execL impl .quiet p kind s st n = .ended s' st' n' ctl) (q : Ptr) : st'.count q = st.count q :=
  (C31_only_poison impl p kind s st n s' st' n' ctl h).2.1 q

/-- C44, hazard: if another thread drops the last other reference during the visit, the destructor runs in the visit. -/
theorem C44_last_reference : ∃ (env : Env) (p : LProg) (st : Store), env.Respectful ∧ p.NeverWaits ∧
    ∃ s' st' n', execL SizeOf.visitorImpl env p .root 0 st 0 = .ended s' st' n' .returned ∧ (st'.count 9).destroyed = 1 := by
  let env : Env := fun n st => if n = 1 then { st with count := fun q => { st.count q with others := 0 } } else st
  refine ⟨env, LImpl.weak 9 Ex.M .done, Ex.store, ?_, ?_, ?_⟩
  · intro n st
    simp only [env]
    split <;> exact ⟨fun _ => ⟨rfl, rfl⟩, fun _ => ⟨rfl, rfl⟩⟩
  · simp [LImpl.weak, LProg.NeverWaits]
  · exact ⟨_, _, _, rfl, rfl⟩

/-! ### C51 -/

theorem sumShards_stuck [Target] (impl : VisitorImpl σ) (env : Env) (num : LImpl.Shard → LImpl.Number) (next : Nat → LProg) (x : LImpl.Shard) (N : Nat)
    (hx : ∀ n st, N ≤ n → ((env n st).lock x.lock).othersExclusive = true) (kind : NodeKind) (l : List LImpl.Shard) :
    x ∈ l → ∀ acc s st n, N ≤ n → ∃ a, execL impl env (LImpl.sumShards num next acc l) kind s st n = .stuck a := by
  have hagain : ∀ n st k, N ≤ n → ((env.looksAgain n st k).lock x.lock).othersExclusive = true := by
    intro n st k hn
    cases k with
    | zero => exact hx _ _ hn
    | succ k => exact hx _ _ (by omega)
  induction l with
  | nil => intro h; cases h
  | cons y l ih =>
    intro h acc s st n hn
    simp only [LImpl.sumShards, execL]
    cases hc : Access.read.call env y.lock n st with
    | none => exact ⟨_, rfl⟩
    | some z =>
      obtain ⟨st1, n1⟩ := z
      obtain ⟨k, rfl, rfl, hg, -, -⟩ := call_returns hc
      have hg := hg rfl
      simp only []
      rcases List.mem_cons.1 h with rfl | h
      · simp [Access.granted, LockState.readable, hagain _ _ _ hn] at hg
      · rw [if_pos hg]
        simp only [LResult.thenRelease, execL]
        exact ih h _ _ _ _ (by omega)

/-- C51. If from some time on the lock of a shard is held exclusively (by another thread that does not let go, or by the caller itself: `get_mut`,
`entry`), whatever else happens, a visit of the `DashMap` or `DashSet` that begins then does not return, and it does not panic either: it waits for ever (unless the visitor
itself panics). -/
theorem C51_dashmap_waits [Target] (impl : VisitorImpl σ) (env : Env) (self : Ty) (entrySize : Nat) (l : List LImpl.Shard) (x : LImpl.Shard) (h : x ∈ l)
    (kind : NodeKind) (s : σ) (st : Store) (n : Nat) (hx : ∀ m st, n ≤ m → ((env m st).lock x.lock).othersExclusive = true) (p : LProg)
    (hp : p = LImpl.dashMap self entrySize l ∨ p = LImpl.dashSet self entrySize l) :
    (∃ e, execL impl env p kind s st n = .failed e) ∨ (∃ a, execL impl env p kind s st n = .stuck a) := by
  rcases hp with rfl | rfl <;>
  · simp only [LImpl.dashMap, LImpl.dashSet, LImpl.dashBody, execL]
    split
    · exact .inl ⟨_, rfl⟩
    · split
      · exact .inl ⟨_, rfl⟩
      · obtain ⟨a, ha⟩ := sumShards_stuck impl env LImpl.Shard.capacity _ x n hx .unique l h 0 _ st n (Nat.le_refl _)
        rw [ha]
        exact .inr ⟨a, rfl⟩

/-- C51, any visitor and any visit. Whatever other threads do, a visit waits for ever only for a lock for which it has a waiting call and which, from some moment
during the visit on, is exclusively held at every look, by others or by the visit itself. -/
theorem C51_waits_only_if_held (panics : Prop) (impl : VisitorImpl σ) (env : Env) (he : env.Respectful) (p : LProg) (hc : ¬ panics → p.NoCatch)
    (kind : NodeKind) (s : σ) (st : Store) (n : Nat) (a : Ptr) (h : execL impl env p kind s st n = .stuck a) :
    p.WaitsFor a ∧ env.HeldForEver panics (fun how b => p.Takes how b) st n a := by
  have := execL_good impl env he (.timeline panics env (fun how b => p.Takes how b) st n) p (fun _ _ h => h) hc [] kind s st n Moments.start
  rw [h] at this
  exact this

theorem exclusive_of_held {panics : Prop} {env : Env} (he : env.Respectful) {st st' : Store} {n m : Nat} {hs : List Hold} (h : Timeline panics env st n hs m st') (a : Ptr) :
    (st'.lock a).heldExclusive = true → (st.lock a).heldExclusive = true ∨ ∃ how : Access, how.exclusive = true ∧ .lock how a ∈ hs := by
  induction h with
  | start => exact .inl
  | others _ ih => intro h; rw [((he _ _).1 a).1] at h; exact ih h
  | acquire how b _ hg ih =>
    intro h
    by_cases e : a = b
    · subst e
      simp only [setAt_same] at h
      cases how
      · exact .inr ⟨_, rfl, List.mem_cons_self⟩
      · exact (ih h).imp id fun ⟨how, h1, h2⟩ => ⟨how, h1, List.mem_cons_of_mem _ h2⟩
      · exact .inr ⟨_, rfl, List.mem_cons_self⟩
      all_goals exact (ih h).imp id fun ⟨how, h1, h2⟩ => ⟨how, h1, List.mem_cons_of_mem _ h2⟩
    · simp only [setAt, if_neg e] at h
      exact (ih h).imp id fun ⟨how, h1, h2⟩ => ⟨how, h1, List.mem_cons_of_mem _ h2⟩
  | release how b ctl _ _ ih =>
    intro h
    by_cases e : a = b
    · subst e
      simp only [setAt_same] at h
      cases how <;> cases ctl <;> simp only [Access.release, Bool.false_eq_true] at h <;>
      · refine (ih h).imp id fun ⟨how, h1, h2⟩ => ⟨how, h1, ?_⟩
        rcases List.mem_cons.1 h2 with h2 | h2
        · cases h2; cases h1
        · exact h2
    · simp only [setAt, if_neg e] at h
      refine (ih h).imp id fun ⟨how, h1, h2⟩ => ⟨how, h1, ?_⟩
      rcases List.mem_cons.1 h2 with h2 | h2
      · cases h2; exact (e rfl).elim
      · exact h2
  | upgrade p _ _ ih => exact fun h => (ih h).imp id fun ⟨how, h1, h2⟩ => ⟨how, h1, List.mem_cons_of_mem _ h2⟩
  | drop p _ ih =>
    intro h
    refine (ih h).imp id fun ⟨how, h1, h2⟩ => ⟨how, h1, ?_⟩
    rcases List.mem_cons.1 h2 with h2 | h2
    · cases h2
    · exact h2

theorem Timeline.again {panics : Prop} {env : Env} {st st' : Store} {n m : Nat} {hs : List Hold} (h : Timeline panics env st n hs m st') : ∀ k, Timeline panics env st n hs (m + k + 1) (env.looksAgain m st' k)
  | 0 => h.others
  | k + 1 => (h.again k).others

/-- C51. If the visit does not itself have the lock exclusively, then it is others who do not let go. -/
theorem C51_held_by_others (panics : Prop) (env : Env) (he : env.Respectful) (takes : Access → Ptr → Prop) (st : Store) (n : Nat) (a : Ptr)
    (hst : (st.lock a).heldExclusive = false) (ht : ∀ how, takes how a → how.exclusive = false) (h : env.HeldForEver panics takes st n a) :
    ∃ hs m st', Timeline panics env st n hs m st' ∧ ∀ k, ((env.looksAgain m st' k).lock a).othersExclusive = true := by
  obtain ⟨hs, m, st', hT, hs', hk⟩ := h
  refine ⟨hs, m, st', hT, fun k => ?_⟩
  rcases hk k with h | h
  · exact h
  · rcases exclusive_of_held he (hT.again k) a h with h | ⟨how, h1, h2⟩
    · rw [hst] at h; cases h
    · rw [ht how (hs' _ _ h2)] at h1; cases h1

/-- C51, any visitor and any visit. If, at whatever moment of the visit, others do not hold exclusively for ever from then on any of the locks for which the visit has a waiting call, and the
visit itself takes none of these exclusively, then it does not wait for ever: it amounts to a visit without locks in which what is behind these locks is visited. -/
theorem C51_returns (panics : Prop) (impl : VisitorImpl σ) (env : Env) (he : env.Respectful) (p : LProg) (hc : ¬ panics → p.NoCatch)
    (kind : NodeKind) (s : σ) (st : Store) (n : Nat)
    (hst : ∀ a, p.WaitsFor a → (st.lock a).heldExclusive = false ∧ ∀ how, p.Takes how a → how.exclusive = false)
    (hgo : ∀ a, p.WaitsFor a → ∀ hs m st', Timeline panics env st n hs m st' → ∃ k, ((env.looksAgain m st' k).lock a).othersExclusive = false) :
    ∃ q, Resolves (env.Occurs panics st n) (fun _ => False) [] p q ∧
      match execL impl env p kind s st n with
      | .stuck _ => False
      | .failed e => exec impl q kind s = .error e
      | .ended s' st' _ ctl => exec impl q kind s = .ok (s', ctl) ∧ st.SameHeld st' := by
  have hno : ∀ a, p.WaitsFor a → ¬ env.HeldForEver panics (fun how b => p.Takes how b) st n a := by
    intro a hw hf
    obtain ⟨hs, m, st', hT, hk⟩ := C51_held_by_others panics env he _ st n a (hst a hw).1 (hst a hw).2 hf
    obtain ⟨k, h⟩ := hgo a hw hs m st' hT
    rw [hk k] at h
    cases h
  have h := execL_good impl env he (.timeline panics env (fun how b => p.Takes how b) st n) p (fun _ _ h => h) hc [] kind s st n Moments.start
  revert h
  generalize execL impl env p kind s st n = x
  intro h
  cases x with
  | failed e => obtain ⟨q, h1, h2⟩ := h; exact ⟨q, h1.mono hno, h2⟩
  | stuck a => exact (hno a h.1 h.2).elim
  | ended s' st' n' ctl => obtain ⟨q, h1, h2, h3, _⟩ := h; exact ⟨q, h1.mono hno, h2, h3⟩

/-- C51, builder. A history of root visits of data with locks that may be waited for, under any interference: either one of them waits for ever, at a lock for which it has a
waiting call and which from some moment on is exclusively held at every look; or all end, as if nothing could wait (C31): nothing in the builder panics, all locks taken have been
released, and the builder is that of a history without locks, in which what is behind a lock that is waited for is visited, unless the lock is held for ever in this sense. -/
theorem C51_history (panics : Prop) (env : Env) (he : env.Respectful) (hist : List (LProg × Fate))
    (hh : ∀ x ∈ hist, x.1.Closes ∧ (x.2 = .exit ∨ x.2 = .drop)) (hp : ¬ panics → ∀ x ∈ hist, x.1.NoCatch ∧ x.1.NoPanic) (st : Store) (n : Nat) :
    (∃ a, Builder.default.useRootsL env hist st n = .stuck a ∧ (∃ x ∈ hist, x.1.WaitsFor a) ∧ env.HeldForEver panics (fun how b => ∃ x ∈ hist, x.1.Takes how b) st n a) ∨
    ∃ hist' b st' n', ResolvesEach (env.Occurs panics st n) (env.HeldForEver panics (fun how b => ∃ x ∈ hist, x.1.Takes how b) st n) hist hist' ∧ NoLeaks hist' ∧
      Builder.default.useRootsL env hist st n = .ended b st' n' .returned ∧ Builder.default.useRoots hist' = .ok b ∧ st.SameHeld st' ∧ env.Occurs panics st n [] st' := by
  rcases useRootsL_waits env he (.timeline panics env (fun how b => ∃ x ∈ hist, x.1.Takes how b) st n) hist hh (fun x hx _ _ h => ⟨x, hx, h⟩)
    (fun h x hx => ⟨(hp h x hx).1, fun q hq vis => hq.returns (hp h x hx).2 _ _⟩) _ _ _ st n Moments.start Idle.default with h | ⟨hist', b, st', n', h1, h2, h3, h4, h5, h6⟩
  · exact .inl h
  · exact .inr ⟨hist', b, st', n', h1, h2 [], h3, h4, h5, n', h6.1⟩

/-- C51, builder. If, at whatever moment, others do not hold exclusively for ever from then on any of the locks that are waited for, and the visits take none of these
exclusively, the whole history ends, with what is behind these locks. -/
theorem C51_history_returns (panics : Prop) (env : Env) (he : env.Respectful) (hist : List (LProg × Fate))
    (hh : ∀ x ∈ hist, x.1.Closes ∧ (x.2 = .exit ∨ x.2 = .drop)) (hp : ¬ panics → ∀ x ∈ hist, x.1.NoCatch ∧ x.1.NoPanic) (st : Store) (n : Nat)
    (hst : ∀ x ∈ hist, ∀ a, x.1.WaitsFor a → (st.lock a).heldExclusive = false ∧ ∀ y ∈ hist, ∀ how, y.1.Takes how a → how.exclusive = false)
    (hgo : ∀ x ∈ hist, ∀ a, x.1.WaitsFor a → ∀ hs m st', Timeline panics env st n hs m st' → ∃ k, ((env.looksAgain m st' k).lock a).othersExclusive = false) :
    ∃ hist' b st' n', ResolvesEach (env.Occurs panics st n) (fun _ => False) hist hist' ∧ NoLeaks hist' ∧ Builder.default.useRootsL env hist st n = .ended b st' n' .returned ∧
      Builder.default.useRoots hist' = .ok b ∧ st.SameHeld st' ∧ env.Occurs panics st n [] st' := by
  have hno : ∀ x ∈ hist, ∀ a, x.1.WaitsFor a → ¬ env.HeldForEver panics (fun how b => ∃ x ∈ hist, x.1.Takes how b) st n a := by
    intro x hx a hw hf
    obtain ⟨hs, m, st', hT, hk⟩ := C51_held_by_others panics env he _ st n a (hst x hx a hw).1 (fun how ⟨y, hy, h⟩ => (hst x hx a hw).2 y hy how h) hf
    obtain ⟨k, h⟩ := hgo x hx a hw hs m st' hT
    rw [hk k] at h
    cases h
  rcases C51_history panics env he hist hh hp st n with ⟨a, -, ⟨x, hx, hw⟩, h⟩ | ⟨hist', b, st', n', h1, h2⟩
  · exact (hno x hx a hw h).elim
  · exact ⟨hist', b, st', n', h1.mono hno, h2⟩

/-! Nobody else runs: the visit of a `DashMap` is the one used by C32, C48 and C52. -/

/-- Sum of numbers in memory, on `usize`. -/
def memSum [Target] (st : Store) (nums : List LImpl.Number) : Nat := (nums.map fun x => x.get st).foldl Usize.add 0

theorem sumShards_quiet [Target] (st : Store) (num : LImpl.Shard → LImpl.Number) (next : Nat → LProg) (l : List LImpl.Shard)
    (hr : ∀ x ∈ l, (st.lock x.lock).readable = true) : ∀ acc,
    (LImpl.sumShards num next acc l).resolveIn st = (next ((l.map fun x => (num x).get st).foldl Usize.add acc)).resolveIn st ∧
    ((next ((l.map fun x => (num x).get st).foldl Usize.add acc)).AvailableIn st → (LImpl.sumShards num next acc l).AvailableIn st) ∧
    ((∀ x, (next x).NoPanic) → (LImpl.sumShards num next acc l).NoPanic) := by
  induction l with
  | nil => exact fun acc => ⟨rfl, id, fun h => h _⟩
  | cons x l ih =>
    intro acc
    have hg : Access.granted (st.lock x.lock) .read = true := hr x (by simp)
    obtain ⟨i1, i2, i3⟩ := ih (fun x hx => hr x (by simp [hx])) (Usize.add acc ((num x).get st))
    refine ⟨?_, ?_, ?_⟩
    · simp only [LImpl.sumShards, LProg.resolveIn, hg, if_true, Prog.seq, List.map_cons, List.foldl_cons]
      exact i1
    · intro h
      simp only [LImpl.sumShards, LProg.AvailableIn, hg, if_true]
      exact ⟨trivial, i2 h⟩
    · intro h
      exact ⟨trivial, fun y => (ih (fun x hx => hr x (by simp [hx])) (Usize.add acc ((num x).decode y))).2.2 h⟩

theorem prog_seq_assoc (a b c : Prog) : (a.seq b).seq c = a.seq (b.seq c) := by
  induction a <;> simp_all [Prog.seq]

theorem prog_seq_done (a : Prog) : a.seq .done = a := by
  induction a <;> simp_all [Prog.seq]

theorem seq_resolveIn (p q : LProg) : ∀ st, (p.seq q).resolveIn st = (p.resolveIn st).seq (q.resolveIn st) := by
  induction p with
  | done => intro st; rfl
  | panic => intro st; rfl
  | enter k n f b r _ ih => intro st; simp only [LProg.seq, LProg.resolveIn, Prog.seq, ih]
  | enterUnique k n f b r _ ih => intro st; simp only [LProg.seq, LProg.resolveIn, Prog.seq, ih]
  | enterShared k n p f b r q _ ih1 ih2 => intro st; simp only [LProg.seq, LProg.resolveIn, Prog.seq, ih1, ih2]
  | catchUnwind b r _ ih => intro st; simp only [LProg.seq, LProg.resolveIn, Prog.seq, ih]
  | access how a i r _ ih =>
    intro st
    simp only [LProg.seq, LProg.resolveIn, ih]
    split
    · rw [prog_seq_assoc]
    · rfl
  | upgrade p i r _ ih =>
    intro st
    simp only [LProg.seq, LProg.resolveIn, ih]
    split
    · rw [prog_seq_assoc]
    · rfl
  | load a next ih => intro st; simp only [LProg.seq, LProg.resolveIn, ih]

theorem seq_available {p q : LProg} : ∀ {st}, p.AvailableIn st → q.AvailableIn st → (p.seq q).AvailableIn st := by
  induction p with
  | done => exact fun _ h => h
  | panic => exact fun _ _ => trivial
  | enter k n f b r _ ih => exact fun h h' => ⟨h.1, ih h.2 h'⟩
  | enterUnique k n f b r _ ih => exact fun h h' => ⟨h.1, ih h.2 h'⟩
  | enterShared k n p f b r q _ ih1 ih2 => exact fun h h' => ⟨h.1, ih1 h.2.1 h', ih2 h.2.2 h'⟩
  | catchUnwind b r _ ih => exact fun h h' => ⟨h.1, ih h.2 h'⟩
  | access how a i r _ ih =>
    intro st h h'
    simp only [LProg.seq, LProg.AvailableIn] at h ⊢
    split at h
    · rename_i hg; rw [if_pos hg]; exact ⟨h.1, ih h.2 h'⟩
    · rename_i hg; rw [if_neg hg]; exact ⟨h.1, ih h.2 h'⟩
  | upgrade p i r _ ih =>
    intro st h h'
    simp only [LProg.seq, LProg.AvailableIn] at h ⊢
    split at h
    · rename_i hg; rw [if_pos hg]; exact ⟨h.1, ih h.2 h'⟩
    · rename_i hg; rw [if_neg hg]; exact ih h h'
  | load a next ih => exact fun h h' => ih _ h h'

theorem seq_noPanic {p q : LProg} : p.NoPanic → q.NoPanic → (p.seq q).NoPanic := by
  induction p with
  | done => exact fun _ h => h
  | panic => exact fun h _ => h
  | enter k n f b r _ ih => exact fun h h' => ⟨h.1, ih h.2 h'⟩
  | enterUnique k n f b r _ ih => exact fun h h' => ⟨h.1, ih h.2 h'⟩
  | enterShared k n p f b r q _ ih1 ih2 => exact fun h h' => ⟨h.1, ih1 h.2.1 h', ih2 h.2.2 h'⟩
  | catchUnwind b r _ ih => exact fun h h' => ⟨h.1, ih h.2 h'⟩
  | access how a i r _ ih => exact fun h h' => ⟨h.1, ih h.2 h'⟩
  | upgrade p i r _ ih => exact fun h h' => ⟨h.1, ih h.2 h'⟩
  | load a next ih => exact fun h h' x => ih x (h x) h'

/-- What is done before a shard is given back records nothing. -/
theorem ahead_resolveIn (l : List LImpl.Shard) (st : Store) : (LImpl.ahead l).resolveIn st = .done := by
  cases l with
  | nil => rfl
  | cons x l => simp only [LImpl.ahead, LProg.resolveIn]; split <;> rfl

theorem ahead_noPanic (l : List LImpl.Shard) : (LImpl.ahead l).NoPanic := by cases l <;> simp [LImpl.ahead, LProg.NoPanic]

theorem ahead_available {l : List LImpl.Shard} {st : Store} (h : ∀ x ∈ l, (st.lock x.lock).readable = true) : (LImpl.ahead l).AvailableIn st := by
  cases l with
  | nil => trivial
  | cons x l =>
    have : Access.granted (st.lock x.lock) .read = true := h x (by simp)
    simp only [LImpl.ahead, LProg.AvailableIn, this, if_true, and_self]

theorem readable_acquire {st : Store} {a b : Ptr} (h : (st.lock b).readable = true) : (setAt st.lock a (Access.acquire (st.lock a) .read) b).readable = true := by
  by_cases e : b = a
  · subst e; rw [setAt_same]; exact h
  · simp only [setAt, if_neg e]; exact h

theorem shards_quiet (st : Store) (rest : LProg) (hrest : rest.AvailableIn st ∧ rest.NoPanic) (l : List (LImpl.Shard × Prog))
    (hr : ∀ x ∈ l, (st.lock x.1.lock).readable = true) (hp : ∀ x ∈ l, x.1.entries = x.2.lift ∧ x.2.lift.NoPanic) :
    (LImpl.shards (l.map Prod.fst) rest).resolveIn st = l.foldr (fun x r => x.2.seq r) (rest.resolveIn st) ∧
    (LImpl.shards (l.map Prod.fst) rest).AvailableIn st ∧ (LImpl.shards (l.map Prod.fst) rest).NoPanic := by
  induction l with
  | nil => exact ⟨rfl, hrest.1, hrest.2⟩
  | cons x l ih =>
    obtain ⟨i1, i2, i3⟩ := ih (fun x hx => hr x (by simp [hx])) (fun x hx => hp x (by simp [hx]))
    have hg : Access.granted (st.lock x.1.lock) .read = true := hr x (by simp)
    obtain ⟨he, hnp⟩ := hp x (by simp)
    refine ⟨?_, ?_, ?_⟩
    · simp only [List.map_cons, LImpl.shards, LProg.resolveIn, hg, if_true, he, seq_resolveIn, ahead_resolveIn, prog_seq_done, lift_resolveIn, i1, List.foldr_cons]
    · simp only [List.map_cons, LImpl.shards, LProg.AvailableIn, hg, if_true, he]
      refine ⟨seq_available (lift_neverWaits _).available (ahead_available fun y hy => ?_), i2⟩
      obtain ⟨z, hz, rfl⟩ := List.mem_map.1 hy
      exact readable_acquire (hr z (by simp [hz]))
    · rw [List.map_cons, LImpl.shards, he]
      exact ⟨seq_noPanic hnp (ahead_noPanic _), i3⟩

theorem visitWith_append (content : Ptr → Prog) (a b : Obj) : (a.append b).visitWith content = (a.visitWith content).seq (b.visitWith content) := by
  induction a with
  | nil => rfl
  | inline k n e inside rest _ ih => simp only [Obj.append, Obj.visitWith, Prog.seq, ih]
  | unique k n e inside rest _ ih => simp only [Obj.append, Obj.visitWith, Prog.seq, ih]
  | shared k n p e rest ih => simp only [Obj.append, Obj.visitWith, Prog.seq, ih]

theorem append_assoc_obj (a b c : Obj) : (a.append b).append c = a.append (b.append c) := by
  induction a <;> simp_all [Obj.append]

theorem foldr_seq_visitWith {α : Type} (content : Ptr → Prog) (f : α → Obj) (l : List (LImpl.Shard × List α)) (rest : Obj) :
    (l.map fun x => (x.1, (Obj.concat (x.2.map f)).visitWith content)).foldr (fun x r => x.2.seq r) (rest.visitWith content) =
      ((Obj.concat ((l.flatMap Prod.snd).map f)).append rest).visitWith content := by
  induction l with
  | nil => rfl
  | cons x l ih =>
    rw [List.map_cons, List.foldr_cons, ih, ← visitWith_append, ← append_assoc_obj]
    congr 2
    rw [List.flatMap_cons, List.map_append]
    generalize List.map f x.2 = a
    generalize List.map f _ = b
    induction a with
    | nil => rfl
    | cons y a ih => rw [List.cons_append, Obj.concat, Obj.concat, append_assoc_obj, ih]

theorem visitWith_noPanic (content : Ptr → Prog) (hc : ∀ p, (content p).lift.NoPanic) (o : Obj) : (o.visitWith content).lift.NoPanic := by
  induction o with
  | nil => trivial
  | inline k n e inside rest ih1 ih2 => exact ⟨ih1, ih2⟩
  | unique k n e inside rest ih1 ih2 => exact ⟨ih1, ih2⟩
  | shared k n p e rest ih => exact ⟨hc p, ih, ih⟩

theorem dashBody_quiet [Target] {α : Type} (f : α → Obj) (entrySize : Nat) (l : List (LImpl.Shard × List α)) (content : Ptr → Prog)
    (hc : ∀ p, (content p).lift.NoPanic) (he : ∀ x ∈ l, x.1.entries = ((Obj.concat (x.2.map f)).visitWith content).lift)
    (st : Store) (hr : ∀ x ∈ l, (st.lock x.1.lock).othersExclusive = false ∧ (st.lock x.1.lock).heldExclusive = false) :
    let capacity := memSum st (l.map fun x => x.1.capacity)
    (LImpl.dashBody entrySize (l.map Prod.fst)).resolveIn st =
      (Visit.enter capacityName (Usize.mul capacity entrySize) .exit
        ((Obj.concat ((l.flatMap Prod.snd).map f)).append (Visit.simple unusedCapacityName
          (Usize.mul (Usize.saturatingSub capacity (memSum st (l.map fun x => x.1.len))) entrySize)))).visitWith content ∧
    (LImpl.dashBody entrySize (l.map Prod.fst)).AvailableIn st ∧ (LImpl.dashBody entrySize (l.map Prod.fst)).NoPanic := by
  intro capacity
  have hrd : ∀ x ∈ l.map Prod.fst, (st.lock x.lock).readable = true := by
    intro x hx
    obtain ⟨y, hy, rfl⟩ := List.mem_map.1 hx
    simp [LockState.readable, hr y hy]
  have hsum : ∀ num : LImpl.Shard → LImpl.Number, ((l.map Prod.fst).map fun x => (num x).get st).foldl Usize.add 0 =
      memSum st (l.map fun x => num x.1) := by
    intro num; simp [memSum, List.map_map, Function.comp_def]
  have h1 := fun next => sumShards_quiet st LImpl.Shard.capacity next _ hrd 0
  have h2 := fun next => sumShards_quiet st LImpl.Shard.len next _ hrd 0
  simp only [hsum] at h1 h2
  let leaf := fun capacity' len => LProg.enter unusedCapacityName (Usize.mul (Usize.saturatingSub capacity' len) entrySize) .exit .done .done
  let tail := LImpl.sumShards LImpl.Shard.capacity (fun capacity' => LImpl.sumShards LImpl.Shard.len (leaf capacity') 0 (l.map Prod.fst)) 0 (l.map Prod.fst)
  have ht1 : tail.resolveIn st = (Visit.simple unusedCapacityName
      (Usize.mul (Usize.saturatingSub capacity (memSum st (l.map fun x => x.1.len))) entrySize)).visitWith content := by
    simp only [tail, (h1 _).1, (h2 _).1]; rfl
  have ht2 : tail.AvailableIn st := (h1 _).2.1 ((h2 (leaf _)).2.1 ⟨trivial, trivial⟩)
  have ht3 : tail.NoPanic := (h1 _).2.2 fun c => (h2 (leaf c)).2.2 fun _ => ⟨trivial, trivial⟩
  let l' := l.map fun x => (x.1, (Obj.concat (x.2.map f)).visitWith content)
  have hl' : l'.map Prod.fst = l.map Prod.fst := by simp [l']
  have hsh := shards_quiet st tail ⟨ht2, ht3⟩ l'
    (by intro x hx; obtain ⟨y, hy, rfl⟩ := List.mem_map.1 hx; exact hrd _ (List.mem_map.2 ⟨y, hy, rfl⟩))
    (by intro x hx; obtain ⟨y, hy, rfl⟩ := List.mem_map.1 hx; exact ⟨he y hy, visitWith_noPanic content hc _⟩)
  rw [hl', ht1, foldr_seq_visitWith] at hsh
  let next := fun capacity : Nat => LProg.enter capacityName (Usize.mul capacity entrySize) .exit (LImpl.shards (l.map Prod.fst) tail) .done
  have hb : LImpl.dashBody entrySize (l.map Prod.fst) = LImpl.sumShards LImpl.Shard.capacity next 0 (l.map Prod.fst) := rfl
  rw [hb]
  refine ⟨?_, (h1 next).2.1 ⟨hsh.2.1, trivial⟩, (h1 next).2.2 fun _ => ⟨hsh.2.2, trivial⟩⟩
  rw [(h1 next).1]
  simp only [next, LProg.resolveIn, hsh.1]
  rfl

/-- The visit of an entry of a `DashMap`: key and value. -/
def mapEntry (e : Value × Value) : Obj := (Visit.field keyName e.1).append (Visit.field valueName e.2)

/-- C51. Nobody else runs, and no shard is locked exclusively: the visit returns, every lock is as before, and it is the visit of C32, C48 and C52
(`Impl.dashMap`) for the entries of all shards, in which capacity and length are the sums over the shards. -/
theorem C51_dashmap_value [Target] (impl : VisitorImpl σ) (self KV : Ty) (l : List (LImpl.Shard × List (Value × Value))) (content : Ptr → Prog)
    (hc : ∀ p, (content p).lift.NoPanic) (he : ∀ x ∈ l, x.1.entries = ((Obj.concat (x.2.map mapEntry)).visitWith content).lift)
    (st : Store) (hr : ∀ x ∈ l, (st.lock x.1.lock).othersExclusive = false ∧ (st.lock x.1.lock).heldExclusive = false)
    (kind : NodeKind) (s : σ) (n : Nat) :
    let p := LImpl.dashMap self KV.size (l.map Prod.fst)
    let capacity := memSum st (l.map fun x => x.1.capacity)
    let q := (Impl.dashMap self KV capacity (l.flatMap Prod.snd) capacity (memSum st (l.map fun x => x.1.len))).visit.visitWith content
    (∃ e, execL impl .quiet p kind s st n = .failed e ∧ exec impl q kind s = .error e) ∨
    (∃ s' n', execL impl .quiet p kind s st n = .ended s' st n' .returned ∧ exec impl q kind s = .ok (s', .returned)) := by
  intro p capacity q
  obtain ⟨h1, h2, h3⟩ := dashBody_quiet mapEntry KV.size l content hc he st hr
  have hp : p = .enter self.key self.size .exit (.enterUnique ptrName ptrBytes .exit (LImpl.dashBody KV.size (l.map Prod.fst)) .done) .done := rfl
  have := execL_quiet impl p ⟨⟨h3, trivial⟩, trivial⟩ kind s st n ⟨⟨h2, trivial⟩, trivial⟩
  rw [show p.resolveIn st = q by rw [hp]; simp only [LProg.resolveIn, h1]; rfl] at this
  exact this

/-- C51. The same for `DashSet`. -/
theorem C51_dashset_value [Target] (impl : VisitorImpl σ) (self T : Ty) (l : List (LImpl.Shard × List Value)) (content : Ptr → Prog)
    (hc : ∀ p, (content p).lift.NoPanic)
    (he : ∀ x ∈ l, x.1.entries = ((Obj.concat (x.2.map fun v => Visit.field dataName v)).visitWith content).lift)
    (st : Store) (hr : ∀ x ∈ l, (st.lock x.1.lock).othersExclusive = false ∧ (st.lock x.1.lock).heldExclusive = false)
    (kind : NodeKind) (s : σ) (n : Nat) :
    let p := LImpl.dashSet self T.size (l.map Prod.fst)
    let capacity := memSum st (l.map fun x => x.1.capacity)
    let q := (Impl.dashSet self T capacity (l.flatMap Prod.snd) capacity (memSum st (l.map fun x => x.1.len))).visit.visitWith content
    (∃ e, execL impl .quiet p kind s st n = .failed e ∧ exec impl q kind s = .error e) ∨
    (∃ s' n', execL impl .quiet p kind s st n = .ended s' st n' .returned ∧ exec impl q kind s = .ok (s', .returned)) := by
  intro p capacity q
  obtain ⟨h1, h2, h3⟩ := dashBody_quiet (fun v => Visit.field dataName v) T.size l content hc he st hr
  have hp : p = .enter self.key self.size .drop (.enterUnique ptrName ptrBytes .drop (LImpl.dashBody T.size (l.map Prod.fst)) .done) .done := rfl
  have := execL_quiet impl p ⟨⟨h3, trivial⟩, trivial⟩ kind s st n ⟨⟨h2, trivial⟩, trivial⟩
  rw [show p.resolveIn st = q by rw [hp]; simp only [LProg.resolveIn, h1]; rfl] at this
  exact this

/-! Other threads run: each number is read at some moment, and the entries of a shard while its read lock is held. -/

/-- A number for each shard. -/
inductive PerShard (P : LImpl.Shard → Nat → Prop) : List LImpl.Shard → List Nat → Prop
  | nil : PerShard P [] []
  | cons {x n l l'} : P x n → PerShard P l l' → PerShard P (x :: l) (n :: l')

theorem sumShards_run [Target] {impl : VisitorImpl σ} {env : Env} {T : Access → Ptr → Prop} {I : List Hold → Store → Prop} {W : Ptr → Prop} {J : List Hold → Nat → Store → Prop}
    (hM : Moments True env T I W J) (hT : ∀ how a, T how a)
    (num : LImpl.Shard → LImpl.Number) (next : Nat → LProg) (kind : NodeKind) {s s' : σ} {st' : Store} {n' : Nat} {ctl : Ctl} (l : List LImpl.Shard) :
    ∀ acc st n, J [] n st → execL impl env (LImpl.sumShards num next acc l) kind s st n = .ended s' st' n' ctl →
      ∃ xs st1 n1, PerShard (fun x v => ∃ st, I [] st ∧ (num x).get st = v) l xs ∧ J [] n1 st1 ∧
        execL impl env (next (xs.foldl Usize.add acc)) kind s st1 n1 = .ended s' st' n' ctl := by
  induction l with
  | nil => intro acc st n hj h; exact ⟨[], st, n, .nil, hj, h⟩
  | cons x l ih =>
    intro acc st n hj h
    simp only [LImpl.sumShards, execL] at h
    cases hcall : Access.read.call env x.lock n st with
    | none => rw [hcall] at h; cases h
    | some z =>
      obtain ⟨st0, n0⟩ := z
      rw [hcall] at h
      obtain ⟨k, rfl, rfl, hg, -, -⟩ := call_returns hcall
      have hg := hg rfl
      simp only [if_pos hg, LResult.thenRelease] at h
      have hj2 := hM.others (hM.release .read x.lock .returned (hM.others (hM.acquire .read x.lock (hT _ _) (hM.again hj k) hg)) (by simp))
      obtain ⟨xs, st1, n1, h1, h2, h3⟩ := ih _ _ _ hj2 h
      exact ⟨_ :: xs, st1, n1, .cons ⟨_, hM.mem hj2, rfl⟩ h1, h2, h3⟩

theorem concat_append (a b : List Obj) : Obj.concat (a ++ b) = (Obj.concat a).append (Obj.concat b) := by
  induction a with
  | nil => rfl
  | cons x a ih => rw [List.cons_append, Obj.concat, Obj.concat, append_assoc_obj, ih]

theorem noPanic_returned {impl : VisitorImpl σ} {q : Prog} (hq : q.lift.NoPanic) {kind : NodeKind} {s s' : σ} {ctl : Ctl} (h : exec impl q kind s = .ok (s', ctl)) : ctl = .returned := by
  rcases execL_quiet impl q.lift hq kind s ⟨fun _ => ⟨false, 0, false, false, true, false, 0⟩, fun _ => ⟨1, 0, 0⟩, fun _ => 0⟩ 0
    (lift_neverWaits _).available with ⟨e, -, h2⟩ | ⟨s', n', -, h2⟩
  · rw [lift_resolveIn, h] at h2; cases h2
  · rw [lift_resolveIn, h] at h2; cases h2; rfl

theorem ahead_resolves {I : List Hold → Store → Prop} {W : Ptr → Prop} {hs : List Hold} (l : List LImpl.Shard) {q : Prog} (h : Resolves I W hs (LImpl.ahead l) q) : q = .done := by
  cases l with
  | nil => cases h; rfl
  | cons x l =>
    cases h with
    | visited _ _ _ _ h1 h2 => cases h1; cases h2; rfl
    | skipped _ _ _ _ _ _ h => cases h; rfl

theorem resolves_seq_done {I : List Hold → Store → Prop} {W : Ptr → Prop} {b : LProg} (hb : ∀ hs q, Resolves I W hs b q → q = .done) (p : LProg) :
    ∀ {hs q}, Resolves I W hs (p.seq b) q → Resolves I W hs p q := by
  induction p with
  | done => intro hs q h; rw [hb _ _ h]; exact .done
  | panic => exact fun h => h
  | enter k n f c r _ ih => intro hs q h; cases h with | enter _ _ _ h1 h2 => exact .enter _ _ _ h1 (ih h2)
  | enterUnique k n f c r _ ih => intro hs q h; cases h with | enterUnique _ _ _ h1 h2 => exact .enterUnique _ _ _ h1 (ih h2)
  | enterShared k n p f c r q _ ih1 ih2 => intro hs q h; cases h with | enterShared _ _ _ _ h1 h2 h3 => exact .enterShared _ _ _ _ h1 (ih1 h2) (ih2 h3)
  | catchUnwind c r _ ih => intro hs q h; cases h with | catchUnwind h1 h2 => exact .catchUnwind h1 (ih h2)
  | access how a i r _ ih =>
    intro hs q h
    cases h with
    | visited _ _ ho hg h1 h2 => exact .visited _ _ ho hg h1 (ih h2)
    | skipped _ _ _ ho hg hw h => exact .skipped _ _ _ ho hg hw (ih h)
  | upgrade p i r _ ih =>
    intro hs q h
    cases h with
    | alive _ ho hg h1 h2 => exact .alive _ ho hg h1 (ih h2)
    | dead _ _ ho hg h => exact .dead _ _ ho hg (ih h)
  | load a next ih => intro hs q h; cases h with | read _ _ ho h => exact .read _ _ ho (ih _ h)

theorem takes_seq {how : Access} {a : Ptr} {b : LProg} (p : LProg) : (p.seq b).Takes how a → p.Takes how a ∨ b.Takes how a := by
  induction p with
  | done => exact .inr
  | panic => exact .inl
  | enter k n f c r _ ih => intro h; cases h with | enterBody _ _ _ _ _ h => exact .inl (.enterBody _ _ _ _ _ h) | enterRest _ _ _ _ _ h => exact (ih h).imp (.enterRest _ _ _ _ _) id
  | enterUnique k n f c r _ ih => intro h; cases h with | uniqueBody _ _ _ _ _ h => exact .inl (.uniqueBody _ _ _ _ _ h) | uniqueRest _ _ _ _ _ h => exact (ih h).imp (.uniqueRest _ _ _ _ _) id
  | enterShared k n p f c r q _ ih1 ih2 =>
    intro h
    cases h with
    | sharedBody _ _ _ _ _ _ _ h => exact .inl (.sharedBody _ _ _ _ _ _ _ h)
    | sharedSome _ _ _ _ _ _ _ h => exact (ih1 h).imp (.sharedSome _ _ _ _ _ _ _) id
    | sharedNone _ _ _ _ _ _ _ h => exact (ih2 h).imp (.sharedNone _ _ _ _ _ _ _) id
  | catchUnwind c r _ ih => intro h; cases h with | catchBody _ _ h => exact .inl (.catchBody _ _ h) | catchRest _ _ h => exact (ih h).imp (.catchRest _ _) id
  | access how' a' i r _ ih =>
    intro h
    cases h with
    | here _ _ => exact .inl (.here _ _)
    | inside _ _ _ _ h => exact .inl (.inside _ _ _ _ h)
    | after _ _ _ _ h => exact (ih h).imp (.after _ _ _ _) id
  | upgrade p i r _ ih => intro h; cases h with | upgraded _ _ _ h => exact .inl (.upgraded _ _ _ h) | afterUpgrade _ _ _ h => exact (ih h).imp (.afterUpgrade _ _ _) id
  | load a' next ih => intro h; cases h with | loaded _ _ x h => exact (ih x h).imp (.loaded _ _ x) id

theorem takes_ahead {how : Access} {a : Ptr} {l : List LImpl.Shard} (h : (LImpl.ahead l).Takes how a) : how = .read ∧ ∃ x ∈ l, x.lock = a := by
  cases l with
  | nil => cases h
  | cons x l =>
    cases h with
    | here _ _ => exact ⟨rfl, x, by simp, rfl⟩
    | inside _ _ _ _ h => cases h
    | after _ _ _ _ h => cases h

theorem shards_run {α : Type} {impl : VisitorImpl σ} {env : Env} (he : env.Respectful) {T : Access → Ptr → Prop} {I : List Hold → Store → Prop} {W : Ptr → Prop}
    {J : List Hold → Nat → Store → Prop} (hM : Moments True env T I W J) (hT : ∀ how a, T how a) (addr : LImpl.Shard → Ptr) (items : LImpl.Shard → Nat → List α) (f : α → Obj) (content : Ptr → Prog)
    (hc : ∀ p, (content p).lift.NoPanic) (rest : LProg) (kind : NodeKind) {s' : σ} {st' : Store} {n' : Nat} {ctl : Ctl} (l : List LImpl.Shard)
    (hl : ∀ x ∈ l, x.entries = .load (addr x) fun w => ((Obj.concat ((items x w).map f)).visitWith content).lift) :
    ∀ s st n, J [] n st → execL impl env (LImpl.shards l rest) kind s st n = .ended s' st' n' ctl →
      ∃ ws s1 st1 n1, PerShard (fun x w => ∃ st, I [.lock .read x.lock] st ∧ st.mem (addr x) = w) l ws ∧ J [] n1 st1 ∧
        exec impl ((Obj.concat (((l.zip ws).flatMap fun x => items x.1 x.2).map f)).visitWith content) kind s = .ok (s1, .returned) ∧
        execL impl env rest kind s1 st1 n1 = .ended s' st' n' ctl := by
  induction l with
  | nil => intro s st n hj h; exact ⟨[], s, st, n, .nil, hj, rfl, h⟩
  | cons x l ih =>
    intro s st n hj h
    simp only [LImpl.shards, execL] at h
    cases hcall : Access.read.call env x.lock n st with
    | none => rw [hcall] at h; cases h
    | some z =>
      obtain ⟨st0, n0⟩ := z
      rw [hcall] at h
      obtain ⟨k, rfl, rfl, hg, -, -⟩ := call_returns hcall
      have hg := hg rfl
      simp only [if_pos hg] at h
      have hgood := execL_good impl env he hM (x.entries.seq (LImpl.ahead l)) (fun _ _ _ => hT _ _) (fun h => (h trivial).elim) [.lock .read x.lock] kind s
        { env.looksAgain n st k with lock := setAt (env.looksAgain n st k).lock x.lock (Access.acquire ((env.looksAgain n st k).lock x.lock) .read) } (n + k + 1)
        (hM.acquire .read x.lock (hT _ _) (hM.again hj k) hg)
      revert h hgood
      generalize execL impl env (x.entries.seq (LImpl.ahead l)) kind s _ (n + k + 1) = y
      intro h hgood
      cases y with
      | failed e => cases h
      | stuck a => cases h
      | ended s2 st2 n2 ctl2 =>
        obtain ⟨q, hq, hex, -, hj2⟩ := hgood
        have hq := resolves_seq_done (fun _ _ h => ahead_resolves l h) _ hq
        rw [hl x (by simp)] at hq
        cases hq with
        | read _ _ hI hq =>
          rename_i stw
          have hq := lift_resolves _ _ hq
          have hctl : ctl2 = .returned := by
            rw [hq] at hex
            exact noPanic_returned (visitWith_noPanic content hc _) hex
          subst hctl
          simp only [LResult.thenRelease] at h
          obtain ⟨ws, s1, st1, n1, h1, h2, h3, h4⟩ := ih (fun y hy => hl y (by simp [hy])) _ _ _
            (hM.release .read x.lock .returned (hM.others (hj2 (by simp))) (by simp)) h
          refine ⟨stw.mem (addr x) :: ws, s1, st1, n1, .cons ⟨stw, hI, rfl⟩ h1, h2, ?_, h4⟩
          rw [List.zip_cons_cons, List.flatMap_cons, List.map_append, concat_append, visitWith_append, exec_seq, ← hq, hex]
          exact h3

theorem enter_run {impl : VisitorImpl σ} {env : Env} {k : Key} {sz : Nat} {f : Fate} {b : LProg} {kind : NodeKind} {s s' : σ} {st st' : Store} {n n' : Nat} {ctl : Ctl}
    (h : execL impl env (.enter k sz f b .done) kind s st n = .ended s' st' n' ctl) :
    ∃ s1 s2, execL impl env b .inline s1 st n = .ended s2 st' n' ctl ∧
      ∀ b', exec impl b' .inline s1 = .ok (s2, ctl) → exec impl (.enter k sz f b' .done) kind s = .ok (s', ctl) := by
  simp only [execL] at h
  simp only [exec]
  split at h
  · cases h
  · rename_i s1 e1
    revert h
    cases hx : execL impl env b .inline s1 st n with
    | failed e => intro h; cases h
    | stuck a => intro h; cases h
    | ended s2 st2 n2 ctl2 =>
      simp only [LResult.thenFinish]
      intro h
      cases hf : impl.finishChild .inline f ctl2 s2 with
      | error e => rw [hf] at h; cases h
      | ok s3 =>
        rw [hf] at h
        have : s3 = s' ∧ st2 = st' ∧ n2 = n' ∧ ctl2 = ctl := by
          cases ctl2 <;> (simp only [LResult.ended.injEq] at h; exact h)
        obtain ⟨rfl, rfl, rfl, rfl⟩ := this
        refine ⟨s1, s2, hx, fun b' hb => ?_⟩
        simp only [e1, hb]
        simp only [hf]
        cases ctl2 <;> rfl

theorem enterUnique_run {impl : VisitorImpl σ} {env : Env} {k : Key} {sz : Nat} {f : Fate} {b : LProg} {kind : NodeKind} {s s' : σ} {st st' : Store} {n n' : Nat} {ctl : Ctl}
    (h : execL impl env (.enterUnique k sz f b .done) kind s st n = .ended s' st' n' ctl) :
    ∃ s1 s2, execL impl env b .unique s1 st n = .ended s2 st' n' ctl ∧
      ∀ b', exec impl b' .unique s1 = .ok (s2, ctl) → exec impl (.enterUnique k sz f b' .done) kind s = .ok (s', ctl) := by
  simp only [execL] at h
  simp only [exec]
  split at h
  · cases h
  · rename_i s1 e1
    revert h
    cases hx : execL impl env b .unique s1 st n with
    | failed e => intro h; cases h
    | stuck a => intro h; cases h
    | ended s2 st2 n2 ctl2 =>
      simp only [LResult.thenFinish]
      intro h
      cases hf : impl.finishChild .unique f ctl2 s2 with
      | error e => rw [hf] at h; cases h
      | ok s3 =>
        rw [hf] at h
        have : s3 = s' ∧ st2 = st' ∧ n2 = n' ∧ ctl2 = ctl := by
          cases ctl2 <;> (simp only [LResult.ended.injEq] at h; exact h)
        obtain ⟨rfl, rfl, rfl, rfl⟩ := this
        refine ⟨s1, s2, hx, fun b' hb => ?_⟩
        simp only [e1, hb]
        simp only [hf]
        cases ctl2 <;> rfl

/-- What the visit inside of `ptr` of a `DashMap` or `DashSet` reads. -/
structure DashReads (env : Env) (st : Store) (n : Nat) (addr : LImpl.Shard → Ptr) (l : List LImpl.Shard) (capacities words capacitiesLater lens : List Nat) : Prop where
  /-- the capacity of each shard at some moment -/
  capacities : PerShard (fun x v => ∃ st', env.Occurs True st n [] st' ∧ x.capacity.get st' = v) l capacities
  /-- what determines the entries of each shard, at a moment at which the visit holds the read lock of the shard -/
  words : PerShard (fun x w => ∃ st', env.Occurs True st n [.lock .read x.lock] st' ∧ st'.mem (addr x) = w) l words
  capacitiesLater : PerShard (fun x v => ∃ st', env.Occurs True st n [] st' ∧ x.capacity.get st' = v) l capacitiesLater
  lens : PerShard (fun x v => ∃ st', env.Occurs True st n [] st' ∧ x.len.get st' = v) l lens

theorem dashBody_run [Target] {α : Type} {impl : VisitorImpl σ} {env : Env} (he : env.Respectful) (addr : LImpl.Shard → Ptr) (items : LImpl.Shard → Nat → List α) (f : α → Obj)
    (content : Ptr → Prog) (hc : ∀ p, (content p).lift.NoPanic) (entrySize : Nat) (l : List LImpl.Shard)
    (hl : ∀ x ∈ l, x.entries = .load (addr x) fun w => ((Obj.concat ((items x w).map f)).visitWith content).lift) {kind : NodeKind} {s s' : σ} {st st' : Store} {n n' : Nat} {ctl : Ctl}
    (h : execL impl env (LImpl.dashBody entrySize l) kind s st n = .ended s' st' n' ctl) :
    ∃ cs ws cs' ls, DashReads env st n addr l cs ws cs' ls ∧
      exec impl ((Visit.enter capacityName (Usize.mul (cs.foldl Usize.add 0) entrySize) .exit
        ((Obj.concat (((l.zip ws).flatMap fun x => items x.1 x.2).map f)).append (Visit.simple unusedCapacityName
          (Usize.mul (Usize.saturatingSub (cs'.foldl Usize.add 0) (ls.foldl Usize.add 0)) entrySize)))).visitWith content) kind s = .ok (s', ctl) := by
  have hM := Moments.timeline True env (fun _ _ => True) st n
  obtain ⟨cs, st1, n1, hcs, hj1, h1⟩ := sumShards_run hM (fun _ _ => trivial) _ _ _ l _ _ _ Moments.start h
  obtain ⟨s1, s2, h1, e1⟩ := enter_run h1
  obtain ⟨ws, s3, st2, n2, hws, hj2, h2, h3⟩ := shards_run he hM (fun _ _ => trivial) addr items f content hc _ _ l hl _ _ _ hj1 h1
  obtain ⟨cs', st3, n3, hcs', hj3, h4⟩ := sumShards_run hM (fun _ _ => trivial) _ _ _ l _ _ _ hj2 h3
  obtain ⟨ls, st4, n4, hls, hj4, h5⟩ := sumShards_run hM (fun _ _ => trivial) _ _ _ l _ _ _ hj3 h4
  refine ⟨cs, ws, cs', ls, ⟨hcs, hws, hcs', hls⟩, e1 _ ?_⟩
  obtain ⟨s4, s5, h6, e2⟩ := enter_run h5
  rw [visitWith_append, exec_seq, h2]
  refine e2 .done ?_
  simp only [execL, LResult.ended.injEq] at h6
  obtain ⟨rfl, -, -, rfl⟩ := h6
  rfl

theorem takes_sumShards [Target] {how : Access} {a : Ptr} {num : LImpl.Shard → LImpl.Number} {next : Nat → LProg} (l : List LImpl.Shard) : ∀ acc, (LImpl.sumShards num next acc l).Takes how a →
    (how = .read ∧ ∃ x ∈ l, x.lock = a) ∨ ∃ m, (next m).Takes how a := by
  induction l with
  | nil => exact fun acc h => .inr ⟨_, h⟩
  | cons x l ih =>
    intro acc h
    simp only [LImpl.sumShards] at h
    cases h with
    | here _ _ => exact .inl ⟨rfl, x, by simp, rfl⟩
    | inside _ _ _ _ h => cases h
    | after _ _ _ _ h =>
      cases h with
      | loaded _ _ _ h =>
        rcases ih _ h with ⟨e', y, hy, e⟩ | h
        · exact .inl ⟨e', y, by simp [hy], e⟩
        · exact .inr h

theorem takes_shards {how : Access} {a : Ptr} {rest : LProg} (l : List LImpl.Shard) : (LImpl.shards l rest).Takes how a →
    (how = .read ∧ ∃ x ∈ l, x.lock = a) ∨ (∃ x ∈ l, x.entries.Takes how a) ∨ rest.Takes how a := by
  induction l with
  | nil => exact fun h => .inr (.inr h)
  | cons x l ih =>
    intro h
    simp only [LImpl.shards] at h
    cases h with
    | here _ _ => exact .inl ⟨rfl, x, by simp, rfl⟩
    | inside _ _ _ _ h =>
      rcases takes_seq _ h with h | h
      · exact .inr (.inl ⟨x, by simp, h⟩)
      · obtain ⟨e', y, hy, e⟩ := takes_ahead h
        exact .inl ⟨e', y, by simp [hy], e⟩
    | after _ _ _ _ h =>
      rcases ih h with ⟨e', y, hy, e⟩ | ⟨y, hy, h⟩ | h
      · exact .inl ⟨e', y, by simp [hy], e⟩
      · exact .inr (.inl ⟨y, by simp [hy], h⟩)
      · exact .inr (.inr h)

theorem takes_dashBody [Target] {how : Access} {a : Ptr} {entrySize : Nat} {l : List LImpl.Shard} (h : (LImpl.dashBody entrySize l).Takes how a) :
    (how = .read ∧ ∃ x ∈ l, x.lock = a) ∨ ∃ x ∈ l, x.entries.Takes how a := by
  rcases takes_sumShards l _ h with h | ⟨m, h⟩
  · exact .inl h
  cases h with
  | enterRest _ _ _ _ _ h => cases h
  | enterBody _ _ _ _ _ h =>
    rcases takes_shards l h with h | h | h
    · exact .inl h
    · exact .inr h
    rcases takes_sumShards l _ h with h | ⟨m, h⟩
    · exact .inl h
    rcases takes_sumShards l _ h with h | ⟨m, h⟩
    · exact .inl h
    cases h with
    | enterRest _ _ _ _ _ h => cases h
    | enterBody _ _ _ _ _ h => cases h

theorem takes_dash [Target] {how : Access} {a : Ptr} {self : Ty} {entrySize : Nat} {l : List LImpl.Shard} {p : LProg} (hp : p = LImpl.dashMap self entrySize l ∨ p = LImpl.dashSet self entrySize l)
    (h : p.Takes how a) : (how = .read ∧ ∃ x ∈ l, x.lock = a) ∨ ∃ x ∈ l, x.entries.Takes how a := by
  rcases hp with rfl | rfl <;>
  · cases h with
    | enterRest _ _ _ _ _ h => cases h
    | enterBody _ _ _ _ _ h =>
      cases h with
      | uniqueRest _ _ _ _ _ h => cases h
      | uniqueBody _ _ _ _ _ h => exact takes_dashBody h

/-- C51. Whatever other threads do to a `DashMap` (or `DashSet`) and everything else meanwhile, if they do not, from some moment on, hold one of its shards exclusively for ever, and
the entries themselves are such that their visit does not wait, nor asks for the locks of the shards, then the visit does not wait for ever; it
amounts to some visit without locks in which all shards are visited, and at the end it holds what it held before. -/
theorem C51_dashmap_returns [Target] (impl : VisitorImpl σ) (env : Env) (he : env.Respectful) (self : Ty) (entrySize : Nat) (l : List LImpl.Shard)
    (hl : ∀ x ∈ l, x.entries.NeverWaits ∧ ∀ y ∈ l, ∀ how, ¬ x.entries.Takes how y.lock)
    (kind : NodeKind) (s : σ) (st : Store) (n : Nat) (hst : ∀ x ∈ l, (st.lock x.lock).heldExclusive = false)
    (hgo : ∀ x ∈ l, ∀ hs m st', Timeline True env st n hs m st' → ∃ k, ((env.looksAgain m st' k).lock x.lock).othersExclusive = false) (p : LProg)
    (hp : p = LImpl.dashMap self entrySize l ∨ p = LImpl.dashSet self entrySize l) :
    ∃ q, Resolves (env.Occurs True st n) (fun _ => False) [] p q ∧
      match execL impl env p kind s st n with
      | .stuck _ => False
      | .failed e => exec impl q kind s = .error e
      | .ended s' st' _ ctl => exec impl q kind s = .ok (s', ctl) ∧ st.SameHeld st' := by
  have hw : ∀ a, p.WaitsFor a → ∃ x ∈ l, x.lock = a := by
    rintro a ⟨how, hb, h⟩
    rcases takes_dash hp h with ⟨-, h⟩ | ⟨x, hx, h⟩
    · exact h
    · rw [h.not_blocking (hl x hx).1] at hb; cases hb
  refine C51_returns True impl env he p (fun h => (h trivial).elim) kind s st n ?_ ?_
  · intro a ha
    obtain ⟨x, hx, rfl⟩ := hw a ha
    refine ⟨hst x hx, fun how h => ?_⟩
    rcases takes_dash hp h with ⟨rfl, -⟩ | ⟨y, hy, h⟩
    · rfl
    · exact ((hl y hy).2 x hx how h).elim
  · intro a ha
    obtain ⟨x, hx, rfl⟩ := hw a ha
    exact hgo x hx

theorem dashMap_visitWith [Target] (self KV : Ty) (c : Nat) (entries : List (Value × Value)) (c' len : Nat) (content : Ptr → Prog) :
    (Impl.dashMap self KV c entries c' len).visit.visitWith content =
      .enter self.key self.size .exit (.enterUnique ptrName ptrBytes .exit ((Visit.enter capacityName (Usize.mul c KV.size) .exit
        ((Obj.concat (entries.map mapEntry)).append (Visit.simple unusedCapacityName (Usize.mul (Usize.saturatingSub c' len) KV.size)))).visitWith content) .done) .done := rfl

theorem dashSet_visitWith [Target] (self T : Ty) (c : Nat) (entries : List Value) (c' len : Nat) (content : Ptr → Prog) :
    (Impl.dashSet self T c entries c' len).visit.visitWith content =
      .enter self.key self.size .drop (.enterUnique ptrName ptrBytes .drop ((Visit.enter capacityName (Usize.mul c T.size) .exit
        ((Obj.concat (entries.map fun v => Visit.field dataName v)).append (Visit.simple unusedCapacityName (Usize.mul (Usize.saturatingSub c' len) T.size)))).visitWith content) .done) .done := rfl

theorem lift_takes {how : Access} {a : Ptr} (q : Prog) : ¬ q.lift.Takes how a := by
  induction q with
  | done => intro h; cases h
  | panic => intro h; cases h
  | enter k n f b r ih1 ih2 => intro h; cases h with | enterBody _ _ _ _ _ h => exact ih1 h | enterRest _ _ _ _ _ h => exact ih2 h
  | enterUnique k n f b r ih1 ih2 => intro h; cases h with | uniqueBody _ _ _ _ _ h => exact ih1 h | uniqueRest _ _ _ _ _ h => exact ih2 h
  | enterShared k n p f b r q ih1 ih2 ih3 =>
    intro h; cases h with | sharedBody _ _ _ _ _ _ _ h => exact ih1 h | sharedSome _ _ _ _ _ _ _ h => exact ih2 h | sharedNone _ _ _ _ _ _ _ h => exact ih3 h
  | catchUnwind b r ih1 ih2 => intro h; cases h with | catchBody _ _ h => exact ih1 h | catchRest _ _ h => exact ih2 h

/-- C51, other threads run. The visit of a `DashMap` whose entries other threads replace meanwhile (those of shard `x` are `items x w` when the memory at `addr x` has `w`): it waits for ever
only at a shard that others hold exclusively at every look from some moment on; if it ends, it is the visit of C32, C48 and C52 (`Impl.dashMap`), where the entries of each shard are those of a moment at which
its read lock is held, and capacities and length are sums over the shards of values that are there at some moment, perhaps different ones.  (`failed` is a panic of the visitor
itself, which the builder does not have by `C51_history`.) -/
theorem C51_dashmap_concurrent [Target] (impl : VisitorImpl σ) (env : Env) (he : env.Respectful) (self KV : Ty) (l : List LImpl.Shard) (addr : LImpl.Shard → Ptr)
    (items : LImpl.Shard → Nat → List (Value × Value)) (content : Ptr → Prog) (hc : ∀ p, (content p).lift.NoPanic)
    (hl : ∀ x ∈ l, x.entries = .load (addr x) fun w => ((Obj.concat ((items x w).map mapEntry)).visitWith content).lift)
    (kind : NodeKind) (s : σ) (st : Store) (n : Nat) (hst : ∀ x ∈ l, (st.lock x.lock).heldExclusive = false) :
    match execL impl env (LImpl.dashMap self KV.size l) kind s st n with
    | .failed _ => True
    | .stuck a => (∃ x ∈ l, x.lock = a) ∧ ∃ hs m st', Timeline True env st n hs m st' ∧ ∀ k, ((env.looksAgain m st' k).lock a).othersExclusive = true
    | .ended s' st' _ ctl => st.SameHeld st' ∧ ctl = .returned ∧ ∃ capacities words capacitiesLater lens,
        DashReads env st n addr l capacities words capacitiesLater lens ∧
        exec impl ((Impl.dashMap self KV (capacities.foldl Usize.add 0) ((l.zip words).flatMap fun x => items x.1 x.2)
          (capacitiesLater.foldl Usize.add 0) (lens.foldl Usize.add 0)).visit.visitWith content) kind s = .ok (s', .returned) := by
  have hnt : ∀ x ∈ l, ∀ how a, ¬ x.entries.Takes how a := by
    intro x hx how a h; rw [hl x hx] at h
    cases h with
    | loaded _ _ _ h => exact lift_takes _ h
  have hgood := execL_good impl env he (.timeline True env (fun how b => (LImpl.dashMap self KV.size l).Takes how b) st n) (LImpl.dashMap self KV.size l)
    (fun _ _ h => h) (fun h => (h trivial).elim) [] kind s st n Moments.start
  cases hx : execL impl env (LImpl.dashMap self KV.size l) kind s st n with
  | failed e => trivial
  | stuck a =>
    rw [hx] at hgood
    have htakes : ∀ how a, (LImpl.dashMap self KV.size l).Takes how a → how = .read ∧ ∃ x ∈ l, x.lock = a := by
      intro how a h
      rcases takes_dash (.inl rfl) h with h | ⟨x, hx, h⟩
      · exact h
      · exact (hnt x hx _ _ h).elim
    obtain ⟨⟨how, -, h⟩, h'⟩ := hgood
    obtain ⟨-, x, hxl, rfl⟩ := htakes _ _ h
    exact ⟨⟨x, hxl, rfl⟩, C51_held_by_others True env he _ st n _ (hst x hxl) (fun how h => by rw [(htakes how _ h).1]; rfl) h'⟩
  | ended s' st' n' ctl =>
    rw [hx] at hgood
    obtain ⟨-, -, -, hs, -⟩ := hgood
    obtain ⟨s1, s2, h1, e1⟩ := enter_run hx
    obtain ⟨s3, s4, h2, e2⟩ := enterUnique_run h1
    obtain ⟨cs, ws, cs', ls, hr, e⟩ := dashBody_run he addr items mapEntry content hc KV.size l hl h2
    have e := e1 _ (e2 _ e)
    rw [← dashMap_visitWith] at e
    have hctl := noPanic_returned (visitWith_noPanic content hc _) e
    subst hctl
    exact ⟨hs, rfl, cs, ws, cs', ls, hr, e⟩

/-- C51. The same for `DashSet`. -/
theorem C51_dashset_concurrent [Target] (impl : VisitorImpl σ) (env : Env) (he : env.Respectful) (self T : Ty) (l : List LImpl.Shard) (addr : LImpl.Shard → Ptr)
    (items : LImpl.Shard → Nat → List Value) (content : Ptr → Prog) (hc : ∀ p, (content p).lift.NoPanic)
    (hl : ∀ x ∈ l, x.entries = .load (addr x) fun w => ((Obj.concat ((items x w).map (fun v => Visit.field dataName v))).visitWith content).lift)
    (kind : NodeKind) (s : σ) (st : Store) (n : Nat) (hst : ∀ x ∈ l, (st.lock x.lock).heldExclusive = false) :
    match execL impl env (LImpl.dashSet self T.size l) kind s st n with
    | .failed _ => True
    | .stuck a => (∃ x ∈ l, x.lock = a) ∧ ∃ hs m st', Timeline True env st n hs m st' ∧ ∀ k, ((env.looksAgain m st' k).lock a).othersExclusive = true
    | .ended s' st' _ ctl => st.SameHeld st' ∧ ctl = .returned ∧ ∃ capacities words capacitiesLater lens,
        DashReads env st n addr l capacities words capacitiesLater lens ∧
        exec impl ((Impl.dashSet self T (capacities.foldl Usize.add 0) ((l.zip words).flatMap fun x => items x.1 x.2)
          (capacitiesLater.foldl Usize.add 0) (lens.foldl Usize.add 0)).visit.visitWith content) kind s = .ok (s', .returned) := by
  have hnt : ∀ x ∈ l, ∀ how a, ¬ x.entries.Takes how a := by
    intro x hx how a h; rw [hl x hx] at h
    cases h with
    | loaded _ _ _ h => exact lift_takes _ h
  have hgood := execL_good impl env he (.timeline True env (fun how b => (LImpl.dashSet self T.size l).Takes how b) st n) (LImpl.dashSet self T.size l)
    (fun _ _ h => h) (fun h => (h trivial).elim) [] kind s st n Moments.start
  cases hx : execL impl env (LImpl.dashSet self T.size l) kind s st n with
  | failed e => trivial
  | stuck a =>
    rw [hx] at hgood
    have htakes : ∀ how a, (LImpl.dashSet self T.size l).Takes how a → how = .read ∧ ∃ x ∈ l, x.lock = a := by
      intro how a h
      rcases takes_dash (.inr rfl) h with h | ⟨x, hx, h⟩
      · exact h
      · exact (hnt x hx _ _ h).elim
    obtain ⟨⟨how, -, h⟩, h'⟩ := hgood
    obtain ⟨-, x, hxl, rfl⟩ := htakes _ _ h
    exact ⟨⟨x, hxl, rfl⟩, C51_held_by_others True env he _ st n _ (hst x hxl) (fun how h => by rw [(htakes how _ h).1]; rfl) h'⟩
  | ended s' st' n' ctl =>
    rw [hx] at hgood
    obtain ⟨-, -, -, hs, -⟩ := hgood
    obtain ⟨s1, s2, h1, e1⟩ := enter_run hx
    obtain ⟨s3, s4, h2, e2⟩ := enterUnique_run h1
    obtain ⟨cs, ws, cs', ls, hr, e⟩ := dashBody_run he addr items (fun v => Visit.field dataName v) content hc T.size l hl h2
    have e := e1 _ (e2 _ e)
    rw [← dashSet_visitWith] at e
    have hctl := noPanic_returned (visitWith_noPanic content hc _) e
    subst hctl
    exact ⟨hs, rfl, cs, ws, cs', ls, hr, e⟩

theorem call_time {env : Env} {how : Access} {a : Ptr} {n n' : Nat} {st st' : Store} (h : how.call env a n st = some (st', n')) : n ≤ n' := by
  unfold Access.call at h
  split at h
  · cases h; omega
  · split at h
    · split at h
      · cases h; omega
      · cases h
    · cases h; omega

/-- Time does not go back. -/
theorem execL_time (impl : VisitorImpl σ) (env : Env) (p : LProg) : ∀ {kind s st n s' st' n' ctl}, execL impl env p kind s st n = .ended s' st' n' ctl → n ≤ n' := by
  have fin : ∀ {kind' f r s' st' n' ctl n k}, (∀ {s1 st1 n1 ctl1}, r = .ended s1 st1 n1 ctl1 → n ≤ n1) → (∀ {s1 st1 n1}, k s1 st1 n1 = .ended s' st' n' ctl → n1 ≤ n') →
      LResult.thenFinish impl kind' f r k = .ended s' st' n' ctl → n ≤ n' := by
    intro kind' f r s' st' n' ctl n k hr hk h
    cases r with
    | failed e => cases h
    | stuck a => cases h
    | ended s1 st1 n1 ctl1 =>
      simp only [LResult.thenFinish] at h
      have := hr rfl
      split at h
      · cases h
      · cases ctl1 with
        | returned => exact Nat.le_trans this (hk h)
        | unwinding => cases h; exact this
  have rel : ∀ {g} {r : LResult σ} {s' st' n' ctl n k}, (∀ {s1 st1 n1 ctl1}, r = .ended s1 st1 n1 ctl1 → n ≤ n1) → (∀ {s1 st1 n1}, k s1 st1 n1 = .ended s' st' n' ctl → n1 ≤ n') →
      LResult.thenRelease r g k = .ended s' st' n' ctl → n ≤ n' := by
    intro g r s' st' n' ctl n k hr hk h
    cases r with
    | failed e => cases h
    | stuck a => cases h
    | ended s1 st1 n1 ctl1 =>
      have := hr rfl
      cases ctl1 with
      | returned => have := hk h; omega
      | unwinding => cases h; omega
  induction p with
  | done => intro kind s st n s' st' n' ctl h; cases h; exact Nat.le_refl _
  | panic => intro kind s st n s' st' n' ctl h; cases h; exact Nat.le_refl _
  | enter k m f body rest ihb ihr =>
    intro kind s st n s' st' n' ctl h
    simp only [execL] at h
    split at h
    · cases h
    · exact fin ihb ihr h
  | enterUnique k m f body rest ihb ihr =>
    intro kind s st n s' st' n' ctl h
    simp only [execL] at h
    split at h
    · cases h
    · exact fin ihb ihr h
  | enterShared k m q f body rs rn ihb ihs ihn =>
    intro kind s st n s' st' n' ctl h
    simp only [execL] at h
    split at h
    · cases h
    · exact ihn h
    · exact fin ihb ihs h
  | catchUnwind body rest ihb ihr =>
    intro kind s st n s' st' n' ctl h
    simp only [execL] at h
    split at h
    · cases h
    · cases h
    · rename_i e; exact Nat.le_trans (ihb e) (ihr h)
  | access how a inside rest ihi ihr =>
    intro kind s st n s' st' n' ctl h
    simp only [execL] at h
    split at h
    · cases h
    · rename_i e
      have := call_time e
      split at h
      · exact Nat.le_trans this (rel ihi ihr h)
      · exact Nat.le_trans this (ihr h)
  | upgrade q inside rest ihi ihr =>
    intro kind s st n s' st' n' ctl h
    simp only [execL] at h
    split at h
    · have := rel ihi ihr h; omega
    · have := ihr h; omega
  | load a next ih =>
    intro kind s st n s' st' n' ctl h
    simp only [execL] at h
    have := ih _ h; omega

theorem useRootsL_ended {env : Env} {hist : List (LProg × Fate)} {x : LProg × Fate} (hx : x ∈ hist) : ∀ {b b' st st' n n' ctl}, Builder.useRootsL env b hist st n = .ended b' st' n' ctl →
    ∃ b1 b2 st1 st2 n1 n2 ctl, n ≤ n1 ∧ execL Builder.visitorImpl env x.1 .root b1 st1 n1 = .ended b2 st2 n2 ctl := by
  induction hist with
  | nil => cases hx
  | cons y hist ih =>
    intro b b' st st' n n' ctl h
    obtain ⟨p, f⟩ := y
    simp only [Builder.useRootsL] at h
    split at h
    · cases h
    · cases h
    · rename_i b1 st1 n1 ctl1 e1
      rcases List.mem_cons.1 hx with rfl | hx
      · simp only [Builder.useRootL] at e1
        split at e1
        · cases e1
        · split at e1
          · cases e1
          · cases e1
          · rename_i e2; exact ⟨_, _, _, _, _, _, _, Nat.le_refl _, e2⟩
      · obtain ⟨c1, c2, t1, t2, m1, m2, ctl, hm, e⟩ := ih hx h
        refine ⟨c1, c2, t1, t2, m1, m2, ctl, Nat.le_trans ?_ hm, e⟩
        simp only [Builder.useRootL] at e1
        split at e1
        · cases e1
        · split at e1
          · cases e1
          · cases e1
          · rename_i e2
            split at e1
            · cases e1
            · cases e1; exact execL_time _ _ _ e2

/-- C51, builder. If other threads hold the lock of a shard exclusively from the beginning on, no history of visits with that `DashMap` or `DashSet` among its roots ends: some visit waits for ever. -/
theorem C51_root_waits [Target] (env : Env) (he : env.Respectful) (hist : List (LProg × Fate)) (hh : ∀ x ∈ hist, x.1.Closes ∧ (x.2 = .exit ∨ x.2 = .drop))
    (self : Ty) (entrySize : Nat) (l : List LImpl.Shard) (x : LImpl.Shard) (h : x ∈ l) (st : Store) (n : Nat)
    (hx : ∀ m st, n ≤ m → ((env m st).lock x.lock).othersExclusive = true) (hd : ∃ y ∈ hist, y.1 = LImpl.dashMap self entrySize l ∨ y.1 = LImpl.dashSet self entrySize l) :
    ∃ a, Builder.default.useRootsL env hist st n = .stuck a := by
  rcases C51_history True env he hist hh (fun h => (h trivial).elim) st n with ⟨a, h, -⟩ | ⟨_, b, st', n', -, -, h', -⟩
  · exact ⟨a, h⟩
  · obtain ⟨y, hy, hp⟩ := hd
    obtain ⟨b1, b2, st1, st2, n1, n2, ctl, hn, e⟩ := useRootsL_ended hy h'
    rcases C51_dashmap_waits Builder.visitorImpl env self entrySize l x h .root b1 st1 n1 (fun m st h => hx m st (Nat.le_trans hn h)) y.1 hp with ⟨_, e'⟩ | ⟨_, e'⟩ <;> rw [e] at e' <;> cases e'

/-! A visit holds one shard while it waits for the next one. -/

theorem execL_seq (impl : VisitorImpl σ) (env : Env) (b : LProg) (p : LProg) : ∀ kind s st n, execL impl env (p.seq b) kind s st n =
    match execL impl env p kind s st n with
    | .ended s st n .returned => execL impl env b kind s st n
    | x => x := by
  have fin : ∀ kind' f (x : LResult σ) kind (r : LProg), (∀ s st n, execL impl env (r.seq b) kind s st n =
      match execL impl env r kind s st n with
      | .ended s st n .returned => execL impl env b kind s st n
      | x => x) → x.thenFinish impl kind' f (execL impl env (r.seq b) kind) =
      match x.thenFinish impl kind' f (execL impl env r kind) with
      | .ended s st n .returned => execL impl env b kind s st n
      | x => x := by
    intro kind' f x kind r ih
    cases x with
    | failed e => rfl
    | stuck a => rfl
    | ended s st n ctl =>
      simp only [LResult.thenFinish]
      cases impl.finishChild kind' f ctl s with
      | error e => rfl
      | ok s => cases ctl with
        | returned => exact ih _ _ _
        | unwinding => rfl
  have rel : ∀ g (x : LResult σ) kind (r : LProg), (∀ s st n, execL impl env (r.seq b) kind s st n =
      match execL impl env r kind s st n with
      | .ended s st n .returned => execL impl env b kind s st n
      | x => x) → x.thenRelease g (execL impl env (r.seq b) kind) =
      match x.thenRelease g (execL impl env r kind) with
      | .ended s st n .returned => execL impl env b kind s st n
      | x => x := by
    intro g x kind r ih
    cases x with
    | failed e => rfl
    | stuck a => rfl
    | ended s st n ctl => cases ctl with
      | returned => exact ih _ _ _
      | unwinding => rfl
  induction p with
  | done => intro kind s st n; rfl
  | panic => intro kind s st n; rfl
  | enter k sz f c r _ ih =>
    intro kind s st n
    simp only [LProg.seq, execL]
    cases impl.enterInlineImpl s k sz kind with
    | error e => rfl
    | ok s => exact fin _ _ _ _ _ (ih kind)
  | enterUnique k sz f c r _ ih =>
    intro kind s st n
    simp only [LProg.seq, execL]
    cases impl.enterUniqueImpl s k sz kind with
    | error e => rfl
    | ok s => exact fin _ _ _ _ _ (ih kind)
  | enterShared k sz p f c r q _ ih1 ih2 =>
    intro kind s st n
    simp only [LProg.seq, execL]
    cases impl.enterSharedImpl s k sz p kind with
    | error e => rfl
    | ok x =>
      obtain ⟨x, s⟩ := x
      cases x with
      | true => exact fin _ _ _ _ _ (ih1 kind)
      | false => exact ih2 kind _ _ _
  | catchUnwind c r _ ih =>
    intro kind s st n
    simp only [LProg.seq, execL]
    cases execL impl env c kind s st n with
    | failed e => rfl
    | stuck a => rfl
    | ended s st n ctl => exact ih kind _ _ _
  | access how a i r _ ih =>
    intro kind s st n
    simp only [LProg.seq, execL]
    cases how.call env a n st with
    | none => rfl
    | some x =>
      obtain ⟨st, n⟩ := x
      simp only []
      split
      · exact rel _ _ _ _ (ih kind)
      · exact ih kind _ _ _
  | upgrade p i r _ ih =>
    intro kind s st n
    simp only [LProg.seq, execL]
    split
    · exact rel _ _ _ _ (ih kind)
    · exact ih kind _ _ _
  | load a next ih =>
    intro kind s st n
    simp only [LProg.seq, execL]
    exact ih _ kind _ _ _

/-- Visits without locks leave the store alone. -/
theorem execL_lift (impl : VisitorImpl σ) (env : Env) (q : Prog) : ∀ kind s st n, execL impl env q.lift kind s st n =
    match exec impl q kind s with
    | .error e => .failed e
    | .ok (s, ctl) => .ended s st n ctl := by
  have fin : ∀ kind' f kind (body r : Prog) s st n, execL impl env body.lift kind' s st n =
        (match exec impl body kind' s with
        | .error e => .failed e
        | .ok (s, ctl) => .ended s st n ctl) →
      (∀ s st n, execL impl env r.lift kind s st n =
        match exec impl r kind s with
        | .error e => .failed e
        | .ok (s, ctl) => .ended s st n ctl) →
      (execL impl env body.lift kind' s st n).thenFinish impl kind' f (execL impl env r.lift kind) =
        match (match exec impl body kind' s with
          | .error e => .error e
          | .ok (s, ctl) =>
            match impl.finishChild kind' f ctl s with
            | .error e => .error e
            | .ok s =>
              match ctl with
              | .unwinding => .ok (s, .unwinding)
              | .returned => exec impl r kind s : Except Panic (σ × Ctl)) with
        | .error e => .failed e
        | .ok (s, ctl) => .ended s st n ctl := by
    intro kind' f kind body r s st n h1 h2
    rw [h1]
    cases exec impl body kind' s with
    | error e => rfl
    | ok x =>
      obtain ⟨s, ctl⟩ := x
      simp only [LResult.thenFinish]
      cases impl.finishChild kind' f ctl s with
      | error e => rfl
      | ok s => cases ctl with
        | returned => exact h2 _ _ _
        | unwinding => rfl
  induction q with
  | done => intro kind s st n; rfl
  | panic => intro kind s st n; rfl
  | enter k sz f c r ih1 ih2 =>
    intro kind s st n
    simp only [Prog.lift, execL, exec]
    cases impl.enterInlineImpl s k sz kind with
    | error e => rfl
    | ok s => exact fin _ _ _ _ _ _ _ _ (ih1 _ _ _ _) (ih2 kind)
  | enterUnique k sz f c r ih1 ih2 =>
    intro kind s st n
    simp only [Prog.lift, execL, exec]
    cases impl.enterUniqueImpl s k sz kind with
    | error e => rfl
    | ok s => exact fin _ _ _ _ _ _ _ _ (ih1 _ _ _ _) (ih2 kind)
  | enterShared k sz p f c r q ih1 ih2 ih3 =>
    intro kind s st n
    simp only [Prog.lift, execL, exec]
    cases impl.enterSharedImpl s k sz p kind with
    | error e => rfl
    | ok x =>
      obtain ⟨x, s⟩ := x
      cases x with
      | true => exact fin _ _ _ _ _ _ _ _ (ih1 _ _ _ _) (ih2 kind)
      | false => exact ih3 kind _ _ _
  | catchUnwind c r ih1 ih2 =>
    intro kind s st n
    simp only [Prog.lift, execL, exec, ih1]
    cases exec impl c kind s with
    | error e => rfl
    | ok x => exact ih2 kind _ _ _

/-- Another thread that has the shard at `b` exclusively, and also wants the one at `a`: it lets go of `b` as soon as nobody reads `a`, and takes it again when the visit reads `a`. -/
def wantsBoth (a b : Ptr) : Env := fun _ st =>
  { st with lock := fun c => { st.lock c with othersExclusive := if c = b then decide ((st.lock a).heldShared ≠ 0 ∧ (st.lock b).heldShared = 0) else false } }

theorem wantsBoth_again {a b : Ptr} {st : Store} {n : Nat} (h : (st.lock a).heldShared ≠ 0 ∧ (st.lock b).heldShared = 0) : ∀ k,
    (((wantsBoth a b).looksAgain n st k).lock b).othersExclusive = true ∧ (((wantsBoth a b).looksAgain n st k).lock a).heldShared ≠ 0 ∧
      (((wantsBoth a b).looksAgain n st k).lock b).heldShared = 0
  | 0 => by simp [Env.looksAgain, wantsBoth, h]
  | k + 1 => by
    have := (wantsBoth_again (n := n) h k).2
    simp only [Env.looksAgain]
    generalize (wantsBoth a b).looksAgain n st k = st' at this
    simp [wantsBoth, this]

theorem wantsBoth_sum [Target] (impl : VisitorImpl σ) {x y : LImpl.Shard} (num : LImpl.Shard → LImpl.Number) (next : Nat → LProg) (kind : NodeKind) (s : σ) {l : List LImpl.Shard}
    (hl : ∀ z ∈ l, z = x ∨ z = y) :
    ∀ acc st n, ((st.lock x.lock).heldShared = 0 ∧ (st.lock y.lock).heldShared = 0) → (st.lock x.lock).heldExclusive = false ∧ (st.lock y.lock).heldExclusive = false →
    ∃ m st' n', (((st'.lock x.lock).heldShared = 0 ∧ (st'.lock y.lock).heldShared = 0) ∧ (st'.lock x.lock).heldExclusive = false ∧ (st'.lock y.lock).heldExclusive = false) ∧
      execL impl (wantsBoth x.lock y.lock) (LImpl.sumShards num next acc l) kind s st n = execL impl (wantsBoth x.lock y.lock) (next m) kind s st' n' := by
  induction l with
  | nil => intro acc st n h1 h2; exact ⟨acc, st, n, ⟨h1, h2⟩, rfl⟩
  | cons z l ih =>
    intro acc st n h1 h2
    have hg : Access.granted ((wantsBoth x.lock y.lock n st).lock z.lock) .read = true := by
      rcases hl z (by simp) with rfl | rfl <;> simp [wantsBoth, Access.granted, LockState.readable, h1, h2]
    simp only [LImpl.sumShards, execL, call_granted hg, if_pos hg, LResult.thenRelease]
    refine ih (fun w hw => hl w (by simp [hw])) _ _ _ ?_ ?_
    · constructor <;>
      · simp only [wantsBoth, setAt]
        split <;> simp_all [Access.release, Access.acquire]
    · constructor <;>
      · simp only [wantsBoth, setAt]
        split <;> simp_all [Access.release, Access.acquire]

/-- C51, hazard: a visit holds the read lock of a shard while it waits for the next one.  So if another thread has the second of two shards exclusively and lets go of it only when it gets the first, the visit
never returns, although that thread never has a shard exclusively unless the visit holds the other one: the visit and that thread wait for each other. -/
theorem C51_holds_while_waiting [Target] (impl : VisitorImpl σ) (self : Ty) (entrySize : Nat) (x y : LImpl.Shard) (hxy : x.lock ≠ y.lock) (addr : Ptr) (q : Nat → Prog)
    (hx : x.entries = .load addr fun w => (q w).lift) (hq : ∀ w, (q w).lift.NoPanic) (p : LProg) (hp : p = LImpl.dashMap self entrySize [x, y] ∨ p = LImpl.dashSet self entrySize [x, y])
    (kind : NodeKind) (s : σ) (st : Store) (n : Nat)
    (hst : ((st.lock x.lock).heldShared = 0 ∧ (st.lock y.lock).heldShared = 0) ∧ (st.lock x.lock).heldExclusive = false ∧ (st.lock y.lock).heldExclusive = false) :
    ∃ env : Env, env.Respectful ∧
      (∀ m st c, ((env m st).lock c).othersExclusive = true → c = y.lock ∧ (st.lock x.lock).heldShared ≠ 0 ∧ (st.lock y.lock).heldShared = 0) ∧
      ((∃ e, execL impl env p kind s st n = .failed e) ∨ execL impl env p kind s st n = .stuck y.lock) := by
  refine ⟨wantsBoth x.lock y.lock, fun _ _ => ⟨fun _ => ⟨rfl, rfl⟩, fun _ => ⟨rfl, rfl⟩⟩, ?_, ?_⟩
  · intro m st c h
    by_cases e : c = y.lock <;> simp_all [wantsBoth]
  have body : ∀ kind s n st, (((st.lock x.lock).heldShared = 0 ∧ (st.lock y.lock).heldShared = 0) ∧ (st.lock x.lock).heldExclusive = false ∧ (st.lock y.lock).heldExclusive = false) →
      (∃ e, execL impl (wantsBoth x.lock y.lock) (LImpl.dashBody entrySize [x, y]) kind s st n = .failed e) ∨
      execL impl (wantsBoth x.lock y.lock) (LImpl.dashBody entrySize [x, y]) kind s st n = .stuck y.lock := by
    intro kind s n st hst
    unfold LImpl.dashBody
    obtain ⟨m, st1, n1, ⟨h1, h2, h3⟩, e⟩ := wantsBoth_sum impl (x := x) (y := y) LImpl.Shard.capacity
      (fun capacity => .enter capacityName (Usize.mul capacity entrySize) .exit
        (LImpl.shards [x, y] (LImpl.sumShards LImpl.Shard.capacity (fun capacity' => LImpl.sumShards LImpl.Shard.len (fun len =>
            .enter unusedCapacityName (Usize.mul (Usize.saturatingSub capacity' len) entrySize) .exit .done .done) 0 [x, y]) 0 [x, y])) .done)
      kind s (l := [x, y]) (by simp) 0 st n hst.1 hst.2
    rw [e]
    simp only [execL]
    split
    · exact .inl ⟨_, rfl⟩
    rename_i s1 _
    have hg : Access.granted ((wantsBoth x.lock y.lock n1 st1).lock x.lock) .read = true := by
      simp [wantsBoth, Access.granted, LockState.readable, hxy, h1, h2]
    rw [LImpl.shards, hx]
    simp only [execL, call_granted hg, if_pos hg, execL_seq, execL_lift]
    generalize hw : Store.mem _ addr = w
    cases hex : exec impl (q w) .inline s1 with
    | error e => exact .inl ⟨e, rfl⟩
    | ok z =>
      obtain ⟨s2, ctl⟩ := z
      have := noPanic_returned (hq w) hex
      subst this
      right
      simp only [LImpl.ahead, execL]
      generalize hst2 : wantsBoth x.lock y.lock (n1 + 1) _ = st2
      have hheld : (st2.lock x.lock).heldShared ≠ 0 ∧ (st2.lock y.lock).heldShared = 0 := by
        rw [← hst2]; simp [wantsBoth, setAt, Access.acquire, Ne.symm hxy, h1.2]
      have hcall : Access.read.call (wantsBoth x.lock y.lock) y.lock (n1 + 1 + 1) st2 = none := by
        cases hc : Access.read.call (wantsBoth x.lock y.lock) y.lock (n1 + 1 + 1) st2 with
        | none => rfl
        | some z =>
          obtain ⟨st', n'⟩ := z
          obtain ⟨k, rfl, rfl, hg, -, -⟩ := call_returns hc
          have hg := hg rfl
          simp [Access.granted, LockState.readable, (wantsBoth_again hheld k).1] at hg
      rw [hcall]
      rfl
  rcases hp with rfl | rfl <;>
  · simp only [LImpl.dashMap, LImpl.dashSet, execL]
    split
    · exact .inl ⟨_, rfl⟩
    · split
      · exact .inl ⟨_, rfl⟩
      · rename_i s1 _ s2 _
        rcases body .unique s2 n st hst with ⟨e, h⟩ | h
        · left; refine ⟨e, ?_⟩; rw [h]; rfl
        · right; rw [h]; rfl

/-- Two shards with one entry each. -/
def Ex.entry (v : Value) : List (Value × Value) := [(Impl.plain Impl.u8, v)]
def Ex.shardList : List (LImpl.Shard × List (Value × Value)) :=
  [(⟨100, ⟨200, id⟩, ⟨300, id⟩, ((Obj.concat ((Ex.entry (Impl.plain Ex.T)).map mapEntry)).visitWith fun _ => .done).lift⟩, Ex.entry (Impl.plain Ex.T)),
   (⟨101, ⟨201, id⟩, ⟨301, id⟩, ((Obj.concat ((Ex.entry (Impl.plain Ex.M)).map mapEntry)).visitWith fun _ => .done).lift⟩, Ex.entry (Impl.plain Ex.M))]

/-- Nobody holds shard 100; shard 101 is held exclusively by someone else.  The shards have capacity 4 and length 2. -/
def Ex.shardStore : Store :=
  { Ex.store with lock := fun a => { Ex.store.lock a with othersExclusive := a == 101 }, mem := fun a => if a < 300 then 4 else 2 }

attribute [local instance] Target.x64 in
example : execL SizeOf.visitorImpl .quiet (LImpl.dashMap Ex.M 32 (Ex.shardList.map Prod.fst)) .root 0 Ex.shardStore 0 = .stuck 101 ∧
    (∃ n', execL SizeOf.visitorImpl .quiet (LImpl.dashMap Ex.M 32 ((Ex.shardList.take 1).map Prod.fst)) .root 0 Ex.shardStore 0 =
      .ended 128 Ex.shardStore n' .returned) ∧
    (∀ x ∈ Ex.shardList.take 1, (Ex.shardStore.lock x.1.lock).othersExclusive = false ∧ (Ex.shardStore.lock x.1.lock).heldExclusive = false) ∧
    ∀ x ∈ Ex.shardList, x.1.entries = ((Obj.concat (x.2.map mapEntry)).visitWith fun _ => .done).lift := by
  have h3 : ∀ x ∈ Ex.shardList.take 1, (Ex.shardStore.lock x.1.lock).othersExclusive = false ∧ (Ex.shardStore.lock x.1.lock).heldExclusive = false := by
    intro x hx; simp [Ex.shardList] at hx; subst hx; exact ⟨rfl, rfl⟩
  have h4 : ∀ x ∈ Ex.shardList, x.1.entries = ((Obj.concat (x.2.map mapEntry)).visitWith fun _ => .done).lift := by
    intro x hx; simp only [Ex.shardList, List.mem_cons, List.not_mem_nil, or_false] at hx; rcases hx with rfl | rfl <;> rfl
  have hcall : ∀ n, Access.read.call .quiet 101 n Ex.shardStore = none := fun n => call_quiet
  refine ⟨?_, ?_, h3, h4⟩
  · have hread : ∀ n, Access.read.call .quiet 100 n Ex.shardStore = some (Ex.shardStore, n + 1) := fun n => call_quiet
    simp only [LImpl.dashMap, LImpl.dashBody, execL, SizeOf.visitorImpl, Ex.shardList, List.map_cons, List.map_nil, LImpl.sumShards, hread]
    have hg : Access.granted (Ex.shardStore.lock 100) .read = true := rfl
    have hst : (⟨setAt (setAt Ex.shardStore.lock 100 (Access.acquire (Ex.shardStore.lock 100) .read)) 100
        (Access.release (setAt Ex.shardStore.lock 100 (Access.acquire (Ex.shardStore.lock 100) .read) 100) .read .returned), Ex.shardStore.count, Ex.shardStore.mem⟩ : Store) = Ex.shardStore := by
      rw [setAt_setAt, setAt_same, release_acquire hg, setAt_self]
    simp only [hg, if_true, LResult.thenRelease, Env.quiet, hst]
    rw [hcall]
    rfl
  rcases C51_dashmap_value SizeOf.visitorImpl Ex.M ⟨[], 32, true⟩ (Ex.shardList.take 1) (fun _ => .done) (fun _ => trivial)
    (fun x hx => h4 x (List.mem_of_mem_take hx)) Ex.shardStore h3 .root 0 0 with ⟨e, h1, h2⟩ | ⟨s', n', h1, h2⟩
  · cases h2
  · refine ⟨n', ?_⟩
    have e : s' = 128 := by cases h2; rfl
    rw [← e]; exact h1

-- others may also hold it shared all the time
example : ∃ env : Env, env.Respectful ∧ (∀ n st, ∀ x ∈ Ex.shardList.map Prod.fst, ((env n st).lock x.lock).othersExclusive = false) ∧
    ∀ x ∈ Ex.shardList.map Prod.fst, x.entries.NeverWaits := by
  refine ⟨fun n st => { lock := fun a => { st.lock a with othersExclusive := false, othersShared := n }, count := st.count, mem := fun a => a * n }, ?_, ?_, ?_⟩
  · exact fun _ _ => ⟨fun _ => ⟨rfl, rfl⟩, fun _ => ⟨rfl, rfl⟩⟩
  · intro n st x hx; rfl
  · intro x hx
    simp only [Ex.shardList, List.map_cons, List.map_nil, List.mem_cons, List.not_mem_nil, or_false] at hx
    rcases hx with rfl | rfl <;> exact lift_neverWaits _

/-- Two shards whose entries depend on memory: as many entries as the memory at the address of the lock says, but at most 3. -/
def Ex.liveItems (_ : LImpl.Shard) (w : Nat) : List (Value × Value) := (List.range (w % 4)).flatMap fun _ => Ex.entry (Impl.plain Ex.T)
def Ex.liveShard (a : Ptr) : LImpl.Shard :=
  ⟨a, ⟨a + 100, id⟩, ⟨a + 200, id⟩, .load a fun w => ((Obj.concat ((Ex.liveItems ⟨a, ⟨a + 100, id⟩, ⟨a + 200, id⟩, .done⟩ w).map mapEntry)).visitWith fun _ => .done).lift⟩

/-- Others replace everything at each step, and hold the shard at 101 exclusively from step 40 on. -/
def Ex.dashBusy : Env := fun n st =>
  { lock := fun a => { st.lock a with othersExclusive := a == 101 && decide (40 ≤ n), othersShared := n }, count := st.count, mem := fun a => a * n }

attribute [local instance] Target.x64 in
/-- The hypotheses of the theorem for a `DashMap` that others change are met; .. -/
example (impl : VisitorImpl σ) (kind : NodeKind) (s : σ) (st : Store) (n : Nat) :=
  C51_dashmap_concurrent impl Ex.dashBusy (fun _ _ => ⟨fun _ => ⟨rfl, rfl⟩, fun _ => ⟨rfl, rfl⟩⟩) Ex.M ⟨[], 32, true⟩ [Ex.liveShard 100, Ex.liveShard 101] LImpl.Shard.lock
    Ex.liveItems (fun _ => .done) (fun _ => trivial) (by intro x hx; simp only [List.mem_cons, List.not_mem_nil, or_false] at hx; rcases hx with rfl | rfl <;> rfl) kind s st n

attribute [local instance] Target.x64 in
/-- .. one such visit ends, another one waits. -/
example : (∃ s' st' n', execL SizeOf.visitorImpl Ex.dashBusy (LImpl.dashMap Ex.M 32 [Ex.liveShard 101]) .root 0 Ex.store 0 = .ended s' st' n' .returned) ∧
    ∃ a, execL SizeOf.visitorImpl Ex.dashBusy (LImpl.dashMap Ex.M 32 [Ex.liveShard 101]) .root 0 Ex.store 40 = .stuck a := by
  refine ⟨⟨_, _, _, rfl⟩, ?_⟩
  obtain ⟨a, ha⟩ := sumShards_stuck SizeOf.visitorImpl Ex.dashBusy LImpl.Shard.capacity _ (Ex.liveShard 101) 40
    (fun n st hn => by simp [Ex.dashBusy, Ex.liveShard, hn]) .unique [Ex.liveShard 101] (by simp) 0 0 Ex.store 40 (Nat.le_refl _)
  refine ⟨a, ?_⟩
  simp only [LImpl.dashMap, LImpl.dashBody, execL]
  simp only [SizeOf.visitorImpl] at ha ⊢
  rw [ha]
  rfl

attribute [local instance] Target.x64 in
/-- Others that keep locking everything exclusively, but let go each time: the hypotheses of `C51_dashmap_returns` are met, although the visit has to wait. -/
example : Access.granted ((Ex.busy 1 Ex.store).lock 100) .read = false ∧ ∃ s' st' n', execL SizeOf.visitorImpl Ex.busy (LImpl.dashMap Ex.M 32 [Ex.liveShard 100, Ex.liveShard 101]) .root 0 Ex.store 1 = .ended s' st' n' .returned := by
  refine ⟨rfl, ?_⟩
  have he : Ex.busy.Respectful := fun _ _ => ⟨fun _ => ⟨rfl, rfl⟩, fun _ => ⟨rfl, rfl⟩⟩
  have hgo : ∀ x ∈ [Ex.liveShard 100, Ex.liveShard 101], ∀ hs m st', Timeline True Ex.busy Ex.store 1 hs m st' → ∃ k, ((Ex.busy.looksAgain m st' k).lock x.lock).othersExclusive = false := by
    intro x _ hs m st' _
    rcases Nat.mod_two_eq_zero_or_one m with h | h
    · exact ⟨0, by simp [Env.looksAgain, Ex.busy, h]⟩
    · exact ⟨1, by simp [Env.looksAgain, Ex.busy]; omega⟩
  have hst : ∀ x ∈ [Ex.liveShard 100, Ex.liveShard 101], (Ex.store.lock x.lock).heldExclusive = false := by
    intro x hx
    simp only [List.mem_cons, List.not_mem_nil, or_false] at hx
    rcases hx with rfl | rfl <;> rfl
  obtain ⟨q, -, h⟩ := C51_dashmap_returns SizeOf.visitorImpl Ex.busy he Ex.M 32 [Ex.liveShard 100, Ex.liveShard 101] (by
    intro x hx
    simp only [List.mem_cons, List.not_mem_nil, or_false] at hx
    rcases hx with rfl | rfl <;>
    · refine ⟨fun _ => lift_neverWaits _, fun y _ how h => ?_⟩
      cases h with | loaded _ _ _ h => exact lift_takes _ h) .root 0 Ex.store 1 hst hgo _ (.inl rfl)
  have hc := C51_dashmap_concurrent SizeOf.visitorImpl Ex.busy he Ex.M ⟨[], 32, true⟩ [Ex.liveShard 100, Ex.liveShard 101] LImpl.Shard.lock Ex.liveItems (fun _ => .done) (fun _ => trivial)
    (by intro x hx; simp only [List.mem_cons, List.not_mem_nil, or_false] at hx; rcases hx with rfl | rfl <;> rfl) .root 0 Ex.store 1 hst
  revert h hc
  cases hx : execL SizeOf.visitorImpl Ex.busy (LImpl.dashMap Ex.M 32 [Ex.liveShard 100, Ex.liveShard 101]) .root 0 Ex.store 1 with
  | failed e => intro h _; obtain ⟨r, hr⟩ := sizeOf_ok q .root 0; simp only [hr] at h; cases h
  | stuck a => exact fun h => h.elim
  | ended s' st' n' ctl => intro _ hc; rw [show ctl = .returned from hc.2.1]; exact ⟨_, _, _, rfl⟩

attribute [local instance] Target.x64 in
/-- The hypotheses of the theorem about two threads that wait for each other are met. -/
example (impl : VisitorImpl σ) (kind : NodeKind) (s : σ) (n : Nat) :=
  C51_holds_while_waiting impl Ex.M 32 (Ex.liveShard 100) (Ex.liveShard 101) (by decide) 100
    (fun w => (Obj.concat ((Ex.liveItems ⟨100, ⟨100 + 100, id⟩, ⟨100 + 200, id⟩, .done⟩ w).map mapEntry)).visitWith fun _ => .done) rfl
    (fun _ => visitWith_noPanic (fun _ => .done) (fun _ => trivial) _) _ (.inl rfl) kind s Ex.store n ⟨⟨rfl, rfl⟩, rfl, rfl⟩

def Ex.neverLetsGo : Env := fun _ st => { st with lock := fun a => { st.lock a with othersExclusive := true } }

theorem lift_closes {q : Prog} (h : q.Closes) : q.lift.Closes := by
  induction q with
  | done => trivial
  | panic => trivial
  | enter k n f b r ih1 ih2 => exact ⟨h.1, ih1 h.2.1, ih2 h.2.2⟩
  | enterUnique k n f b r ih1 ih2 => exact ⟨h.1, ih1 h.2.1, ih2 h.2.2⟩
  | enterShared k n p f b r q ih1 ih2 ih3 => exact ⟨h.1, ih1 h.2.1, ih2 h.2.2.1, ih3 h.2.2.2⟩
  | catchUnwind b r ih1 ih2 => exact ⟨ih1 h.1, ih2 h.2⟩

theorem seqL_closes {p q : LProg} : p.Closes → q.Closes → (p.seq q).Closes := by
  induction p with
  | done => exact fun _ h => h
  | panic => exact fun _ _ => trivial
  | enter k n f b r _ ih => exact fun h h' => ⟨h.1, h.2.1, ih h.2.2 h'⟩
  | enterUnique k n f b r _ ih => exact fun h h' => ⟨h.1, h.2.1, ih h.2.2 h'⟩
  | enterShared k n p f b r q _ ih1 ih2 => exact fun h h' => ⟨h.1, h.2.1, ih1 h.2.2.1 h', ih2 h.2.2.2 h'⟩
  | catchUnwind b r _ ih => exact fun h h' => ⟨h.1, ih h.2 h'⟩
  | access how a i r _ ih => exact fun h h' => ⟨h.1, ih h.2 h'⟩
  | upgrade p i r _ ih => exact fun h h' => ⟨h.1, ih h.2 h'⟩
  | load a next ih => exact fun h h' x => ih x (h x) h'

theorem ahead_closes (l : List LImpl.Shard) : (LImpl.ahead l).Closes := by cases l <;> simp [LImpl.ahead, LProg.Closes]

attribute [local instance] Target.x64 in
/-- A history with a `DashMap` of which somebody never lets go. -/
example (st : Store) (n : Nat) : ∃ a, Builder.default.useRootsL Ex.neverLetsGo
    [(.done, .exit), (LImpl.dashMap Ex.M 32 [Ex.liveShard 100], .exit)] st n = .stuck a :=
  C51_root_waits Ex.neverLetsGo (fun _ _ => ⟨fun _ => ⟨rfl, rfl⟩, fun _ => ⟨rfl, rfl⟩⟩) [(.done, .exit), (LImpl.dashMap Ex.M 32 [Ex.liveShard 100], .exit)] (by
    intro x hx
    simp only [List.mem_cons, List.not_mem_nil, or_false] at hx
    rcases hx with rfl | rfl
    · exact ⟨trivial, .inl rfl⟩
    · refine ⟨⟨.inl rfl, ⟨.inl rfl, ⟨trivial, fun _ => ⟨.inl rfl, ⟨fun w => seqL_closes (lift_closes (visitWith_closes (content := fun _ => .done) (fun _ => trivial) _)) (ahead_closes []), trivial, fun _ => ⟨trivial, fun _ => ⟨.inl rfl, trivial, trivial⟩⟩⟩, trivial⟩⟩, trivial⟩, trivial⟩, .inl rfl⟩)
    Ex.M 32 [Ex.liveShard 100] (Ex.liveShard 100) (by simp) st n (fun _ _ _ => rfl) ⟨(LImpl.dashMap Ex.M 32 [Ex.liveShard 100], .exit), by simp, .inl rfl⟩

/-! The theorems of this file with a concrete case of their hypotheses. -/

theorem Ex.busy_respectful : Ex.busy.Respectful := fun _ _ => ⟨fun _ => ⟨rfl, rfl⟩, fun _ => ⟨rfl, rfl⟩⟩
theorem Ex.locks_ok : Ex.locks.NeverWaits ∧ Ex.locks.NoPanic ∧ Ex.locks.Closes ∧ Ex.locks.NoCatch := by
  simp [Ex.locks, LProg.NeverWaits, LProg.NoPanic, LProg.Closes, LProg.NoCatch, LImpl.cell, LImpl.weak, LImpl.arc, Ex.content, Access.blocking]

theorem Ex.locks_hist (x : LProg × Fate) (hx : x ∈ [(Ex.locks, Fate.exit), (Ex.locks, .drop)]) :
    x.1 = Ex.locks ∧ (x.2 = .exit ∨ x.2 = .drop) := by
  simp only [List.mem_cons, List.not_mem_nil, or_false] at hx
  rcases hx with rfl | rfl <;> simp

example := C31_never_waits False Builder.visitorImpl Ex.busy Ex.busy_respectful Ex.locks (fun _ => Ex.locks_ok.2.2.2) Ex.locks_ok.1
example := C31_history False Ex.busy Ex.busy_respectful [(Ex.locks, .exit), (Ex.locks, .drop)]
  (fun x hx => by rw [(Ex.locks_hist x hx).1]; exact ⟨Ex.locks_ok.1, Ex.locks_ok.2.2.1, (Ex.locks_hist x hx).2⟩)
  (fun _ x hx => by rw [(Ex.locks_hist x hx).1]; exact ⟨Ex.locks_ok.2.2.2, Ex.locks_ok.2.1⟩) Ex.store 7
example := C31_restored Builder.visitorImpl Ex.locks Ex.locks_ok.2.1 Ex.locks_ok.1 .root Builder.default Ex.store 0
/-- A mutex is poisoned by the visit, and that is all that has changed; the counters are as before. -/
example : ∃ s' st' n', execL SizeOf.visitorImpl .quiet (LImpl.cell .stdTryLock 1 Ex.M 16 .panic) .root 0 Ex.store 0 = .ended s' st' n' .unwinding ∧
    (st'.lock 1).poisoned = true ∧ Ex.store.SameButPoison st' ∧ st'.count 9 = Ex.store.count 9 := by
  obtain ⟨s', st', n', h, hp, -⟩ := C31_panic_poisons Ex.M 16 1 Ex.store rfl 0
  exact ⟨s', st', n', h, hp, C31_only_poison _ _ _ _ _ _ _ _ _ _ h, C44_counts_restored _ _ _ _ _ _ _ _ _ _ h 9⟩
example := C31_cell_concurrent False Builder.visitorImpl Ex.busy Ex.busy_respectful .stdTryRead (by decide) 3 300 Ex.M 16
  (fun x => if x % 2 = 0 then Impl.plain Ex.T else Impl.arc Ex.T 8 x) (fun x => by split <;> rfl) (fun _ => .enter (Ex.k "x") 24 .exit .done .done)
  (fun _ _ => ⟨trivial, trivial⟩)
example := C31_impls_never_wait 1 Ex.M 16 Ex.locks Ex.locks_ok.1 Ex.locks_ok.2.2.1
example := C31_reentrant .stdTryLock .tryRead (.inl rfl) (by decide) 1 Ex.M Ex.M 16 16 Ex.content Ex.store rfl
example := C44_weak_gone 10 Ex.M (LImpl.arc Ex.T 8 10 Ex.content) Ex.store [Ex.k "x"] [9] (by decide)
example := C44_weak_alive 9 Ex.M Ex.T 8 9 (fun _ => .enter (Ex.k "x") 24 .exit .done .done) Ex.store [Ex.k "x"] [10] (by decide)

def Ex.weakHeap : Heap := fun _ => .inline (Ex.k "x") 24 .exit .nil .nil
def Ex.weakRoots : List Obj := [(Impl.weak Ex.M (some (Impl.arc Ex.T 8 9))).visit, (Impl.weak Ex.M none).visit, (Impl.weak Ex.M (some (Impl.arc Ex.T 8 9))).visit]
theorem Ex.weakRoots_reach (p : Ptr) : p ∈ [9] ↔ Reachable Ex.weakHeap Ex.weakRoots p := by
  constructor
  · intro h
    simp only [List.mem_singleton] at h
    subst h
    exact .root (o := (Impl.weak Ex.M (some (Impl.arc Ex.T 8 9))).visit) (by simp [Ex.weakRoots]) (by decide)
  · intro h
    induction h with
    | root ho hp =>
      simp only [Ex.weakRoots, List.mem_cons, List.not_mem_nil, or_false] at ho
      rcases ho with rfl | rfl | rfl
      · simpa [Impl.weak, Impl.arc, Impl.sized, Visit.enterSelfSized, Visit.enter, Obj.ptrs] using hp
      · simp [Impl.weak, Impl.sized, Visit.enterSelfSized, Visit.enter, Obj.ptrs] at hp
      · simpa [Impl.weak, Impl.arc, Impl.sized, Visit.enterSelfSized, Visit.enter, Obj.ptrs] using hp
    | step _ hp _ => simp [Ex.weakHeap, Obj.ptrs] at hp

example := C44_counted_once Ex.weakHeap Ex.weakRoots Ex.M Ex.T 8 9 (by simp [Ex.weakRoots]) [9] (by decide) Ex.weakRoots_reach 1 (by decide)

theorem Ex.dashBusy_respectful : Ex.dashBusy.Respectful := fun _ _ => ⟨fun _ => ⟨rfl, rfl⟩, fun _ => ⟨rfl, rfl⟩⟩
attribute [local instance] Target.x64 in
theorem Ex.liveMap_closes : (LImpl.dashMap Ex.M 32 [Ex.liveShard 100]).Closes :=
  ⟨.inl rfl, ⟨.inl rfl, ⟨trivial, fun _ => ⟨.inl rfl, ⟨fun _ => seqL_closes (lift_closes (visitWith_closes (content := fun _ => .done) (fun _ => trivial) _)) (ahead_closes []), trivial,
    fun _ => ⟨trivial, fun _ => ⟨.inl rfl, trivial, trivial⟩⟩⟩, trivial⟩⟩, trivial⟩, trivial⟩

attribute [local instance] Target.x64 in
example := C51_dashmap_waits Builder.visitorImpl Ex.dashBusy Ex.M 32 [Ex.liveShard 100, Ex.liveShard 101] (Ex.liveShard 101) (by simp) .root Builder.default Ex.store 50
  (fun m st hm => by simp [Ex.dashBusy, Ex.liveShard]; omega) _ (.inr rfl)

attribute [local instance] Target.x64 in
theorem Ex.liveMap_takes {how : Access} {a : Ptr} (h : (LImpl.dashMap Ex.M 32 [Ex.liveShard 100]).Takes how a) : how = .read ∧ a = 100 := by
  rcases takes_dash (.inl rfl) h with ⟨rfl, x, hx, rfl⟩ | ⟨x, hx, h⟩
  · rw [List.mem_singleton] at hx
    subst hx
    exact ⟨rfl, rfl⟩
  · rw [List.mem_singleton] at hx
    subst hx
    cases h with | loaded _ _ _ h => exact (lift_takes _ h).elim

theorem Ex.busy_lets_go {m : Nat} {st : Store} {a : Ptr} : ∃ k, ((Ex.busy.looksAgain m st k).lock a).othersExclusive = false := by
  rcases Nat.mod_two_eq_zero_or_one m with h | h
  · exact ⟨0, by simp [Env.looksAgain, Ex.busy, h]⟩
  · exact ⟨1, by simp [Env.looksAgain, Ex.busy]; omega⟩

attribute [local instance] Target.x64 in
/-- A map of which somebody never lets go: the visit waits, for that somebody. -/
example : ∃ hs m st', Timeline True Ex.neverLetsGo Ex.store 3 hs m st' ∧ ∀ k, ((Ex.neverLetsGo.looksAgain m st' k).lock 100).othersExclusive = true := by
  have hr : Ex.neverLetsGo.Respectful := fun _ _ => ⟨fun _ => ⟨rfl, rfl⟩, fun _ => ⟨rfl, rfl⟩⟩
  rcases C51_dashmap_waits SizeOf.visitorImpl Ex.neverLetsGo Ex.M 32 [Ex.liveShard 100] (Ex.liveShard 100) (by simp) .root 0 Ex.store 3 (fun _ _ _ => rfl) _ (.inl rfl) with ⟨e, h⟩ | ⟨a, h⟩
  · exfalso
    obtain ⟨a, ha⟩ := sumShards_stuck SizeOf.visitorImpl Ex.neverLetsGo LImpl.Shard.capacity _ (Ex.liveShard 100) 3 (fun _ _ _ => rfl) .unique [Ex.liveShard 100] (by simp) 0 0 Ex.store 3 (Nat.le_refl _)
    simp only [LImpl.dashMap, LImpl.dashBody, execL, SizeOf.visitorImpl] at h ha
    rw [ha] at h
    cases h
  · obtain ⟨⟨how, -, hw⟩, hf⟩ := C51_waits_only_if_held True SizeOf.visitorImpl Ex.neverLetsGo hr _ (fun h => (h trivial).elim) .root 0 Ex.store 3 a h
    rw [(Ex.liveMap_takes hw).2] at hf
    exact C51_held_by_others True Ex.neverLetsGo hr _ Ex.store 3 100 rfl (fun how h => by rw [(Ex.liveMap_takes h).1]; rfl) hf

attribute [local instance] Target.x64 in
example := C51_returns True Builder.visitorImpl Ex.busy Ex.busy_respectful (LImpl.dashMap Ex.M 32 [Ex.liveShard 100]) (fun h => (h trivial).elim) .root Builder.default Ex.store 1
  (fun a ⟨_, _, h⟩ => by rw [(Ex.liveMap_takes h).2]; exact ⟨rfl, fun how h => by rw [(Ex.liveMap_takes h).1]; rfl⟩)
  (fun _ _ _ _ _ _ => Ex.busy_lets_go)

attribute [local instance] Target.x64 in
/-- A history with locks and a map. -/
def Ex.mapHist : List (LProg × Fate) := [(Ex.content, .exit), (LImpl.dashMap Ex.M 32 [Ex.liveShard 100], .exit), (LImpl.dashMap Ex.M 32 [Ex.liveShard 100], .drop)]
theorem Ex.mapHist_ok (x : LProg × Fate) (hx : x ∈ Ex.mapHist) : x.1.Closes ∧ (x.2 = .exit ∨ x.2 = .drop) := by
  simp only [Ex.mapHist, List.mem_cons, List.not_mem_nil, or_false] at hx
  rcases hx with rfl | rfl | rfl
  · exact ⟨⟨.inl rfl, trivial, trivial⟩, .inl rfl⟩
  · exact ⟨Ex.liveMap_closes, .inl rfl⟩
  · exact ⟨Ex.liveMap_closes, .inr rfl⟩
theorem Ex.mapHist_takes (x : LProg × Fate) (hx : x ∈ Ex.mapHist) {how : Access} {a : Ptr} (h : x.1.Takes how a) : how = .read ∧ a = 100 := by
  simp only [Ex.mapHist, List.mem_cons, List.not_mem_nil, or_false] at hx
  rcases hx with rfl | rfl | rfl
  · cases h with | enterBody _ _ _ _ _ h => cases h | enterRest _ _ _ _ _ h => cases h
  · exact Ex.liveMap_takes h
  · exact Ex.liveMap_takes h

example := C51_history True Ex.dashBusy Ex.dashBusy_respectful Ex.mapHist Ex.mapHist_ok (fun h => (h trivial).elim) Ex.store 0
example := C51_history_returns True Ex.busy Ex.busy_respectful Ex.mapHist Ex.mapHist_ok (fun h => (h trivial).elim) Ex.store 0
  (fun x hx a ⟨_, _, h⟩ => by rw [(Ex.mapHist_takes x hx h).2]; exact ⟨rfl, fun y hy how h => by rw [(Ex.mapHist_takes y hy h).1]; rfl⟩)
  (fun _ _ _ _ _ _ _ _ => Ex.busy_lets_go)

/-- Two shards of a `DashSet` with two elements each. -/
def Ex.setItems (w : Nat) : List Value := (List.range (w % 4)).map fun _ => Impl.plain Ex.T
def Ex.setShards : List (LImpl.Shard × List Value) :=
  [(⟨100, ⟨200, id⟩, ⟨300, id⟩, ((Obj.concat ((Ex.setItems 2).map fun v => Visit.field dataName v)).visitWith fun _ => .done).lift⟩, Ex.setItems 2),
   (⟨102, ⟨202, id⟩, ⟨302, id⟩, ((Obj.concat ((Ex.setItems 2).map fun v => Visit.field dataName v)).visitWith fun _ => .done).lift⟩, Ex.setItems 2)]
attribute [local instance] Target.x64 in
example := C51_dashset_value Builder.visitorImpl Ex.M Ex.T Ex.setShards (fun _ => .done) (fun _ => trivial)
  (by intro x hx; simp only [Ex.setShards, List.mem_cons, List.not_mem_nil, or_false] at hx; rcases hx with rfl | rfl <;> rfl) Ex.shardStore
  (by intro x hx; simp only [Ex.setShards, List.mem_cons, List.not_mem_nil, or_false] at hx; rcases hx with rfl | rfl <;> exact ⟨rfl, rfl⟩) .root Builder.default 0
def Ex.liveSet (a : Ptr) : LImpl.Shard :=
  ⟨a, ⟨a + 100, id⟩, ⟨a + 200, id⟩, .load a fun w => ((Obj.concat ((Ex.setItems w).map fun v => Visit.field dataName v)).visitWith fun _ => .done).lift⟩
attribute [local instance] Target.x64 in
example := C51_dashset_concurrent Builder.visitorImpl Ex.dashBusy Ex.dashBusy_respectful Ex.M Ex.T [Ex.liveSet 100, Ex.liveSet 101] LImpl.Shard.lock (fun _ => Ex.setItems)
  (fun _ => .done) (fun _ => trivial) (by intro x hx; simp only [List.mem_cons, List.not_mem_nil, or_false] at hx; rcases hx with rfl | rfl <;> rfl)
  .root Builder.default Ex.store 0 (by intro x hx; simp only [List.mem_cons, List.not_mem_nil, or_false] at hx; rcases hx with rfl | rfl <;> rfl)

end Allocative
