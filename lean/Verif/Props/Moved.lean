import Verif.Props.Live
set_option linter.unusedSimpArgs false
/-
C69: the snapshot that a profile of changing data shows (C61) need not be of one moment: what is moved from one lock to another meanwhile may be counted twice, or not at all.
-/
namespace Allocative

/-- A mutex of type `self` at address `a`: `full` is in it if the memory there is 1, and otherwise `empty`. -/
def slot (self : Ty) (full empty : Datum) (a : Ptr) : LiveDatum :=
  .live (.arc self 8 0) (fun p => if p = 0 then some (.cell .stdTryLock) else none) (fun _ => a) (fun _ x => .still (if x = 1 then full else empty))

/-- A thread that once exchanges what is in the mutexes at addresses 1 and 2, if the visit has neither. -/
def mover : Env := fun n st =>
  if n = 3 ∧ (st.lock 1).heldExclusive = false ∧ (st.lock 2).heldExclusive = false ∧ (st.lock 1).heldShared = 0 ∧ (st.lock 2).heldShared = 0 then
    { st with mem := fun a => if a = 1 then st.mem 2 else if a = 2 then st.mem 1 else st.mem a } else st

/-- Shared allocations that do not change. -/
def stillCells (cells : Ptr → Cell) : Ptr → LiveCell := fun p => ⟨cells p, .still (cells p).datum⟩

theorem visitLive_lift {cont : Ptr → LProg} {c : Ptr → Prog} (h : ∀ p, cont p = (c p).lift) (o : Obj) : o.visitLive cont (fun _ => none) = (o.visitWith c).lift := by
  induction o with
  | nil => rfl
  | inline k n e i r h1 h2 => simp only [Obj.visitLive, Obj.visitWith, Prog.lift, h1, h2]
  | unique k n e i r h1 h2 => simp only [Obj.visitLive, Obj.visitWith, Prog.lift, h1, h2]
  | shared k n p e r h1 => simp only [Obj.visitLive, Obj.visitWith, Prog.lift, h1, h]

theorem stillCont_lift [Target] (cells : Ptr → Cell) : ∀ fuel p, liveCont (stillCells cells) fuel p = (contS (heapOf cells) fuel p).lift
  | 0, _ => rfl
  | fuel + 1, p => by
    have e : (cells p).with (cells p).datum = cells p := by cases cells p <;> rfl
    simp only [liveCont, LiveCell.visit, stillCells, LiveDatum.shape, LiveDatum.places, contS, visit_contS, e]
    exact visitLive_lift (stillCont_lift cells fuel) _

/-- The visit of such a mutex. -/
theorem slot_visit [Target] (self : Ty) (full empty : Datum) (a : Ptr) (cells : Ptr → Cell) (fuel : Nat) : (slot self full empty a).visit (liveCont (stillCells cells) fuel) =
    .enter self.key self.size .exit (.access .stdTryLock a (.load a fun x =>
      (Prog.enter dataName (if x = 1 then full else empty).value.sizeOfVal .exit ((if x = 1 then full else empty).value.visit.visitWith (contS (heapOf cells) fuel)) .done).lift) .done) .done := by
  simp only [LiveDatum.visit, slot, LiveDatum.shape, Datum.value, Impl.arc, Impl.sized, Visit.enterSelfSized, Visit.enter, Obj.visitLive, LiveDatum.places, if_true, Ending.fate, Prog.lift]
  congr 3
  funext x
  congr 1
  exact visitLive_lift (stillCont_lift cells fuel) _

variable {σ : Type}

/-- A run of it: what is in the mutex when the visit has the lock. -/
theorem slot_run (impl : VisitorImpl σ) (env : Env) (self : Ty) (f : Nat → Prog) (a : Ptr) (kind : NodeKind) (s s' : σ) (st : Store) (n : Nat) (ctl : Ctl)
    (hg : Access.granted ((env n st).lock a) .stdTryLock = true) (st3 : Store)
    (h3 : st3 = env (n + 1) { env n st with lock := setAt (env n st).lock a (Access.acquire ((env n st).lock a) .stdTryLock) })
    (hx : exec impl (.enter self.key self.size .exit (f (st3.mem a)) .done) kind s = .ok (s', ctl)) :
    execL impl env (.enter self.key self.size .exit (.access .stdTryLock a (.load a fun x => (f x).lift) .done) .done) kind s st n =
      .ended s' { env (n + 2) st3 with lock := setAt (env (n + 2) st3).lock a (Access.release ((env (n + 2) st3).lock a) .stdTryLock ctl) } (n + 3) ctl := by
  simp only [execL, Access.call, hg, if_true, ← h3, execL_lift]
  simp only [exec] at hx
  cases h1 : impl.enterInlineImpl s self.key self.size kind with
  | error e => simp [h1] at hx
  | ok s1 =>
    simp only [h1] at hx ⊢
    cases h2 : exec impl (f (st3.mem a)) .inline s1 with
    | error e => simp [h2] at hx
    | ok x =>
      obtain ⟨s2, c2⟩ := x
      simp only [h2] at hx ⊢
      cases c2 <;> simp only [LResult.thenRelease, LResult.thenFinish, execL] <;> cases h4 : impl.finishChild .inline .exit _ s2 <;> simp [h4] at hx ⊢ <;> simp [hx]

/-- The same for the visit of a root. -/
theorem slot_useRoot [Target] (env : Env) (b b' : Builder) (self : Ty) (full empty : Datum) (a : Ptr) (cells : Ptr → Cell) (fuel : Nat) (st : Store) (n : Nat) (ctl : Ctl)
    (hg : Access.granted ((env n st).lock a) .stdTryLock = true) (st3 : Store)
    (h3 : st3 = env (n + 1) { env n st with lock := setAt (env n st).lock a (Access.acquire ((env n st).lock a) .stdTryLock) })
    (hx : b.useRoot ((heapOf cells).visit fuel (Datum.cell self true (if st3.mem a = 1 then full else empty)).value.visit) .exit = .ok (b', ctl)) :
    b.useRootL env ((slot self full empty a).visit (liveCont (stillCells cells) fuel)) .exit st n =
      .ended b' { env (n + 2) st3 with lock := setAt (env (n + 2) st3).lock a (Access.release ((env (n + 2) st3).lock a) .stdTryLock ctl) } (n + 3) ctl := by
  simp only [Builder.useRoot] at hx
  simp only [Builder.useRootL]
  cases hr : b.rootVisitor with
  | error e => simp [hr] at hx
  | ok b1 =>
    simp only [hr] at hx ⊢
    have e : (heapOf cells).visit fuel (Datum.cell self true (if st3.mem a = 1 then full else empty)).value.visit =
        .enter self.key self.size .exit (.enter dataName (if st3.mem a = 1 then full else empty).value.sizeOfVal .exit
          ((if st3.mem a = 1 then full else empty).value.visit.visitWith (contS (heapOf cells) fuel)) .done) .done := by
      rw [visit_contS]; rfl
    rw [e] at hx
    cases h1 : exec Builder.visitorImpl (.enter self.key self.size .exit (.enter dataName (if st3.mem a = 1 then full else empty).value.sizeOfVal .exit
          ((if st3.mem a = 1 then full else empty).value.visit.visitWith (contS (heapOf cells) fuel)) .done) .done) .root b1 with
    | error e => simp [h1] at hx
    | ok x =>
      obtain ⟨b2, ctl'⟩ := x
      simp only [h1] at hx
      rw [slot_visit, slot_run Builder.visitorImpl env self (fun x => Prog.enter dataName (if x = 1 then full else empty).value.sizeOfVal .exit
        ((if x = 1 then full else empty).value.visit.visitWith (contS (heapOf cells) fuel)) .done) a .root b1 b2 st n ctl' hg st3 h3 h1]
      simp only
      cases h2 : Builder.visitorImpl.finishChild .root .exit ctl' b2 with
      | error e => simp [h2] at hx
      | ok b3 =>
        simp only [h2, Except.ok.injEq, Prod.mk.injEq] at hx
        simp only [hx]

theorem mover_respectful : mover.Respectful := by
  intro n st
  simp only [mover]
  split <;> exact ⟨fun _ => ⟨rfl, rfl⟩, fun _ => ⟨rfl, rfl⟩⟩

theorem mover_keeps (n : Nat) (st : Store) (a : Ptr) (h : (st.lock a).heldExclusive = true ∨ 0 < (st.lock a).heldShared) : (mover n st).mem a = st.mem a := by
  simp only [mover]
  split
  · rename_i hm
    by_cases h1 : a = 1
    · subst h1; rcases h with h | h
      · rw [hm.2.1] at h; cases h
      · omega
    · by_cases h2 : a = 2
      · subst h2; rcases h with h | h
        · rw [hm.2.2.1] at h; cases h
        · omega
      · simp [h1, h2]
  · rfl

/-- At every moment, one of the two memory words is 1 and the other is 0. -/
theorem mover_oneOfTwo {st : Store} {n : Nat} (h : st.mem 1 = 1 ∧ st.mem 2 = 0 ∨ st.mem 1 = 0 ∧ st.mem 2 = 1) {hs st'} (ho : mover.Occurs False st n hs st') :
    st'.mem 1 = 1 ∧ st'.mem 2 = 0 ∨ st'.mem 1 = 0 ∧ st'.mem 2 = 1 := by
  obtain ⟨m, ht⟩ := ho
  refine ht.memInv (P := fun mem => mem 1 = 1 ∧ mem 2 = 0 ∨ mem 1 = 0 ∧ mem 2 = 1) ?_ h
  intro n st h
  simp only [mover]
  split
  · simp only [if_true]
    rcases h with h | h
    · right; simp [h]
    · left; simp [h]
  · exact h

theorem mover_run [Target] (self : Ty) (full empty : Datum) (cells : Ptr → Cell) (fuel : Nat) (st : Store)
    (hfree : ∀ a, a = 1 ∨ a = 2 → Access.granted (st.lock a) .stdTryLock = true) (d : Datum) (h1 : d = if st.mem 1 = 1 then full else empty) :
    ∃ b st' n', Builder.default.useRootsL mover (liveVisits (stillCells cells) fuel [slot self full empty 1, slot self full empty 2]) st 0 = .ended b st' n' .returned ∧
      Builder.default.useRoots (visits (heapOf cells) fuel [(Datum.cell self true d).value.visit, (Datum.cell self true d).value.visit]) = .ok b := by
  obtain ⟨b, -, hb, -⟩ := useRoots_default (visits_noLeaks (heapOf cells) fuel [(Datum.cell self true d).value.visit, (Datum.cell self true d).value.visit])
  have hb' := hb
  simp only [visits, List.map_cons, List.map_nil, Builder.useRoots] at hb'
  cases e1 : Builder.default.useRoot ((heapOf cells).visit fuel (Datum.cell self true d).value.visit) .exit with
  | error e => simp [e1] at hb'
  | ok x =>
    obtain ⟨b1, c1⟩ := x
    simp only [e1] at hb'
    cases e2 : b1.useRoot ((heapOf cells).visit fuel (Datum.cell self true d).value.visit) .exit with
    | error e => simp [e2] at hb'
    | ok x =>
      obtain ⟨b2, c2⟩ := x
      simp only [e2, Except.ok.injEq] at hb'
      subst hb'
      have hq : ∀ n, n ≠ 3 → ∀ st, mover n st = st := by
        intro n hn st
        simp only [mover, hn, false_and, if_false]
      have g1 := hfree 1 (.inl rfl)
      have g2 := hfree 2 (.inr rfl)
      have r1 := slot_useRoot mover Builder.default b1 self full empty 1 cells fuel st 0 c1 (by rw [hq 0 (by decide)]; exact g1) _ rfl (by
        rw [hq 1 (by decide), hq 0 (by decide)]
        dsimp only
        rw [← h1]
        exact e1)
      simp only [hq 0 (by decide), hq (0 + 1) (by decide), hq (0 + 2) (by decide)] at r1
      generalize hS : Store.mk _ _ _ = S1 at r1
      have l2 : S1.lock 2 = st.lock 2 := by rw [← hS]; simp [setAt]
      have l1 : (S1.lock 1).heldExclusive = false ∧ (S1.lock 1).heldShared = 0 := by
        rw [← hS]
        simp only [Access.granted, LockState.free, LockState.readable, Bool.and_eq_true, beq_iff_eq, Bool.not_eq_true'] at g1
        cases c1 <;> simp [setAt, Access.acquire, Access.release, g1]
      have m : S1.mem = st.mem := by rw [← hS]
      have h3 : (mover 3 S1).mem 2 = st.mem 1 ∧ (mover 3 S1).lock = S1.lock := by
        simp only [Access.granted, LockState.free, LockState.readable, Bool.and_eq_true, beq_iff_eq, Bool.not_eq_true'] at g2
        have hc : (S1.lock 1).heldExclusive = false ∧ (S1.lock 2).heldExclusive = false ∧ (S1.lock 1).heldShared = 0 ∧ (S1.lock 2).heldShared = 0 := by
          rw [l2]; exact ⟨l1.1, by simp [g2], l1.2, by simp [g2]⟩
        simp only [mover, hc, and_self, if_true, m]
        simp
      have r2 := slot_useRoot mover b1 b2 self full empty 2 cells fuel S1 3 c2 (by rw [h3.2, l2]; exact g2) _ rfl (by
        rw [hq (3 + 1) (by decide)]
        dsimp only
        rw [h3.1, ← h1]
        exact e2)
      generalize Store.mk _ _ _ = S2 at r2
      exact ⟨b2, S2, 3 + 3, by simp only [liveVisits, List.map_cons, List.map_nil, Builder.useRootsL, r1, r2], hb⟩

/-- C69. A value `full` is in the first of two mutexes when their visit begins, the other has `empty` in it; nobody has the locks.  There is a thread that does nothing but once exchange the contents, while the
visit has neither lock, such that the builder is exactly that of two mutexes that both have `full` in them: the value is counted twice, although at every moment it is in one place. -/
theorem C69_counted_twice [Target] (self : Ty) (full empty : Datum) (cells : Ptr → Cell) (fuel : Nat) (st : Store) (hfree : ∀ a, a = 1 ∨ a = 2 → Access.granted (st.lock a) .stdTryLock = true)
    (hm : st.mem 1 = 1 ∧ st.mem 2 = 0) :
    ∃ env : Env, env.Respectful ∧ (∀ n st a, ((st.lock a).heldExclusive = true ∨ 0 < (st.lock a).heldShared) → (env n st).mem a = st.mem a) ∧
      (∀ hs st', env.Occurs False st 0 hs st' → st'.mem 1 = 1 ∧ st'.mem 2 = 0 ∨ st'.mem 1 = 0 ∧ st'.mem 2 = 1) ∧
      ∃ b st' n', Builder.default.useRootsL env (liveVisits (stillCells cells) fuel [slot self full empty 1, slot self full empty 2]) st 0 = .ended b st' n' .returned ∧
        Builder.default.useRoots (visits (fun p => (cells p).visit) fuel [(Datum.cell self true full).value.visit, (Datum.cell self true full).value.visit]) = .ok b :=
  ⟨mover, mover_respectful, mover_keeps, fun _ _ h => mover_oneOfTwo (.inl hm) h, mover_run self full empty cells fuel st hfree full (by rw [hm.1, if_pos rfl])⟩

/-- C69. The same if the value is in the second mutex at the beginning: it is not counted at all. -/
theorem C69_not_counted [Target] (self : Ty) (full empty : Datum) (cells : Ptr → Cell) (fuel : Nat) (st : Store) (hfree : ∀ a, a = 1 ∨ a = 2 → Access.granted (st.lock a) .stdTryLock = true)
    (hm : st.mem 1 = 0 ∧ st.mem 2 = 1) :
    ∃ env : Env, env.Respectful ∧ (∀ n st a, ((st.lock a).heldExclusive = true ∨ 0 < (st.lock a).heldShared) → (env n st).mem a = st.mem a) ∧
      (∀ hs st', env.Occurs False st 0 hs st' → st'.mem 1 = 1 ∧ st'.mem 2 = 0 ∨ st'.mem 1 = 0 ∧ st'.mem 2 = 1) ∧
      ∃ b st' n', Builder.default.useRootsL env (liveVisits (stillCells cells) fuel [slot self full empty 1, slot self full empty 2]) st 0 = .ended b st' n' .returned ∧
        Builder.default.useRoots (visits (fun p => (cells p).visit) fuel [(Datum.cell self true empty).value.visit, (Datum.cell self true empty).value.visit]) = .ok b :=
  ⟨mover, mover_respectful, mover_keeps, fun _ _ h => mover_oneOfTwo (.inr hm) h, mover_run self full empty cells fuel st hfree empty (by rw [hm.1, if_neg (by decide)])⟩

/-! An `Option<String>` with 100 bytes. -/
namespace MovedEx
def tMutex : Ty := ⟨ascii "std::sync::Mutex<core::option::Option<alloc::string::String>>", 32, true⟩
def tOption : Ty := ⟨ascii "core::option::Option<alloc::string::String>", 24, true⟩
def tString : Ty := ⟨ascii "alloc::string::String", 24, true⟩
def full : Datum := .some tOption (.string tString 100 100)
def empty : Datum := .none tOption
def store (x : Nat) : Store := ⟨fun _ => ⟨false, 0, false, false, true, false, 0⟩, fun _ => ⟨1, 0, 0⟩, fun a => if a = 1 then x else 1 - x⟩

attribute [local instance] Target.x64 in
example := C69_counted_twice tMutex full empty (fun _ => .arc 16 (.plain tString)) 0 (store 1) (fun _ _ => rfl) ⟨rfl, rfl⟩
attribute [local instance] Target.x64 in
example := C69_not_counted tMutex full empty (fun _ => .arc 16 (.plain tString)) 0 (store 0) (fun _ _ => rfl) ⟨rfl, rfl⟩

/-- The total of the two mutexes `a` and `b`. -/
def total [Target] (a b : Datum) : Option Nat :=
  match run (HashOrder.id _) (visits (fun _ => .nil) 0 [(Datum.cell tMutex true a).value.visit, (Datum.cell tMutex true b).value.visit]) with
  | .ok out => some out.flamegraph.totalSize
  | _ => none
attribute [local instance] Target.x64 in
/-- The totals: 264 bytes and 64 bytes, while at every moment the two mutexes and the string have 164. -/
example : total full full = some 264 ∧ total empty empty = some 64 ∧ total full empty = some 164 ∧ total empty full = some 164 := by
  refine ⟨?_, ?_, ?_, ?_⟩ <;> decide +kernel
end MovedEx

end Allocative
