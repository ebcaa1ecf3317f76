import Verif.Spec.SizeSession
import Verif.Props.Session
import Verif.Props.Totals
set_option linter.unusedSimpArgs false
/-
C66: any calls during `size_of_unique_allocated_data`.
-/
namespace Allocative

/-- The kinds that a visitor of `size_of_unique_allocated_data` can have. -/
def SizeOf.Session.Unshared (s : SizeOf.Session) : Prop := NodeKind.shared ∉ s.live

theorem SizeOf.Session.step_cases (s : SizeOf.Session) (h : s.Unshared) (op : Op) :
    s.step op = none ∨ ∃ s' evs, s.step op = some (.ok (s', evs)) ∧ s'.Unshared ∧ s'.live = op.liveAfter s.live ∧
      s'.size = s.size + bytesBehindUnique s.live [op] ∧ ∀ k n p r, Event.shared k n p r ∈ evs → r = false := by
  obtain ⟨size, live⟩ := s
  simp only [SizeOf.Session.Unshared] at h ⊢
  cases op with
  | root => exact .inl rfl
  | enter k n =>
    cases live with
    | nil => exact .inl rfl
    | cons kind live =>
      right
      refine ⟨⟨_, _⟩, _, rfl, by simp_all, rfl, ?_, by simp⟩
      cases kind <;> simp [bytesBehindUnique]
  | enterUnique k n =>
    cases live with
    | nil => exact .inl rfl
    | cons kind live => exact .inr ⟨⟨_, _⟩, _, rfl, by simp_all, rfl, by simp [bytesBehindUnique], by simp⟩
  | enterShared k n p =>
    cases live with
    | nil => exact .inl rfl
    | cons kind live =>
      refine .inr ⟨⟨_, _⟩, _, rfl, h, rfl, by simp [bytesBehindUnique], ?_⟩
      intro k n p r hr
      simp only [List.mem_singleton, Event.shared.injEq] at hr
      exact hr.2.2.2
  | exit =>
    cases live with
    | nil => exact .inl rfl
    | cons kind live =>
      simp only [List.mem_cons, not_or] at h
      right
      refine ⟨⟨size, live⟩, [.exit kind], ?_, h.2, rfl, by simp [bytesBehindUnique], by simp⟩
      cases kind <;> first | rfl | exact absurd rfl h.1
  | drop =>
    cases live with
    | nil => exact .inl rfl
    | cons kind live =>
      simp only [List.mem_cons, not_or] at h
      right
      refine ⟨⟨size, live⟩, [.exit kind], ?_, h.2, rfl, by simp [bytesBehindUnique], by simp⟩
      cases kind <;> first | rfl | exact absurd rfl h.1
  | forget =>
    cases live with
    | nil => exact .inl rfl
    | cons kind live =>
      simp only [List.mem_cons, not_or] at h
      exact .inr ⟨⟨size, live⟩, [], rfl, h.2, rfl, by simp [bytesBehindUnique], by simp⟩

theorem Sess.run_sizeOf (ops : List Op) : ∀ s : SizeOf.Session, s.Unshared → (Sess.sizeOf s).run ops = none ∨
    ∃ s' log, (Sess.sizeOf s).run ops = some (.ok (.sizeOf s', log)) ∧ s'.Unshared ∧ s'.live = liveAfter s.live ops ∧
      s'.size = s.size + bytesBehindUnique s.live ops ∧ ∀ k n p r, Event.shared k n p r ∈ log → r = false := by
  induction ops with
  | nil => intro s h; exact .inr ⟨s, [], rfl, h, rfl, rfl, by simp⟩
  | cons op ops ih =>
    intro s h
    rcases s.step_cases h op with e | ⟨s1, evs, e, h1, hl1, hs1, hr1⟩
    · left; simp only [Sess.run, Sess.step, e, Option.map_none]
    rcases ih s1 h1 with e' | ⟨s2, log, e', h2, hl2, hs2, hr2⟩
    · left; simp only [Sess.run, Sess.step, e, Option.map_some, e']
    · right
      refine ⟨s2, evs ++ log, by simp only [Sess.run, Sess.step, e, Option.map_some, e'], h2, ?_, ?_, ?_⟩
      · rw [hl2, hl1]; rfl
      · rw [hs2, hs1, hl1]
        simp only [bytesBehindUnique]
        omega
      · intro k n p r hr
        rcases List.mem_append.1 hr with hr | hr
        · exact hr1 _ _ _ _ hr
        · exact hr2 _ _ _ _ hr

/-- C66. Operations on any number of builders and calls of `size_of_unique_allocated_data`, interleaved in any way: each is in the state, and has seen the calls, that
the operations on it alone would give. -/
theorem C66_independent (ops : List (Nat × Op)) : ∀ (u u' : Sessions) (log : List (Nat × Event)), u.run ops = some (.ok (u', log)) → ∀ i,
    (u i).run (opsOf i ops) = some (.ok (u' i, callsOf i log)) := by
  induction ops with
  | nil =>
    intro u u' log h i
    simp only [Sessions.run, Option.some.injEq, Except.ok.injEq, Prod.mk.injEq] at h
    obtain ⟨rfl, rfl⟩ := h
    rfl
  | cons x ops ih =>
    intro u u' log h i
    obtain ⟨j, op⟩ := x
    simp only [Sessions.run] at h
    split at h
    · cases h
    · cases h
    rename_i s evs e
    split at h
    · cases h
    · cases h
    rename_i u1 log1 e1
    simp only [Option.some.injEq, Except.ok.injEq, Prod.mk.injEq] at h
    obtain ⟨rfl, rfl⟩ := h
    have := ih _ _ _ e1 i
    rw [callsOf_append]
    by_cases hj : j = i
    · subst hj
      simp only [if_true] at this
      simp only [opsOf, List.filter_cons, decide_true, if_true, List.map_cons, Sess.run, e] at this ⊢
      simp only [this, callsOf_same]
    · have hij : ¬ i = j := fun h => hj h.symm
      simp only [if_neg hij] at this
      rw [callsOf_other hij]
      simp only [opsOf, List.filter_cons, decide_eq_false hj, List.nil_append] at this ⊢
      exact this

/-- All calls of `size_of_unique_allocated_data` are in order. -/
def Sessions.Ok (u : Sessions) : Prop := ∀ i s, u i = .sizeOf s → s.Unshared

theorem Sessions.panic_by_builder (ops : List (Nat × Op)) : ∀ (u : Sessions) (e : Panic), u.Ok → u.run ops = some (.error e) →
    ∃ done i op s u' log, done ++ [(i, op)] <+: ops ∧ u.run done = some (.ok (u', log)) ∧ u' i = .builder s ∧ s.step op = some (.error e) := by
  induction ops with
  | nil => intro u e _ h; cases h
  | cons x ops ih =>
    intro u e hu h
    obtain ⟨i, op⟩ := x
    simp only [Sessions.run] at h
    split at h
    · cases h
    · rename_i e1 he
      simp only [Option.some.injEq, Except.error.injEq] at h
      subst h
      refine ⟨[], i, op, ?_⟩
      cases hs : u i with
      | builder s =>
        refine ⟨s, u, [], ⟨ops, rfl⟩, rfl, hs, ?_⟩
        rw [hs] at he
        simp only [Sess.step] at he
        cases hx : s.step op with
        | none => rw [hx] at he; cases he
        | some r =>
          rw [hx] at he
          cases r with
          | error e2 => simp only [Option.map_some, Option.some.injEq, Except.error.injEq] at he; rw [he]
          | ok r => simp at he
      | sizeOf s =>
        rw [hs] at he
        rcases s.step_cases (hu i s hs) op with h | ⟨s', evs, h, _⟩ <;> simp [Sess.step, h] at he
    · rename_i s evs he
      split at h
      · cases h
      · rename_i e1 he1
        simp only [Option.some.injEq, Except.error.injEq] at h
        subst h
        have hok : Sessions.Ok (fun j => if j = i then s else u j) := by
          intro j s' hj
          by_cases hji : j = i
          · simp only [if_pos hji] at hj
            cases hui : u i with
            | builder b =>
              rw [hui] at he
              simp only [Sess.step] at he
              cases hx : b.step op with
              | none => rw [hx] at he; cases he
              | some r =>
                rw [hx] at he
                cases r with
                | error e2 => simp at he
                | ok r =>
                  simp only [Option.map_some, Option.some.injEq, Except.ok.injEq, Prod.mk.injEq] at he
                  rw [← he.1] at hj; cases hj
            | sizeOf b =>
              rw [hui] at he
              rcases b.step_cases (hu i b hui) op with h | ⟨s2, evs2, h, h2, _⟩
              · simp [Sess.step, h] at he
              · simp only [Sess.step, h, Option.map_some, Option.some.injEq, Except.ok.injEq, Prod.mk.injEq] at he
                rw [← he.1] at hj
                cases hj
                exact h2
          · simp only [if_neg hji] at hj; exact hu j s' hj
        obtain ⟨done, i', op', s', u', log, ⟨t, hp⟩, hr, hb, hst⟩ := ih _ _ hok he1
        refine ⟨(i, op) :: done, i', op', s', u', evs.map (fun ev => (i, ev)) ++ log, ⟨t, by simp [← hp]⟩, ?_, hb, hst⟩
        simp only [Sessions.run, he, hr]
      · cases h

/-- C66. Calls of `size_of_unique_allocated_data` number `i`, whatever is called on its visitors (forgotten ones included), and whatever else is done in between with
builders and with other such calls: the size that it returns is the sum of the sizes of the `enter` calls made on visitors that came from `enter_unique`, and
`enter_shared` has always returned `None`. -/
theorem C66_sum (u u' : Sessions) (ops : List (Nat × Op)) (log : List (Nat × Event)) (i : Nat) (hi : u i = .sizeOf .start)
    (h : u.run ops = some (.ok (u', log))) :
    ∃ s, u' i = .sizeOf s ∧ s.size = bytesBehindUnique [.root] (opsOf i ops) ∧
      ∀ name size ptr returnedSome, (i, Event.shared name size ptr returnedSome) ∈ log → returnedSome = false := by
  have := C66_independent ops u u' log h i
  rw [hi] at this
  rcases Sess.run_sizeOf (opsOf i ops) .start (by simp [SizeOf.Session.Unshared, SizeOf.Session.start]) with e | ⟨s, l, e, _, _, hs, hr⟩
  · rw [e] at this; cases this
  · rw [e] at this
    simp only [Option.some.injEq, Except.ok.injEq, Prod.mk.injEq] at this
    obtain ⟨hu, rfl⟩ := this
    refine ⟨s, hu.symm, by rw [hs]; simp [SizeOf.Session.start], ?_⟩
    intro name size ptr r hm
    refine hr name size ptr r ?_
    simp only [callsOf, List.mem_map, List.mem_filter]
    exact ⟨_, ⟨hm, by simp⟩, rfl⟩

/-- C66. No call on a visitor of `size_of_unique_allocated_data` panics (`unreachable!` is not reached): if a run of user code ends with a panic of the library, then
the call was one on a builder. -/
theorem C66_no_panic (u : Sessions) (hu : ∀ i, (∃ s, u i = .builder s) ∨ u i = .sizeOf .start) (ops : List (Nat × Op)) (e : Panic)
    (h : u.run ops = some (.error e)) :
    ∃ done i op s u' log, done ++ [(i, op)] <+: ops ∧ u.run done = some (.ok (u', log)) ∧ u' i = .builder s ∧ s.step op = some (.error e) := by
  refine Sessions.panic_by_builder ops u e ?_ h
  intro i s hs
  rcases hu i with ⟨b, hb⟩ | hb
  · rw [hb] at hs; cases hs
  · rw [hb] at hs; cases hs
    simp [SizeOf.Session.Unshared, SizeOf.Session.start]

/-! ### Visit programs are such sequences of calls, leaking ones included. -/

/-- The operations lead from one state to the other. -/
def SizeOf.Session.Via (ops : List Op) (s s' : SizeOf.Session) : Prop := ∃ log, (Sess.sizeOf s).run ops = some (.ok (.sizeOf s', log))

theorem SizeOf.Session.Via.nil (s : SizeOf.Session) : Via [] s s := ⟨[], rfl⟩

theorem SizeOf.Session.Via.cons {s s1 s2 : SizeOf.Session} {op : Op} {ops : List Op} {evs : List Event} (h : s.step op = some (.ok (s1, evs)))
    (h' : Via ops s1 s2) : Via (op :: ops) s s2 := by
  obtain ⟨log, e⟩ := h'
  exact ⟨evs ++ log, by simp only [Sess.run, Sess.step, h, Option.map_some, e]⟩

theorem SizeOf.Session.Via.append {ops ops' : List Op} : ∀ {s s1 s2 : SizeOf.Session}, Via ops s s1 → Via ops' s1 s2 → Via (ops ++ ops') s s2 := by
  induction ops with
  | nil =>
    rintro s s1 s2 ⟨l, h⟩ h'
    simp only [Sess.run, Option.some.injEq, Except.ok.injEq, Prod.mk.injEq, Sess.sizeOf.injEq] at h
    rw [h.1]; exact h'
  | cons op ops ih =>
    rintro s s1 s2 ⟨l, h⟩ h'
    simp only [Sess.run, Sess.step] at h
    cases hx : s.step op with
    | none => rw [hx] at h; cases h
    | some r =>
      rw [hx] at h
      cases r with
      | error e => cases h
      | ok r =>
        obtain ⟨s3, evs⟩ := r
        simp only [Option.map_some] at h
        split at h
        · cases h
        · cases h
        rename_i s4 log e
        simp only [Option.some.injEq, Except.ok.injEq, Prod.mk.injEq] at h
        obtain ⟨rfl, rfl⟩ := h
        exact .cons hx (ih ⟨log, e⟩ h')

theorem SizeOf.Session.via_finish {n : Nat} {kind : NodeKind} (hk : kind ≠ .shared) (f : Fate) (ctl : Ctl) (live : List NodeKind) :
    SizeOf.visitorImpl.finishChild kind f ctl n = .ok n ∧ Via [f.op ctl] ⟨n, kind :: live⟩ ⟨n, live⟩ := by
  cases kind <;> first | exact absurd rfl hk | (cases f <;> cases ctl <;> exact ⟨rfl, .cons rfl (.nil _)⟩)

theorem SizeOf.Session.via_exec (prog : Prog) : ∀ (kind : NodeKind) (n : Nat) (live : List NodeKind), kind ≠ .shared →
    ∃ n', exec SizeOf.visitorImpl prog kind n = .ok (n', prog.opsUnshared.2) ∧ Via prog.opsUnshared.1 ⟨n, kind :: live⟩ ⟨n', kind :: live⟩ := by
  induction prog with
  | done => intro kind n live _; exact ⟨n, rfl, .nil _⟩
  | panic => intro kind n live _; exact ⟨n, rfl, .nil _⟩
  | enter k m f body rest ih1 ih2 =>
    intro kind n live hk
    obtain ⟨n1, e1⟩ : ∃ n1, SizeOf.visitorImpl.enterInlineImpl n k m kind = .ok n1 := ⟨_, rfl⟩
    obtain ⟨n2, e2, h2⟩ := ih1 .inline n1 (kind :: live) (by simp)
    have h0 : ∀ ctl, Via (.enter k m :: body.opsUnshared.1 ++ [f.op ctl]) ⟨n, kind :: live⟩ ⟨n2, kind :: live⟩ := fun ctl =>
      .cons (by simp only [SizeOf.Session.step, e1]; rfl) (h2.append (via_finish (by simp) f ctl _).2)
    cases hb : body.opsUnshared.2 with
    | unwinding =>
      refine ⟨n2, ?_, ?_⟩
      · simp only [exec, e1, e2, hb, (via_finish (n := n2) (kind := .inline) (by simp) f .unwinding live).1, Prog.opsUnshared]
      · have := h0 .unwinding
        simp only [Prog.opsUnshared, hb]; exact this
    | returned =>
      obtain ⟨n3, e3, h3⟩ := ih2 kind n2 live hk
      refine ⟨n3, ?_, ?_⟩
      · simp only [exec, e1, e2, hb, (via_finish (n := n2) (kind := .inline) (by simp) f .returned live).1, e3, Prog.opsUnshared]
      · have := (h0 .returned).append h3
        simp only [Prog.opsUnshared, hb]; exact this
  | enterUnique k m f body rest ih1 ih2 =>
    intro kind n live hk
    obtain ⟨n1, e1⟩ : ∃ n1, SizeOf.visitorImpl.enterUniqueImpl n k m kind = .ok n1 := ⟨_, rfl⟩
    obtain ⟨n2, e2, h2⟩ := ih1 .unique n1 (kind :: live) (by simp)
    have h0 : ∀ ctl, Via (.enterUnique k m :: body.opsUnshared.1 ++ [f.op ctl]) ⟨n, kind :: live⟩ ⟨n2, kind :: live⟩ := fun ctl =>
      .cons (by simp only [SizeOf.Session.step, e1]; rfl) (h2.append (via_finish (by simp) f ctl _).2)
    cases hb : body.opsUnshared.2 with
    | unwinding =>
      refine ⟨n2, ?_, ?_⟩
      · simp only [exec, e1, e2, hb, (via_finish (n := n2) (kind := .unique) (by simp) f .unwinding live).1, Prog.opsUnshared]
      · have := h0 .unwinding
        simp only [Prog.opsUnshared, hb]; exact this
    | returned =>
      obtain ⟨n3, e3, h3⟩ := ih2 kind n2 live hk
      refine ⟨n3, ?_, ?_⟩
      · simp only [exec, e1, e2, hb, (via_finish (n := n2) (kind := .unique) (by simp) f .returned live).1, e3, Prog.opsUnshared]
      · have := (h0 .returned).append h3
        simp only [Prog.opsUnshared, hb]; exact this
  | enterShared k m p f body rs rn ih1 ih2 ih3 =>
    intro kind n live hk
    obtain ⟨n1, e1, h1⟩ := ih3 kind n live hk
    refine ⟨n1, ?_, ?_⟩
    · simp only [exec, SizeOf.visitorImpl]
      exact e1
    · exact .cons (op := .enterShared k m p) rfl h1
  | catchUnwind body rest ih1 ih2 =>
    intro kind n live hk
    obtain ⟨n1, e1, h1⟩ := ih1 kind n live hk
    obtain ⟨n2, e2, h2⟩ := ih2 kind n1 live hk
    exact ⟨n2, by simp only [exec, e1, e2, Prog.opsUnshared], h1.append h2⟩

/-- C66. The operations of every visit program (leaking ones included) are admitted; `size_of_unique_allocated_data` returns for it the sum of the sizes of the `enter`
calls made on visitors that came from `enter_unique`, or panics if the visit panics. -/
theorem C66_programs (prog : Prog) :
    (∃ (log : List Event) (s : SizeOf.Session), (Sess.sizeOf .start).run (prog.opsUnshared.1 ++ [Fate.exit.op prog.opsUnshared.2]) = some (.ok (.sizeOf s, log)) ∧
      s.live = []) ∧
    SizeOf.sizeOfUniqueAllocatedData prog = .ok (if prog.opsUnshared.2 = .returned then some (bytesBehindUnique [.root] prog.opsUnshared.1) else none) := by
  obtain ⟨n, e, h⟩ := SizeOf.Session.via_exec prog .root 0 [] (by simp)
  have hf := SizeOf.Session.via_finish (n := n) (kind := .root) (by simp) .exit prog.opsUnshared.2 []
  obtain ⟨log, hv⟩ := h.append hf.2
  refine ⟨⟨log, _, hv, rfl⟩, ?_⟩
  obtain ⟨l, hl⟩ := h
  rcases Sess.run_sizeOf prog.opsUnshared.1 .start (by simp [SizeOf.Session.Unshared, SizeOf.Session.start]) with h | ⟨s, l', h, _, _, hs, _⟩
  · exact absurd (h.symm.trans hl) (by simp)
  · have := h.symm.trans hl
    simp only [Option.some.injEq, Except.ok.injEq, Prod.mk.injEq, Sess.sizeOf.injEq] at this
    rw [this.1] at hs
    simp only [SizeOf.Session.start, Nat.zero_add] at hs
    simp only [SizeOf.sizeOfUniqueAllocatedData, e, hf.1, ← hs]
    cases prog.opsUnshared.2 <;> simp

/-! ### A concrete case -/

namespace SizeSessionExamples
open SessionExamples (k)

/-- Number 0 is a builder, all others are calls of `size_of_unique_allocated_data`. -/
def u : Sessions := fun i => if i = 0 then .builder .start else .sizeOf .start

/-- A vector of 24 bytes of data inside of a box is visited by call 1; meanwhile call 2 (of another value), and builder 0; a visitor is forgotten, then used on: the
`enter` of 100 bytes is made on the visitor from `enter_unique`; the root visitor is dropped before the end. -/
def ops : List (Nat × Op) :=
  [(1, .enter (k "A") 24), (1, .enterUnique (k "ptr") 8), (0, .root), (2, .enterUnique (k "b") 8), (0, .enterShared (k "p") 8 7), (1, .enter (k "T") 24), (1, .forget),
    (2, .enter (k "U") 5), (1, .enter (k "T") 100), (1, .enterShared (k "p") 8 7), (1, .enter (k "V") 1000), (1, .exit), (1, .drop), (1, .exit), (0, .drop), (1, .drop), (1, .drop),
    (0, .drop), (2, .exit)]

example : (match u.run ops with
    | some (.ok (u', log)) => match u' 1, u' 2 with
      | .sizeOf a, .sizeOf b => (a, b, log.length)
      | _, _ => (.start, .start, 0)
    | _ => (.start, .start, 0)) = (⟨124, []⟩, ⟨5, [.unique, .root]⟩, 18) := by decide +kernel

example : bytesBehindUnique [.root] (opsOf 1 ops) = 124 ∧ bytesBehindUnique [.root] (opsOf 2 ops) = 5 := by decide

-- a run that ends with a panic: of the builder
example : (match u.run [(1, .enter (k "A") 24), (0, .root), (0, .forget), (1, .exit), (0, .root)] with
    | some (.error e) => some e
    | _ => none) = some .assertRootNotEntered := by decide +kernel

example (i : Nat) : (∃ s, u i = .builder s) ∨ u i = .sizeOf .start := by
  by_cases h : i = 0
  · exact .inl ⟨.start, by simp [u, h]⟩
  · exact .inr (by simp [u, h])

-- a program that leaks its visitors
example : SizeOf.sizeOfUniqueAllocatedData (.enterUnique (k "ptr") 8 .leak (.enter (k "T") 24 .forget .done (.enter (k "T") 100 .leak (.enter (k "V") 7 .exit .done .done) .done)) .done) =
    .ok (some 124) := rfl
end SizeSessionExamples

/-! The theorems of this file with a concrete case of their hypotheses. -/
namespace SizeSessionExamples
open SessionExamples (k)

theorem u_start (i : Nat) : (∃ s, u i = .builder s) ∨ u i = .sizeOf .start := by
  by_cases h : i = 0
  · exact .inl ⟨.start, by simp [u, h]⟩
  · exact .inr (by simp [u, h])

theorem ops_run : ∃ u' log, u.run ops = some (.ok (u', log)) := by
  have h := show (match u.run ops with | some (.ok _) => true | _ => false) = true by decide +kernel
  cases e : u.run ops with
  | none => rw [e] at h; cases h
  | some x =>
    cases x with
    | error p => rw [e] at h; cases h
    | ok x => exact ⟨x.1, x.2, rfl⟩

/-- Call 1 finds 124 bytes, whatever else goes on. -/
example : ∃ u' log s, u.run ops = some (.ok (u', log)) ∧ u' 1 = .sizeOf s ∧ s.size = 124 := by
  obtain ⟨u', log, h⟩ := ops_run
  obtain ⟨s, h1, h2, -⟩ := C66_sum u u' ops log 1 rfl h
  exact ⟨u', log, s, h, h1, h2⟩
example : ∃ u' log, u.run ops = some (.ok (u', log)) ∧ ∀ i, (u i).run (opsOf i ops) = some (.ok (u' i, callsOf i log)) := by
  obtain ⟨u', log, h⟩ := ops_run
  exact ⟨u', log, h, C66_independent ops u u' log h⟩

/-- The panic of the builder. -/
def panicOps : List (Nat × Op) := [(1, .enter (k "A") 24), (0, .root), (0, .forget), (1, .exit), (0, .root)]
example : ∃ done i op s u' log, done ++ [(i, op)] <+: panicOps ∧ u.run done = some (.ok (u', log)) ∧ u' i = .builder s ∧ s.step op = some (.error .assertRootNotEntered) :=
  C66_no_panic u u_start panicOps .assertRootNotEntered (by
    have h := show (match u.run panicOps with | some (.error .assertRootNotEntered) => true | _ => false) = true by decide +kernel
    cases e : u.run panicOps with
    | none => rw [e] at h; cases h
    | some x =>
      cases x with
      | ok x => rw [e] at h; cases h
      | error p => rw [e] at h; cases p <;> first | rfl | cases h)

end SizeSessionExamples

end Allocative
