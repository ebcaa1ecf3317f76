import Verif.Lemmas.Cut
import Verif.Props.Core
/-
C07, C11, C13, C14, C15: what single visits do to the builder.
-/
namespace Allocative

/-- C07. In the log of any history (leaking ones included), the answers of `enter_shared` are exactly determined: `Some` iff
no earlier call of the whole life of the builder had the same address.  The log is that of the actual run: erasing it gives
the same builder. -/
theorem C07_shared_entered_once (hist : List (Prog × Fate)) (b : Builder) (log : List Event)
    (h : Builder.default.useRootsLogged [] hist = .ok (b, log)) :
    Builder.default.useRoots hist = .ok b ∧
    ∀ before name size ptr returnedSome after, log = before ++ .shared name size ptr returnedSome :: after →
      (returnedSome = true ↔ ∀ name' size' r', Event.shared name' size' ptr r' ∉ before) := by
  constructor
  · have := useRootsLogged_erase hist Builder.default []
    rw [h] at this; exact this.symm
  · obtain ⟨new, e, f, _⟩ := Idle.default.useRootsLogged h
    intro l1 k n p r l2 hs
    simp only [List.nil_append] at e
    rw [firstOnly_split f (e.symm.trans hs)]
    have : ∀ l : List Event, p ∉ sharedPtrs l ↔ ∀ k n r, Event.shared k n p r ∉ l := by
      intro l
      induction l with
      | nil => simp [sharedPtrs]
      | cons e es ih =>
        cases e <;> simp only [sharedPtrs, List.mem_cons, not_or, ih, reduceCtorEq, not_false_eq_true, true_and]
        constructor
        · rintro ⟨h1, h2⟩ k n r
          exact ⟨by simp only [Event.shared.injEq]; rintro ⟨_, _, h, _⟩; exact h1 h, h2 k n r⟩
        · intro h
          exact ⟨fun hp => (h _ _ _).1 (by subst hp; rfl), fun k n r => (h k n r).2⟩
    rw [← this]
    simp [Builder.default]

/-- C11 and the second half of C07. For a history without leaks, the log is well formed (every visitor ends
exactly once, innermost first, with the exit of its own kind) and the records that determine the flame graph
(C01) are those read off the log with the stack rule `stackOf`: every enter call, successful or not, adds its declared
size at the names entered since the innermost shared or root visitor. -/
theorem C11_stacks_of_calls (hist : List (Prog × Fate)) (hl : NoLeaks hist) :
    ∃ b log, Builder.default.useRootsLogged [] hist = .ok (b, log) ∧ Builder.default.useRoots hist = .ok b ∧
      replay [] log = some ([], records hist) := by
  obtain ⟨b, paths, e, _⟩ := useRoots_default hl
  have he := useRootsLogged_erase hist Builder.default []
  cases h : Builder.default.useRootsLogged [] hist with
  | error e' => rw [h, e] at he; cases he
  | ok r =>
    obtain ⟨b', log⟩ := r
    rw [h, e] at he
    simp only [Except.ok.injEq] at he
    subst he
    obtain ⟨new, e1, _, _, hr⟩ := Idle.default.useRootsLogged h
    simp only [List.nil_append] at e1
    subst e1
    exact ⟨b', log, rfl, e, hr hl⟩

/-- C15. In any history every visitor created is ended at most once, and those not ended are exactly the leaked ones. -/
theorem C15_one_exit_per_visitor (hist : List (Prog × Fate)) (b : Builder) (log : List Event)
    (h : Builder.default.useRootsLogged [] hist = .ok (b, log)) :
    log.countP Event.creates = log.countP Event.ends + (traceRoots hist []).leaked := by
  obtain ⟨new, e1, _, c, _⟩ := Idle.default.useRootsLogged h
  simp only [List.nil_append] at e1
  subst e1
  exact c

/-- C15. Ending visitors with `exit()` or by drop is the same for every visitor implementation: programs that
differ only in this choice do the same to every state. -/
theorem C15_exit_drop_same {σ : Type} (impl : VisitorImpl σ) (P Q : Prog) (h : P.dropToExit = Q.dropToExit) (kind : NodeKind)
    (s : σ) : exec impl P kind s = exec impl Q kind s := by
  rw [← exec_dropToExit impl P, h, exec_dropToExit]

/-- C13. The root visit in which a visitor is leaked is the last thing the builder ever does: afterwards `root_visitor` and `finish`
panic. -/
theorem C13_leak_blocks_builder (pre : List (Prog × Fate)) (x : Prog × Fate) (hpre : NoLeaks pre) (hx : ¬ NoLeaks (pre ++ [x])) :
    ∃ b, Builder.default.useRoots (pre ++ [x]) = .ok b ∧ b.rootVisitor = .error .assertRootNotEntered ∧
      (∀ ord, b.finish ord = .error .assertFinish) ∧ (∀ ord ord', b.finishAndWriteFlameGraph ord ord' = .error .assertFinish) := by
  have both : ∀ b : Builder, (∀ ord, b.finish ord = .error .assertFinish) →
      (∀ ord, b.finish ord = .error .assertFinish) ∧ (∀ ord ord', b.finishAndWriteFlameGraph ord ord' = .error .assertFinish) :=
    fun b h => ⟨h, fun ord ord' => by simp only [Builder.finishAndWriteFlameGraph, h ord]⟩
  obtain ⟨prog, fate⟩ := x
  obtain ⟨b0, paths0, e0, i0, v0⟩ := Idle.default.useRoots (hist := pre) hpre
  obtain ⟨b1, ctl, e1, l1⟩ := i0.useRoot_leak prog fate (by
    rw [v0]
    apply Nat.pos_of_ne_zero
    intro h
    apply hx
    unfold NoLeaks at hpre ⊢
    rw [(traceRoots_append _ _ _).2.2]
    simp only [traceRoots, hpre]
    simp only [Builder.default] at h
    omega)
  refine ⟨b1, ?_, ?_, both _ ?_⟩
  · rw [useRoots_append, e0]; simp only [Builder.useRoots, e1]
  · simp [Builder.rootVisitor, l1.entered]
  · intro ord
    have : b1.finishImpl ord = .error .assertFinish := by
      simp only [Builder.finishImpl, l1.entered]
      split
      · rfl
      · split <;> rfl
    simp only [Builder.finish, this]

/-- C13. A builder from which a visitor was leaked at any time never returns a flame graph. -/
theorem C13_leak_never_finishes (hist : List (Prog × Fate)) (h : ¬ NoLeaks hist) (ord : HashOrder TreeId) :
    run ord hist = .error .assertRootNotEntered ∨ run ord hist = .error .assertFinish := by
  -- the first leaking root
  have split : ∀ (l : List (Prog × Fate)), ¬ NoLeaks l → ∃ pre x post, l = pre ++ x :: post ∧ NoLeaks pre ∧ ¬ NoLeaks (pre ++ [x]) := by
    intro l hl
    have : ∀ (post pre : List (Prog × Fate)), NoLeaks pre → ¬ NoLeaks (pre ++ post) →
        ∃ pre' x post', pre ++ post = pre' ++ x :: post' ∧ NoLeaks pre' ∧ ¬ NoLeaks (pre' ++ [x]) := by
      intro post
      induction post with
      | nil => intro pre h1 h2; rw [List.append_nil] at h2; exact absurd h1 h2
      | cons x post ih =>
        intro pre h1 h2
        by_cases hx : NoLeaks (pre ++ [x])
        · obtain ⟨a, b, c, e, h⟩ := ih (pre ++ [x]) hx (by simpa using h2)
          exact ⟨a, b, c, by simpa using e, h⟩
        · exact ⟨pre, x, post, rfl, h1, hx⟩
    simpa using this l [] (by decide) (by simpa using hl)
  obtain ⟨pre, x, post, rfl, hpre, hx⟩ := split hist h
  obtain ⟨b, e, hr, hf, -⟩ := C13_leak_blocks_builder pre x hpre hx
  cases post with
  | nil => right; simp only [run, e, hf]
  | cons y post =>
    left
    obtain ⟨prog, fate⟩ := y
    have : Builder.default.useRoots (pre ++ x :: (prog, fate) :: post) = .error .assertRootNotEntered := by
      rw [show pre ++ x :: (prog, fate) :: post = (pre ++ [x]) ++ (prog, fate) :: post by simp, useRoots_append, e]
      simp only [Builder.useRoots, Builder.useRoot, hr]
    simp only [run, this]

/-- C14. If a visit panics at any point (`CutTo`) and the panic is caught outside of the visit, the builder is usable
again: it accepts root visits and finishes; the records are those of the panic-free visit up to some point. (That none is lost
is `C11_stacks_of_calls`: the records are those of all calls made.) -/
theorem C14_panic_keeps_builder (pre : List (Prog × Fate)) (P Q : Prog) (fate : Fate) (hc : CutTo P Q)
    (hl : NoLeaks (pre ++ [(P, fate)])) :
    NoLeaks (pre ++ [(Q, fate)]) ∧
    records (pre ++ [(Q, fate)]) <+: records (pre ++ [(P, fate)]) ∧
    records pre <+: records (pre ++ [(Q, fate)]) ∧
    ∃ b, Builder.default.useRoots (pre ++ [(Q, fate)]) = .ok b ∧ (∃ b', b.rootVisitor = .ok b') ∧
      ∀ ord, ∃ out, b.finish ord = .ok out := by
  have hq : NoLeaks (pre ++ [(Q, fate)]) ∧ records (pre ++ [(Q, fate)]) <+: records (pre ++ [(P, fate)]) := by
    have hl' := hl
    unfold NoLeaks at hl' ⊢
    unfold records
    rw [(traceRoots_append _ _ _).2.2] at hl' ⊢
    rw [(traceRoots_append _ _ _).1, (traceRoots_append _ _ _).1]
    simp only [traceRoots, List.append_nil] at hl' ⊢
    rcases hc.trace [] (traceRoots pre []).visited with h | ⟨h, h', h''⟩
    · rw [h]; exact ⟨hl', List.prefix_rfl⟩
    · refine ⟨?_, (List.prefix_append_right_inj _).2 h'⟩
      rw [h]
      have := leaks_unwinding_le fate (P.trace [] (traceRoots pre []).visited).ctl
      omega
  refine ⟨hq.1, hq.2, ?_, ?_⟩
  · unfold records; rw [(traceRoots_append _ _ _).1]; exact List.prefix_append _ _
  · obtain ⟨b, paths, e, i⟩ := useRoots_default hq.1
    refine ⟨b, e, ⟨{ b with enteredRootVisitor := true }, by simp [Builder.rootVisitor, i.notEntered]⟩, fun ord => ?_⟩
    obtain ⟨out, e', _⟩ := C01_self_sizes _ hq.1 ord
    simp only [run, e] at e'
    exact ⟨out, e'⟩

/-! Non-vacuity. -/

/-- A visit that panics inside the shared pointee. -/
def Ex.prog1cut : Prog :=
  .enter (Ex.k "S") 24 .exit
    (.enter (Ex.k "a") 8 .drop .done
      (.enterUnique (Ex.k "b") 8 .exit (Ex.leaf "T" 100)
        (.enterShared (Ex.k "c") 8 7 .drop
          (.enter (Ex.k "Inner") 40 .exit .panic .done)
          .done .done)))
    .done

example : CutTo Ex.prog1 Ex.prog1cut := by
  refine .enter _ _ _ (.enter _ _ _ .done (.enterUnique _ _ _ (.enter _ _ _ .done .done) (.enterShared _ _ _ _ ?_ .done .done))) .done
  exact .enter _ _ _ (.panics _) .done

example : NoLeaks (Ex.hist1 ++ [(Ex.prog1, .exit)]) ∧ records ([(Ex.prog1cut, .exit)]) ≠ records [(Ex.prog1, .exit)] := by decide

-- the cyclic pointee is entered the first time and not the second time, which happens inside of it
example : ∃ b log, Builder.default.useRootsLogged [] [(Ex.prog1, .exit)] = .ok (b, log) ∧
    Event.shared (Ex.k "c") 8 7 true ∈ log ∧ Event.shared (Ex.k "back") 8 7 false ∈ log := by
  refine ⟨_, _, rfl, ?_, ?_⟩ <;> decide

-- a history that leaks
example : NoLeaks [(Ex.prog1, .exit)] ∧ ¬ NoLeaks ([(Ex.prog1, .exit)] ++ [(.enter (Ex.k "S") 1 .forget .done .done, .exit)]) := by
  decide

example : (Prog.enter (Ex.k "S") 1 .drop .done .done).dropToExit = (Prog.enter (Ex.k "S") 1 .exit .done .done).dropToExit := rfl

/-! The theorems of this file with a concrete case of their hypotheses. -/

theorem Ex.prog1_cut : CutTo Ex.prog1 Ex.prog1cut :=
  .enter _ _ _ (.enter _ _ _ .done (.enterUnique _ _ _ (.enter _ _ _ .done .done) (.enterShared _ _ _ _ (.enter _ _ _ (.panics _) .done) .done .done))) .done

example := C07_shared_entered_once [(Ex.prog1, .exit), (Ex.prog1, .drop)] _ _ rfl
example := C11_stacks_of_calls Ex.hist1 Ex.hist1_noLeaks
example := C15_one_exit_per_visitor [(Ex.prog1, .exit), (.enter (Ex.k "S") 1 .forget .done .done, .exit)] _ _ rfl
example : (traceRoots [(Ex.prog1, .exit), (.enter (Ex.k "S") 1 .forget .done .done, .exit)] []).leaked = 1 := by decide
example {σ : Type} (impl : VisitorImpl σ) := C15_exit_drop_same impl (.enter (Ex.k "S") 1 .drop (Ex.leaf "x" 1) .done) (.enter (Ex.k "S") 1 .exit (.enter (Ex.k "x") 1 .drop .done .done) .done) rfl
example := C13_leak_blocks_builder [(Ex.prog1, .exit)] (.enter (Ex.k "S") 1 .forget .done .done, .exit) (by decide) (by decide)
example := C13_leak_never_finishes [(Ex.prog1, .exit), (.enter (Ex.k "S") 1 .forget .done .done, .exit), (Ex.prog1, .exit)] (by decide)
example := C14_panic_keeps_builder Ex.hist1 Ex.prog1 Ex.prog1cut .exit Ex.prog1_cut (by decide)

end Allocative
