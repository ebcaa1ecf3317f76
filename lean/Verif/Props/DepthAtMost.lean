import Verif.Props.DepthOwned
import Verif.Props.Growth
set_option linter.unusedSimpArgs false
/-
C67, continued: how deep visits recurse at most, for any programs.
-/
namespace Allocative

theorem liveVisitors_noLeak {f : Fate} {c : Ctl} (h : f.leaks c = 0) (kind : NodeKind) (d : Nat) :
    liveVisitors (d + 1) (tailOf f c kind) = d ∧ peakLive (d + 1) (tailOf f c kind) = d + 1 := by
  simp only [tailOf, if_pos h]
  have : (Event.exit kind).live (d + 1) = d := rfl
  simp [liveVisitors, peakLive, this]

/-- Calls of a program without leaks below `d` visitors, if no stack is longer than `M`: all its visitors end; the visitors alive beyond the stack `cur` are at most `M` for each address that is new, and `M` more. -/
theorem prog_atMost (M : Nat) (prog : Prog) : ∀ (cur : Path) (vis : List Ptr) (d : Nat), (prog.trace cur vis).leaked = 0 → cur.length ≤ M → (∀ r ∈ (prog.trace cur vis).recs, r.path.length ≤ M) →
    liveVisitors d (prog.logAt cur vis) = d ∧ M * vis.length ≤ M * (prog.trace cur vis).visited.length ∧
    peakLive d (prog.logAt cur vis) + cur.length + M * vis.length ≤ d + M + M * (prog.trace cur vis).visited.length := by
  induction prog with
  | done => intro cur vis d _ hc _; exact ⟨rfl, Nat.le_refl _, by simp only [Prog.trace, Prog.logAt, peakLive]; omega⟩
  | panic => intro cur vis d _ hc _; exact ⟨rfl, Nat.le_refl _, by simp only [Prog.trace, Prog.logAt, peakLive]; omega⟩
  | enter k n f body rest ih1 ih2 =>
    intro cur vis d hl hc hr
    have h1 : (Event.inline k n).live d = d + 1 := rfl
    cases hctl : (body.trace (cur ++ [k]) vis).ctl with
    | unwinding =>
      simp only [Prog.trace, hctl] at hl hr
      have hk := hr _ (List.mem_cons_self ..)
      simp only [List.length_append, List.length_cons, List.length_nil] at hk
      obtain ⟨a1, a2, a3⟩ := ih1 (cur ++ [k]) vis (d + 1) (by omega) (by simp; omega) (fun r h => hr r (List.mem_cons_of_mem _ h))
      obtain ⟨t1, t2⟩ := liveVisitors_noLeak (show f.leaks .unwinding = 0 by omega) .inline d
      simp only [List.length_append, List.length_cons, List.length_nil] at a3
      simp only [Prog.logAt, Prog.trace, hctl, List.append_nil, List.cons_append, liveVisitors_cons, h1, liveVisitors_append, a1, t1, peakLive, peakLive_append, t2]
      exact ⟨trivial, a2, by omega⟩
    | returned =>
      simp only [Prog.trace, hctl] at hl hr
      have hk := hr _ (by simp only [List.cons_append]; exact List.mem_cons_self ..)
      simp only [List.length_append, List.length_cons, List.length_nil] at hk
      obtain ⟨a1, a2, a3⟩ := ih1 (cur ++ [k]) vis (d + 1) (by omega) (by simp; omega) (fun r h => hr r (by simp [h]))
      obtain ⟨t1, t2⟩ := liveVisitors_noLeak (show f.leaks .returned = 0 by omega) .inline d
      obtain ⟨b1, b2, b3⟩ := ih2 cur (body.trace (cur ++ [k]) vis).visited d (by omega) hc (fun r h => hr r (by simp [h]))
      simp only [List.length_append, List.length_cons, List.length_nil] at a3
      simp only [Prog.logAt, Prog.trace, hctl, List.append_assoc, List.cons_append, liveVisitors_cons, h1, liveVisitors_append, a1, t1, b1, peakLive, peakLive_append, t2]
      exact ⟨trivial, by omega, by omega⟩
  | enterUnique k n f body rest ih1 ih2 =>
    intro cur vis d hl hc hr
    have h1 : (Event.unique k n).live d = d + 1 := rfl
    cases hctl : (body.trace (cur ++ [k]) vis).ctl with
    | unwinding =>
      simp only [Prog.trace, hctl] at hl hr
      have hk := hr _ (List.mem_cons_self ..)
      simp only [List.length_append, List.length_cons, List.length_nil] at hk
      obtain ⟨a1, a2, a3⟩ := ih1 (cur ++ [k]) vis (d + 1) (by omega) (by simp; omega) (fun r h => hr r (List.mem_cons_of_mem _ h))
      obtain ⟨t1, t2⟩ := liveVisitors_noLeak (show f.leaks .unwinding = 0 by omega) .unique d
      simp only [List.length_append, List.length_cons, List.length_nil] at a3
      simp only [Prog.logAt, Prog.trace, hctl, List.append_nil, List.cons_append, liveVisitors_cons, h1, liveVisitors_append, a1, t1, peakLive, peakLive_append, t2]
      exact ⟨trivial, a2, by omega⟩
    | returned =>
      simp only [Prog.trace, hctl] at hl hr
      have hk := hr _ (by simp only [List.cons_append]; exact List.mem_cons_self ..)
      simp only [List.length_append, List.length_cons, List.length_nil] at hk
      obtain ⟨a1, a2, a3⟩ := ih1 (cur ++ [k]) vis (d + 1) (by omega) (by simp; omega) (fun r h => hr r (by simp [h]))
      obtain ⟨t1, t2⟩ := liveVisitors_noLeak (show f.leaks .returned = 0 by omega) .unique d
      obtain ⟨b1, b2, b3⟩ := ih2 cur (body.trace (cur ++ [k]) vis).visited d (by omega) hc (fun r h => hr r (by simp [h]))
      simp only [List.length_append, List.length_cons, List.length_nil] at a3
      simp only [Prog.logAt, Prog.trace, hctl, List.append_assoc, List.cons_append, liveVisitors_cons, h1, liveVisitors_append, a1, t1, b1, peakLive, peakLive_append, t2]
      exact ⟨trivial, by omega, by omega⟩
  | enterShared k n ptr f body rs rn ih1 ih2 ih3 =>
    intro cur vis d hl hc hr
    by_cases hv : ptr ∈ vis
    · have h1 : (Event.shared k n ptr false).live d = d := rfl
      simp only [Prog.trace, if_pos hv] at hl hr
      obtain ⟨a1, a2, a3⟩ := ih3 cur vis d hl hc (fun r h => hr r (List.mem_cons_of_mem _ h))
      simp only [Prog.logAt, Prog.trace, if_pos hv, liveVisitors_cons, h1, peakLive]
      exact ⟨a1, a2, by omega⟩
    · have h1 : (Event.shared k n ptr true).live d = d + 1 := rfl
      have hm : M * (ptr :: vis).length = M * vis.length + M := by rw [List.length_cons, Nat.mul_succ]
      cases hctl : (body.trace [] (ptr :: vis)).ctl with
      | unwinding =>
        simp only [Prog.trace, if_neg hv, hctl] at hl hr
        have hk := hr _ (List.mem_cons_self ..)
        simp only [List.length_append, List.length_cons, List.length_nil] at hk
        obtain ⟨a1, a2, a3⟩ := ih1 [] (ptr :: vis) (d + 1) (by omega) (by simp) (fun r h => hr r (List.mem_cons_of_mem _ h))
        obtain ⟨t1, t2⟩ := liveVisitors_noLeak (show f.leaks .unwinding = 0 by omega) .shared d
        rw [hm] at a2 a3
        simp only [List.length_nil] at a3
        simp only [Prog.logAt, Prog.trace, if_neg hv, hctl, List.append_nil, List.cons_append, liveVisitors_cons, h1, liveVisitors_append, a1, t1, peakLive, peakLive_append, t2]
        exact ⟨trivial, by omega, by omega⟩
      | returned =>
        simp only [Prog.trace, if_neg hv, hctl] at hl hr
        have hk := hr _ (by simp only [List.cons_append]; exact List.mem_cons_self ..)
        simp only [List.length_append, List.length_cons, List.length_nil] at hk
        obtain ⟨a1, a2, a3⟩ := ih1 [] (ptr :: vis) (d + 1) (by omega) (by simp) (fun r h => hr r (by simp [h]))
        obtain ⟨t1, t2⟩ := liveVisitors_noLeak (show f.leaks .returned = 0 by omega) .shared d
        obtain ⟨b1, b2, b3⟩ := ih2 cur (body.trace [] (ptr :: vis)).visited d (by omega) hc (fun r h => hr r (by simp [h]))
        rw [hm] at a2 a3
        simp only [List.length_nil] at a3
        simp only [Prog.logAt, Prog.trace, if_neg hv, hctl, List.append_assoc, List.cons_append, liveVisitors_cons, h1, liveVisitors_append, a1, t1, b1, peakLive, peakLive_append, t2]
        exact ⟨trivial, by omega, by omega⟩
  | catchUnwind body rest ih1 ih2 =>
    intro cur vis d hl hc hr
    simp only [Prog.trace] at hl hr
    obtain ⟨a1, a2, a3⟩ := ih1 cur vis d (by omega) hc (fun r h => hr r (by simp [h]))
    obtain ⟨b1, b2, b3⟩ := ih2 cur (body.trace cur vis).visited d (by omega) hc (fun r h => hr r (by simp [h]))
    simp only [Prog.logAt, Prog.trace, liveVisitors_append, peakLive_append, a1, b1]
    exact ⟨trivial, by omega, by omega⟩

theorem roots_atMost (M : Nat) (hist : List (Prog × Fate)) : ∀ (vis : List Ptr), (traceRoots hist vis).leaked = 0 → (∀ r ∈ (traceRoots hist vis).recs, r.path.length ≤ M) →
    liveVisitors 0 (logRoots hist vis) = 0 ∧ M * vis.length ≤ M * (traceRoots hist vis).visited.length ∧
    peakLive 0 (logRoots hist vis) + M * vis.length ≤ 1 + M + M * (traceRoots hist vis).visited.length := by
  induction hist with
  | nil => intro vis _ _; exact ⟨rfl, Nat.le_refl _, by simp only [traceRoots, logRoots, peakLive]; omega⟩
  | cons x hist ih =>
    obtain ⟨prog, fate⟩ := x
    intro vis hl hr
    simp only [traceRoots] at hl hr
    have h1 : Event.root.live 0 = 0 + 1 := rfl
    obtain ⟨a1, a2, a3⟩ := prog_atMost M prog [] vis (0 + 1) (by omega) (Nat.zero_le _) (fun r h => hr r (by simp [h]))
    obtain ⟨b1, b2, b3⟩ := ih (prog.trace [] vis).visited (by omega) (fun r h => hr r (by simp [h]))
    obtain ⟨t1, t2⟩ := liveVisitors_noLeak (show fate.leaks (prog.trace [] vis).ctl = 0 by omega) .root 0
    simp only [List.length_nil] at a3
    simp only [logRoots, traceRoots, List.append_assoc, List.cons_append, liveVisitors_cons, peakLive, h1, liveVisitors_append, peakLive_append, a1, t1, b1, t2]
    exact ⟨trivial, by omega, by omega⟩

/-- C67. Any history without leaks (panics and `catch_unwind` included): at most `1 + (1 + k) * m` visitors are alive at the same time, where `k` is the number of addresses that `enter_shared` entered and `m` is the length of the longest
stack; at the end none is. -/
theorem C67_at_most (hist : List (Prog × Fate)) (hl : NoLeaks hist) :
    ∃ b log, Builder.default.useRootsLogged [] hist = .ok (b, log) ∧ Builder.default.useRoots hist = .ok b ∧
      peakLive 0 log ≤ 1 + (1 + b.visitedShared.length) * longestStack (records hist) ∧ liveVisitors 0 log = 0 := by
  obtain ⟨b, e⟩ := useRootsLogged_log (hist := hist) [] Idle.default hl
  have he := useRootsLogged_erase hist Builder.default []
  rw [e] at he
  simp only [List.nil_append] at e
  obtain ⟨b', _, e', _, _, _, _, hv, _⟩ := C65_memory hist hl
  have hb : b' = b := by
    have := he.trans e'
    cases this; rfl
  subst hb
  obtain ⟨h1, -, h2⟩ := roots_atMost (longestStack (records hist)) hist [] hl (fun r h => le_longestStack h)
  refine ⟨b', _, e, he.symm, ?_, h1⟩
  rw [hv, Nat.add_mul, Nat.one_mul, Nat.mul_comm (List.length _)]
  simp only [List.length_nil, Nat.mul_zero] at h2
  have : Builder.default.visitedShared = [] := rfl
  rw [this]
  omega

/-- The cycle of C08 with two cells: seven visitors at the same time; the bound is `1 + 3 * 2`. -/
example : ∃ b log, Builder.default.useRootsLogged [] (visits Ex.cyclic 2 Ex.roots) = .ok (b, log) ∧ peakLive 0 log ≤ 7 := by
  obtain ⟨b, log, e1, e2, e3, -⟩ := C67_at_most (visits Ex.cyclic 2 Ex.roots) (visits_spec Ex.cyclic Ex.roots [1, 2] (by decide) Ex.reach 2 (by simp)).1
  have h : longestStack (records (visits Ex.cyclic 2 Ex.roots)) = 2 := by decide
  have hv : b.visitedShared.length = 2 := by
    obtain ⟨b', _, e', _, _, _, _, hv, _⟩ := C65_memory (visits Ex.cyclic 2 Ex.roots) (visits_spec Ex.cyclic Ex.roots [1, 2] (by decide) Ex.reach 2 (by simp)).1
    rw [e2] at e'
    cases e'
    rw [hv]; decide
  exact ⟨b, log, e1, by rw [h, hv] at e3; exact e3⟩

end Allocative
