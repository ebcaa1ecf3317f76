import Verif.Props.Depth
import Verif.Props.Names
set_option linter.unusedSimpArgs false
/-
C67, continued: how deep visits recurse at least, and values without shared pointers.
-/
namespace Allocative

theorem liveVisitors_tail (f : Fate) (c : Ctl) (kind : NodeKind) (d : Nat) : d ≤ liveVisitors (d + 1) (tailOf f c kind) := by
  unfold tailOf
  split <;> simp [liveVisitors, Event.live, Event.creates, Event.ends]

theorem liveVisitors_cons (e : Event) (l : List Event) (d : Nat) : liveVisitors d (e :: l) = liveVisitors (e.live d) l := rfl

/-- Calls of a program below `d` visitors: stacks are not longer than the number of visitors, and no visitor ends that was there before. -/
theorem prog_atLeast (prog : Prog) : ∀ (cur : Path) (vis : List Ptr) (d : Nat), cur.length < d →
    d ≤ liveVisitors d (prog.logAt cur vis) ∧ ∀ r ∈ (prog.trace cur vis).recs, r.path.length ≤ peakLive d (prog.logAt cur vis) := by
  induction prog with
  | done => intro cur vis d _; exact ⟨Nat.le_refl _, by simp [Prog.trace]⟩
  | panic => intro cur vis d _; exact ⟨Nat.le_refl _, by simp [Prog.trace]⟩
  | enter k n f body rest ih1 ih2 =>
    intro cur vis d hd
    obtain ⟨a1, a2⟩ := ih1 (cur ++ [k]) vis (d + 1) (by simp; omega)
    have hl : (Event.inline k n).live d = d + 1 := rfl
    have hp := le_peakLive (d + 1) (body.logAt (cur ++ [k]) vis)
    obtain ⟨e, he⟩ : ∃ e, liveVisitors (d + 1) (body.logAt (cur ++ [k]) vis) = e + 1 := ⟨_, (Nat.sub_add_cancel (by omega)).symm⟩
    have ht := liveVisitors_tail f (body.trace (cur ++ [k]) vis).ctl .inline e
    cases hc : (body.trace (cur ++ [k]) vis).ctl with
    | unwinding =>
      rw [hc] at ht
      simp only [Prog.logAt, Prog.trace, hc, List.append_nil, List.cons_append, liveVisitors_cons, hl, liveVisitors_append, he, peakLive, peakLive_append]
      refine ⟨by omega, fun r hr => ?_⟩
      rcases List.mem_cons.1 hr with rfl | hr
      · simp only [List.length_append, List.length_cons, List.length_nil]; omega
      · have := a2 r hr; omega
    | returned =>
      rw [hc] at ht
      obtain ⟨b1, b2⟩ := ih2 cur (body.trace (cur ++ [k]) vis).visited (liveVisitors (e + 1) (tailOf f .returned .inline)) (by omega)
      simp only [Prog.logAt, Prog.trace, hc, List.append_assoc, List.cons_append, liveVisitors_cons, hl, liveVisitors_append, he, peakLive, peakLive_append]
      refine ⟨by omega, fun r hr => ?_⟩
      rcases List.mem_cons.1 hr with rfl | hr
      · simp only [List.length_append, List.length_cons, List.length_nil]; omega
      · rcases List.mem_append.1 hr with hr | hr
        · have := a2 r hr; omega
        · have := b2 r hr; omega
  | enterUnique k n f body rest ih1 ih2 =>
    intro cur vis d hd
    obtain ⟨a1, a2⟩ := ih1 (cur ++ [k]) vis (d + 1) (by simp; omega)
    have hl : (Event.unique k n).live d = d + 1 := rfl
    have hp := le_peakLive (d + 1) (body.logAt (cur ++ [k]) vis)
    obtain ⟨e, he⟩ : ∃ e, liveVisitors (d + 1) (body.logAt (cur ++ [k]) vis) = e + 1 := ⟨_, (Nat.sub_add_cancel (by omega)).symm⟩
    have ht := liveVisitors_tail f (body.trace (cur ++ [k]) vis).ctl .unique e
    cases hc : (body.trace (cur ++ [k]) vis).ctl with
    | unwinding =>
      rw [hc] at ht
      simp only [Prog.logAt, Prog.trace, hc, List.append_nil, List.cons_append, liveVisitors_cons, hl, liveVisitors_append, he, peakLive, peakLive_append]
      refine ⟨by omega, fun r hr => ?_⟩
      rcases List.mem_cons.1 hr with rfl | hr
      · simp only [List.length_append, List.length_cons, List.length_nil]; omega
      · have := a2 r hr; omega
    | returned =>
      rw [hc] at ht
      obtain ⟨b1, b2⟩ := ih2 cur (body.trace (cur ++ [k]) vis).visited (liveVisitors (e + 1) (tailOf f .returned .unique)) (by omega)
      simp only [Prog.logAt, Prog.trace, hc, List.append_assoc, List.cons_append, liveVisitors_cons, hl, liveVisitors_append, he, peakLive, peakLive_append]
      refine ⟨by omega, fun r hr => ?_⟩
      rcases List.mem_cons.1 hr with rfl | hr
      · simp only [List.length_append, List.length_cons, List.length_nil]; omega
      · rcases List.mem_append.1 hr with hr | hr
        · have := a2 r hr; omega
        · have := b2 r hr; omega
  | enterShared k n ptr f body rs rn ih1 ih2 ih3 =>
    intro cur vis d hd
    by_cases hv : ptr ∈ vis
    · obtain ⟨a1, a2⟩ := ih3 cur vis d hd
      have hl : (Event.shared k n ptr false).live d = d := rfl
      simp only [Prog.logAt, Prog.trace, if_pos hv, liveVisitors_cons, hl, peakLive]
      refine ⟨a1, fun r hr => ?_⟩
      rcases List.mem_cons.1 hr with rfl | hr
      · simp only [List.length_append, List.length_cons, List.length_nil]; omega
      · have := a2 r hr; omega
    · obtain ⟨a1, a2⟩ := ih1 [] (ptr :: vis) (d + 1) (by simp)
      have hl : (Event.shared k n ptr true).live d = d + 1 := rfl
      have hp := le_peakLive (d + 1) (body.logAt [] (ptr :: vis))
      obtain ⟨e, he⟩ : ∃ e, liveVisitors (d + 1) (body.logAt [] (ptr :: vis)) = e + 1 := ⟨_, (Nat.sub_add_cancel (by omega)).symm⟩
      have ht := liveVisitors_tail f (body.trace [] (ptr :: vis)).ctl .shared e
      cases hc : (body.trace [] (ptr :: vis)).ctl with
      | unwinding =>
        rw [hc] at ht
        simp only [Prog.logAt, Prog.trace, if_neg hv, hc, List.append_nil, List.cons_append, liveVisitors_cons, hl, liveVisitors_append, he, peakLive, peakLive_append]
        refine ⟨by omega, fun r hr => ?_⟩
        rcases List.mem_cons.1 hr with rfl | hr
        · simp only [List.length_append, List.length_cons, List.length_nil]; omega
        · have := a2 r hr; omega
      | returned =>
        rw [hc] at ht
        obtain ⟨b1, b2⟩ := ih2 cur (body.trace [] (ptr :: vis)).visited (liveVisitors (e + 1) (tailOf f .returned .shared)) (by omega)
        simp only [Prog.logAt, Prog.trace, if_neg hv, hc, List.append_assoc, List.cons_append, liveVisitors_cons, hl, liveVisitors_append, he, peakLive, peakLive_append]
        refine ⟨by omega, fun r hr => ?_⟩
        rcases List.mem_cons.1 hr with rfl | hr
        · simp only [List.length_append, List.length_cons, List.length_nil]; omega
        · rcases List.mem_append.1 hr with hr | hr
          · have := a2 r hr; omega
          · have := b2 r hr; omega
  | catchUnwind body rest ih1 ih2 =>
    intro cur vis d hd
    obtain ⟨a1, a2⟩ := ih1 cur vis d hd
    obtain ⟨b1, b2⟩ := ih2 cur (body.trace cur vis).visited (liveVisitors d (body.logAt cur vis)) (by omega)
    simp only [Prog.logAt, Prog.trace, liveVisitors_append, peakLive_append]
    refine ⟨by omega, fun r hr => ?_⟩
    rcases List.mem_append.1 hr with hr | hr
    · have := a2 r hr; omega
    · have := b2 r hr; omega

theorem roots_atLeast (hist : List (Prog × Fate)) : ∀ (vis : List Ptr) (d : Nat), ∀ r ∈ (traceRoots hist vis).recs, r.path.length ≤ peakLive d (logRoots hist vis) := by
  induction hist with
  | nil => intro vis d r hr; simp [traceRoots] at hr
  | cons x hist ih =>
    obtain ⟨prog, fate⟩ := x
    intro vis d r hr
    simp only [traceRoots, List.mem_append] at hr
    have hl : Event.root.live d = d + 1 := rfl
    simp only [logRoots, List.append_assoc, List.cons_append, peakLive, hl, peakLive_append]
    rcases hr with hr | hr
    · have := (prog_atLeast prog [] vis (d + 1) (by simp)).2 r hr
      omega
    · have := ih (prog.trace [] vis).visited (liveVisitors (liveVisitors (d + 1) (prog.logAt [] vis)) (tailOf fate (prog.trace [] vis).ctl .root)) r hr
      omega

/-- C67. Conversely, in any history without leaks at least as many visitors are alive at some moment as the longest stack has names. -/
theorem C67_at_least (hist : List (Prog × Fate)) (hl : NoLeaks hist) :
    ∃ b log, Builder.default.useRootsLogged [] hist = .ok (b, log) ∧ Builder.default.useRoots hist = .ok b ∧ longestStack (records hist) ≤ peakLive 0 log := by
  obtain ⟨b, e⟩ := useRootsLogged_log (hist := hist) [] Idle.default hl
  have he := useRootsLogged_erase hist Builder.default []
  rw [e] at he
  simp only [List.nil_append] at e
  refine ⟨b, _, e, he.symm, ?_⟩
  by_cases h0 : longestStack (records hist) = 0
  · omega
  · obtain ⟨r, hr, hlen⟩ := longestStack_attained h0
    have := roots_atLeast hist [] 0 r hr
    have hv : Builder.default.visitedShared = [] := rfl
    rw [hv]
    omega

/-- The visit of an object without shared pointers. -/
theorem owned_peak (content : Ptr → Prog) (o : Obj) (ho : o.ptrs = []) : ∀ (cur : Path) (vis : List Ptr) (d : Nat),
    peakLive d ((o.visitWith content).logAt cur vis) = d + o.height ∧ liveVisitors d ((o.visitWith content).logAt cur vis) = d ∧
    ((o.visitWith content).trace cur vis).ctl = .returned ∧ ((o.visitWith content).trace cur vis).visited = vis := by
  have h3 : ∀ k d, (Event.exit k).live (d + 1) = d := fun k d => rfl
  induction o with
  | nil => intro cur vis d; simp [Obj.visitWith, Prog.logAt, peakLive, liveVisitors, Prog.trace, Obj.height]
  | inline k n e inside rest ih1 ih2 =>
    simp only [Obj.ptrs, List.append_eq_nil_iff] at ho
    intro cur vis d
    obtain ⟨a1, a2, a3, a4⟩ := ih1 ho.1 (cur ++ [k]) vis (d + 1)
    obtain ⟨b1, b2, b3, b4⟩ := ih2 ho.2 cur vis d
    have hl : (Event.inline k n).live d = d + 1 := rfl
    simp only [Obj.visitWith, Prog.logAt, Prog.trace, a3, a4, Ending.tail, Obj.height, List.append_assoc, List.cons_append, List.nil_append, liveVisitors_cons, hl,
      liveVisitors_append, a1, a2, h3, peakLive, peakLive_append, b1, b2, b3, b4, and_true]
    omega
  | unique k n e inside rest ih1 ih2 =>
    simp only [Obj.ptrs, List.append_eq_nil_iff] at ho
    intro cur vis d
    obtain ⟨a1, a2, a3, a4⟩ := ih1 ho.1 (cur ++ [k]) vis (d + 1)
    obtain ⟨b1, b2, b3, b4⟩ := ih2 ho.2 cur vis d
    have hl : (Event.unique k n).live d = d + 1 := rfl
    simp only [Obj.visitWith, Prog.logAt, Prog.trace, a3, a4, Ending.tail, Obj.height, List.append_assoc, List.cons_append, List.nil_append, liveVisitors_cons, hl,
      liveVisitors_append, a1, a2, h3, peakLive, peakLive_append, b1, b2, b3, b4, and_true]
    omega
  | shared k n p e rest ih => simp [Obj.ptrs] at ho

/-- C67. A root without shared pointers, however it is nested: one visitor more is alive at the deepest moment than the longest stack of the flame graph has names,
so visit and `finish` recurse equally deep. -/
theorem C67_owned (heap : Heap) (fuel : Nat) (o : Obj) (ho : o.ptrs = []) :
    ∃ b log, Builder.default.useRootsLogged [] (visits heap fuel [o]) = .ok (b, log) ∧ Builder.default.useRoots (visits heap fuel [o]) = .ok b ∧
      peakLive 0 log = 1 + o.height ∧ longestStack (records (visits heap fuel [o])) = o.height := by
  have hL : ∀ p, p ∈ ([] : List Ptr) ↔ Reachable heap [o] p := by
    intro p
    refine ⟨fun h => by simp at h, fun h => ?_⟩
    induction h with
    | root h1 h2 => simp only [List.mem_singleton] at h1; subst h1; rw [ho] at h2; exact h2
    | step _ _ ih => simp at ih
  obtain ⟨l, _, _⟩ := visits_spec heap [o] [] List.nodup_nil hL fuel (Nat.zero_le _)
  obtain ⟨b, e⟩ := useRootsLogged_log (hist := visits heap fuel [o]) [] Idle.default l
  have he := useRootsLogged_erase (visits heap fuel [o]) Builder.default []
  rw [e] at he
  simp only [List.nil_append] at e
  refine ⟨b, _, e, he.symm, ?_, ?_⟩
  · obtain ⟨content, hv⟩ : ∃ content, heap.visit fuel o = o.visitWith content := by cases fuel <;> exact ⟨_, rfl⟩
    have hvis : Builder.default.visitedShared = [] := rfl
    obtain ⟨a1, a2, a3, a4⟩ := owned_peak content o ho [] [] 1
    have h1 : Event.root.live 0 = 1 := rfl
    simp only [visits, List.map_cons, List.map_nil, logRoots, hv, hvis, a3, tailOf, Fate.leaks, List.append_nil, List.cons_append, peakLive, h1, peakLive_append, a1, a2]
    simp only [if_true, peakLive, Event.live, Event.creates, Event.ends]
    simp
  · rw [C67_stack_length heap [o] [] List.nodup_nil hL fuel (Nat.zero_le _)]
    simp

/-! ### Linked lists of boxes -/

namespace BoxList

def tNode : Ty := ⟨ascii "demo::Node", 8, true⟩
def tNext : Ty := ⟨ascii "core::option::Option<alloc::boxed::Box<demo::Node>>", 8, true⟩
def tBox : Ty := ⟨ascii "alloc::boxed::Box<demo::Node>", 8, true⟩

/-- `struct Node { next: Option<Box<Node>> }`: a list with `n` nodes behind the first. -/
def list : Nat → Datum
  | 0 => .struct tNode 8 [(ascii "next", false)] [.none tNext]
  | n + 1 => .struct tNode 8 [(ascii "next", false)] [.some tNext (.box tBox 8 (list n))]

theorem wf [Target] (n : Nat) : (list n).WF := by
  induction n with
  | zero => simp [list, Datum.WF, Datum.WFAll, tNode, tNext, Datum.sizes, Datum.size, Datum.value, Impl.option, Impl.sized]
  | succ n ih =>
    simp [list, Datum.WF, Datum.WFAll, tNode, tNext, tBox, Datum.sizes, Datum.size, Datum.value, Impl.option, Impl.box, Impl.sized]
    exact ih

theorem shape [Target] (n : Nat) : (list n).value.visit.ptrs = [] ∧ (list n).value.visit.height = 6 * n + 3 := by
  induction n with
  | zero =>
    simp [list, Datum.value, Datum.values, Impl.option, Impl.sized, Visit.enterSelf, Visit.enterSelfSized, Visit.enter, Visit.derivedFields, Visit.field, Visit.fieldWith, Obj.ptrs,
      Obj.height, Obj.concat, Obj.append]
  | succ n ih =>
    simp [list, Datum.value, Datum.values, Impl.option, Impl.box, Impl.sized, Visit.enterSelf, Visit.enterSelfSized, Visit.enter, Visit.enterUnique, Visit.derivedFields, Visit.field,
      Visit.fieldWith, Obj.ptrs, Obj.height, Obj.concat, Obj.append, ih]
    omega

end BoxList

/-- C67. A linked list of boxes with `n` nodes behind the first: `6 n + 4` nested visitors, and stacks of `6 n + 3` names, so both visit and `finish` recurse as deep as the list
is long, and (unlike for `Arc`s) the flame graph is as deep. -/
theorem C67_box_list [Target] (n fuel : Nat) (heap : Heap) :
    ∃ b log, Builder.default.useRootsLogged [] (visits heap fuel [(BoxList.list n).value.visit]) = .ok (b, log) ∧
      Builder.default.useRoots (visits heap fuel [(BoxList.list n).value.visit]) = .ok b ∧
      peakLive 0 log = 6 * n + 4 ∧ longestStack (records (visits heap fuel [(BoxList.list n).value.visit])) = 6 * n + 3 := by
  obtain ⟨h1, h2⟩ := BoxList.shape n
  obtain ⟨b, log, e1, e2, e3, e4⟩ := C67_owned heap fuel _ h1
  exact ⟨b, log, e1, e2, by omega, by omega⟩

/-- Non-vacuity of `C67_at_least`: the cycle of C08, whose longest stack has two names, with seven visitors. -/
example : ∃ b log, Builder.default.useRootsLogged [] (visits Ex.cyclic 2 Ex.roots) = .ok (b, log) ∧ Builder.default.useRoots (visits Ex.cyclic 2 Ex.roots) = .ok b ∧
    2 ≤ peakLive 0 log := by
  obtain ⟨b, log, e1, e2, e3⟩ := C67_at_least (visits Ex.cyclic 2 Ex.roots) (visits_spec Ex.cyclic Ex.roots [1, 2] (by decide) Ex.reach 2 (by simp)).1
  have : longestStack (records (visits Ex.cyclic 2 Ex.roots)) = 2 := by decide
  exact ⟨b, log, e1, e2, by omega⟩

example := C67_owned Ex.cyclic 5 (.inline (Ex.k "S") 16 .exit (.unique (Ex.k "ptr") 8 .exit (.inline (Ex.k "T") 4 .exit .nil .nil) .nil) .nil) (by decide)

end Allocative
