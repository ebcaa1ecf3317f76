import Verif.Spec.Growth
import Verif.Props.Totals
import Verif.Props.Objects
import Verif.Lemmas.Own
set_option linter.unusedSimpArgs false
/-
C64: visiting more.  C65: the number of calls, and the memory of the builder.
-/
namespace Allocative

theorem records_append (pre post : List (Prog × Fate)) : ∃ added, records (pre ++ post) = records pre ++ added :=
  ⟨_, (traceRoots_append pre post []).1⟩

theorem NoLeaks.left {pre post : List (Prog × Fate)} (h : NoLeaks (pre ++ post)) : NoLeaks pre := by
  unfold NoLeaks at *
  rw [(traceRoots_append _ _ _).2.2] at h
  omega

theorem attributed_append (a b : List Rec) : attributed a ≤ attributed (a ++ b) := by
  unfold attributed
  rw [List.map_append, List.sum_append]
  refine Nat.le_trans ?_ (Nat.le_add_right _ _)
  have : ∀ l : List Rec, (l.map fun r => if r.path.dropLast = [] ∨ uniqueAt a r.path.dropLast = true then r.size else 0).sum ≤
      (l.map fun r => if r.path.dropLast = [] ∨ uniqueAt (a ++ b) r.path.dropLast = true then r.size else 0).sum := by
    intro l
    induction l with
    | nil => exact Nat.le_refl _
    | cons r l ih =>
      simp only [List.map_cons, List.sum_cons]
      apply Nat.add_le_add _ ih
      by_cases h : r.path.dropLast = [] ∨ uniqueAt a r.path.dropLast = true
      · rw [if_pos h, if_pos (by rw [uniqueAt_append]; rcases h with h | h <;> simp [h])]
        exact Nat.le_refl _
      · rw [if_neg h]; exact Nat.zero_le _
  exact this a

/-- C64. Visiting more roots (`post`) after others (`pre`): stacks do not vanish, and if `pre` alone gives no warnings then the total does not decrease. -/
theorem C64_more_is_not_less (pre post : List (Prog × Fate)) (hl : NoLeaks (pre ++ post)) (ord ord' : HashOrder TreeId) :
    ∃ out out', run ord pre = .ok out ∧ run ord' (pre ++ post) = .ok out' ∧
      (∀ p, (out.flamegraph.selfAt p).isSome → (out'.flamegraph.selfAt p).isSome) ∧
      (out.warnings = [] → out.flamegraph.totalSize ≤ out'.flamegraph.totalSize) := by
  obtain ⟨added, ea⟩ := records_append pre post
  obtain ⟨out, e, _, h1⟩ := C16_conservation pre hl.left ord
  obtain ⟨out', e', h2, _⟩ := C16_conservation (pre ++ post) hl ord'
  refine ⟨out, out', e, e', ?_, fun hw => ?_⟩
  · obtain ⟨o1, ws1, e1, _, hs1, _⟩ := run_spec (Q := fun _ => True) hl.left (fun x _ => Prog.KeysAre.trivial x.1) ord
    obtain ⟨o2, ws2, e2, _, hs2, _⟩ := run_spec (Q := fun _ => True) hl (fun x _ => Prog.KeysAre.trivial x.1) ord'
    rw [e] at e1; rw [e'] at e2
    cases e1; cases e2
    intro p
    rw [hs1 p, hs2 p, ea]
    by_cases hp : p = [] ∨ entered (records pre) p
    · intro _
      rw [if_pos (hp.imp id fun h => (entered_append _ _ _).2 (.inl h))]
      rfl
    · rw [if_neg hp]; intro h; cases h
  · rw [h1 hw]
    refine Nat.le_trans ?_ h2
    rw [ea]
    exact attributed_append _ _

theorem sum_selfSpec_le (l : List Path) (a b : List Rec)
    (hu : ∀ p, uniqueAt (a ++ b) p = true → uniqueAt a p = true ∨ childrenAt a p = 0) :
    (l.map (selfSpec (a ++ b))).sum ≤ (l.map (selfSpec a)).sum + (l.map (sizeAt b)).sum := by
  induction l with
  | nil => exact Nat.zero_le _
  | cons p l ih =>
    simp only [List.map_cons, List.sum_cons]
    have : selfSpec (a ++ b) p ≤ selfSpec a p + sizeAt b p := by
      simp only [selfSpec, remAt, sizeAt_append, childrenAt_append]
      split
      · omega
      · by_cases h : uniqueAt (a ++ b) p = true
        · rw [if_pos h]
          rcases hu p h with h' | h'
          · rw [if_pos h']; omega
          · rw [h']; split <;> omega
        · have h' : ¬ uniqueAt a p = true := fun hx => h (by rw [uniqueAt_append, hx]; rfl)
          rw [if_neg h, if_neg h']
          omega
    omega

/-- C64. Visiting more adds at most the sizes that the new visits declare, unless they enter a stack with `enter_unique` which `pre` entered only with `enter` or
`enter_shared`, and below which it entered something (then C45 applies). -/
theorem C64_adds_at_most (pre post : List (Prog × Fate)) (hl : NoLeaks (pre ++ post)) (ord ord' : HashOrder TreeId)
    (hu : ∀ p, uniqueAt (records (pre ++ post)) p = true → uniqueAt (records pre) p = true ∨ childrenAt (records pre) p = 0) :
    ∃ out out' added, run ord pre = .ok out ∧ run ord' (pre ++ post) = .ok out' ∧ records (pre ++ post) = records pre ++ added ∧
      out'.flamegraph.totalSize ≤ out.flamegraph.totalSize + declaredBytes added := by
  obtain ⟨added, ea⟩ := records_append pre post
  obtain ⟨out, ws1, e1, hb1, hs1, _⟩ := run_spec (Q := fun _ => True) hl.left (fun x _ => Prog.KeysAre.trivial x.1) ord
  obtain ⟨out', ws2, e2, hb2, hs2, _⟩ := run_spec (Q := fun _ => True) hl (fun x _ => Prog.KeysAre.trivial x.1) ord'
  refine ⟨out, out', added, e1, e2, ea, ?_⟩
  let l := FlameGraph.allPaths out'.flamegraph
  have hl2 : ∀ p, p ∈ l ↔ p = [] ∨ entered (records (pre ++ post)) p := by
    intro p
    rw [FlameGraph.mem_allPaths _ hb2.ok, hs2 p]
    split <;> simp_all
  have hnd : l.Nodup := FlameGraph.nodup_allPaths _ hb2.ok
  have t2 : out'.flamegraph.totalSize = (l.map (selfSpec (records (pre ++ post)))).sum := by
    rw [hb2.ok.totalSize_eq_sum hnd (fun p hp => (FlameGraph.mem_allPaths _ hb2.ok p).2 hp)]
    apply sum_map_congr
    intro p hp
    rw [hs2 p, if_pos ((hl2 p).1 hp)]; rfl
  have t1 : out.flamegraph.totalSize = (l.map (selfSpec (records pre))).sum := by
    rw [hb1.ok.totalSize_eq_sum hnd (fun p hp => ?_)]
    · apply sum_map_congr
      intro p hp
      rw [hs1 p]
      split
      · rfl
      · rename_i hne
        simp only [not_or] at hne
        have hz : sizeAt (records pre) p = 0 := by
          apply FlameGraph.sum_eq_zero_of
          intro r hr
          rw [if_neg]
          intro h; exact hne.2 ⟨r, hr, h⟩
        simp only [selfSpec, if_neg hne.1, remAt, hz, Option.getD_none]
        split <;> omega
    · rw [hs1 p] at hp
      apply (hl2 p).2
      by_cases h : p = [] ∨ entered (records pre) p
      · rcases h with h | h
        · exact .inl h
        · right; rw [ea]; exact (entered_append _ _ _).2 (.inl h)
      · rw [if_neg h] at hp; cases hp
  have hd : (l.map (sizeAt added)).sum = declaredBytes added := by
    have := sum_fiber (fun r : Rec => r.path) Rec.size l hnd added (fun r hr => (hl2 r.path).2 (.inr (by
      rw [ea]; exact (entered_append _ _ _).2 (.inr ⟨r, hr, rfl⟩))))
    unfold declaredBytes
    rw [← this]
    rfl
  rw [t1, t2, ← hd]
  rw [ea] at hu ⊢
  exact sum_selfSpec_le l _ _ hu

/-- C64. With warnings the total can decrease, whatever the hash order: `a` declares 100 bytes, its child `b` nothing, the child `c` of `b` 10 (a warning for `b`, total
110); visiting `b` again, with its 10 bytes, makes `b` large enough, and the total 100. -/
theorem C64_can_decrease : ∃ pre post : List (Prog × Fate), NoLeaks (pre ++ post) ∧ ∀ ord ord' : HashOrder TreeId, ∃ out out',
    run ord pre = .ok out ∧ run ord' (pre ++ post) = .ok out' ∧ out.warnings ≠ [] ∧ out'.flamegraph.totalSize < out.flamegraph.totalSize := by
  let pre : List (Prog × Fate) := [(.enter (Ex.k "a") 100 .exit (.enter (Ex.k "b") 0 .exit (Ex.leaf "c" 10) .done) .done, .exit)]
  let post : List (Prog × Fate) := [(.enter (Ex.k "a") 0 .exit (Ex.leaf "b" 10) .done, .exit)]
  have hl : NoLeaks (pre ++ post) := by set_option maxRecDepth 100000 in decide
  refine ⟨pre, post, hl, fun ord ord' => ?_⟩
  have h1 : ∃ out, run (HashOrder.id _) pre = .ok out ∧ out.warnings ≠ [] ∧ out.flamegraph.totalSize = 110 := by
    have : (run (HashOrder.id _) pre).toOption.map (fun o => (o.warnings.isEmpty, o.flamegraph.totalSize)) = some (false, 110) := by
      set_option maxRecDepth 100000 in decide
    cases hx : run (HashOrder.id _) pre with
    | error e => rw [hx] at this; cases this
    | ok o =>
      rw [hx] at this
      simp only [Except.toOption, Option.map_some, Option.some.injEq, Prod.mk.injEq] at this
      exact ⟨o, rfl, fun h => by rw [h] at this; simp at this, this.2⟩
  have h2 : ∃ out, run (HashOrder.id _) (pre ++ post) = .ok out ∧ out.flamegraph.totalSize = 100 := by
    have : (run (HashOrder.id _) (pre ++ post)).toOption.map (fun o => o.flamegraph.totalSize) = some 100 := by
      set_option maxRecDepth 100000 in decide
    cases hx : run (HashOrder.id _) (pre ++ post) with
    | error e => rw [hx] at this; cases this
    | ok o =>
      rw [hx] at this
      simp only [Except.toOption, Option.map_some, Option.some.injEq] at this
      exact ⟨o, rfl, this⟩
  have key : ∀ (hist : List (Prog × Fate)) (o : HashOrder TreeId) (out : Builder.Output), NoLeaks hist → ProperKeys hist → run (HashOrder.id _) hist = .ok out →
      ∃ out', run o hist = .ok out' ∧ out'.warnings = out.warnings ∧ out'.flamegraph.totalSize = out.flamegraph.totalSize := by
    intro hist o out hl hk e
    obtain ⟨obs, e1, e2⟩ := C05_order_independent hist hl hk (HashOrder.id _) o (HashOrder.id _) (HashOrder.id _)
    simp only [observe, e] at e1
    simp only [observe] at e2
    split at e2
    · cases e2
    rename_i out' e3
    rw [← e1] at e2
    simp only [Except.ok.injEq, Obs.mk.injEq] at e2
    exact ⟨out', e3, e2.2.2, e2.2.1⟩
  have hp : ProperKeys (pre ++ post) := by
    simp [ProperKeys, pre, post, Ex.leaf, Ex.k, Prog.KeysAre, Key.Proper, Key.new, Key.newUnchecked]
  obtain ⟨out, e, hw, ht⟩ := h1
  obtain ⟨out2, e2, ht2⟩ := h2
  obtain ⟨r, er, hr1, hr2⟩ := key pre ord out hl.left (fun x hx => hp x (by simp [hx])) e
  obtain ⟨r2, er2, _, hr4⟩ := key (pre ++ post) ord' out2 hl hp e2
  exact ⟨r, r2, er, er2, by rw [hr1]; exact hw, by rw [hr2, hr4, ht, ht2]; decide⟩

-- with the premises of both theorems: a history without warnings, continued by one that enters an address seen before
example : NoLeaks ([(Ex.prog1, .exit)] ++ [(Ex.prog3, .exit), (Ex.prog1, .drop)]) ∧
    (run (HashOrder.id _) [(Ex.prog1, .exit)]).toOption.map (·.warnings) = some [] ∧
    (run (HashOrder.id _) [(Ex.prog1, .exit)]).toOption.map (·.flamegraph.totalSize) = some 164 ∧
    (run (HashOrder.id _) ([(Ex.prog1, .exit)] ++ [(Ex.prog3, .exit), (Ex.prog1, .drop)])).toOption.map (·.flamegraph.totalSize) = some 312 := by
  set_option maxRecDepth 100000 in decide

theorem Ex.unique_grows (p : Path) (h : uniqueAt (records ([(Ex.prog1, .exit)] ++ [(Ex.prog3, .exit), (Ex.prog1, .drop)])) p = true) :
    uniqueAt (records [(Ex.prog1, .exit)]) p = true ∨ childrenAt (records [(Ex.prog1, .exit)]) p = 0 := by
  left
  simp only [uniqueAt, List.any_eq_true] at h ⊢
  obtain ⟨r, hr, hp⟩ := h
  have : ∀ r ∈ records ([(Ex.prog1, .exit)] ++ [(Ex.prog3, .exit), (Ex.prog1, .drop)]), r.unique = true → r ∈ records [(Ex.prog1, .exit)] := by decide
  exact ⟨r, this r hr (by simp at hp; exact hp.2), hp⟩

/-! ### C65 -/

theorem Obj.own_length (o : Obj) : ∀ cur, (o.own cur).length = o.calls := by
  induction o with
  | nil => intro _; rfl
  | inline k n e a r iha ihr => intro cur; simp only [Obj.own, Obj.calls, List.length_append, List.length_cons, iha, ihr]; omega
  | unique k n e a r iha ihr => intro cur; simp only [Obj.own, Obj.calls, List.length_append, List.length_cons, iha, ihr]; omega
  | shared k n p e r ihr => intro cur; simp only [Obj.own, Obj.calls, List.length_cons, ihr]; omega

theorem replay_length : ∀ (log : List Event) (fs fs' : List Frame) (recs : List Rec), replay fs log = some (fs', recs) →
    log.countP Event.enters = recs.length := by
  intro log
  induction log with
  | nil => intro fs fs' recs h; simp only [replay, Option.some.injEq, Prod.mk.injEq] at h; rw [← h.2]; rfl
  | cons e es ih =>
    intro fs fs' recs h
    have hm : ∀ {fs1 : List Frame} {r : Rec}, (replay fs1 es).map (fun x => (x.1, r :: x.2)) = some (fs', recs) → es.countP Event.enters + 1 = recs.length := by
      intro fs1 r h
      obtain ⟨⟨a, b⟩, h1, h2⟩ := Option.map_eq_some_iff.1 h
      simp only [Prod.mk.injEq] at h2
      rw [← h2.2, List.length_cons, ih _ _ _ h1]
    cases e with
    | root =>
      simp only [replay] at h
      split at h
      · rw [List.countP_cons_of_neg (by simp [Event.enters])]; exact ih _ _ _ h
      · cases h
    | inline k n =>
      simp only [replay] at h
      split at h
      · cases h
      · rw [List.countP_cons_of_pos (by simp [Event.enters])]; exact hm h
    | unique k n =>
      simp only [replay] at h
      split at h
      · cases h
      · rw [List.countP_cons_of_pos (by simp [Event.enters])]; exact hm h
    | shared k n p r =>
      simp only [replay] at h
      split at h
      · cases h
      · rw [List.countP_cons_of_pos (by simp [Event.enters])]; exact hm h
    | exit kind =>
      rw [List.countP_cons_of_neg (by simp [Event.enters])]
      simp only [replay] at h
      cases fs with
      | nil => cases h
      | cons f fs =>
        simp only at h
        split at h
        · exact ih _ _ _ h
        · cases h

/-- C65. The visit of an object graph makes as many enter calls as there are values, fields and pointers in the roots and in the reachable cells, each cell counted once,
however many paths lead to it. -/
theorem C65_calls (heap : Heap) (roots : List Obj) (L : List Ptr) (hn : L.Nodup) (hL : ∀ p, p ∈ L ↔ Reachable heap roots p) (fuel : Nat) (hf : L.length ≤ fuel) :
    ∃ b log, Builder.default.useRootsLogged [] (visits heap fuel roots) = .ok (b, log) ∧ Builder.default.useRoots (visits heap fuel roots) = .ok b ∧
      log.countP Event.enters = (roots.map Obj.calls).sum + (L.map fun p => (heap p).calls).sum := by
  have hnl := visits_noLeaks heap fuel roots
  obtain ⟨b, log, e, e', hr⟩ := C11_stacks_of_calls _ hnl
  refine ⟨b, log, e, e', ?_⟩
  rw [replay_length _ _ _ _ hr, (C08_counted_once_iff_reachable heap roots L hn hL fuel hf).2.length_eq, List.length_append]
  simp only [List.length_flatMap, Obj.own_length]

theorem length_le_of_nodup_subset {α : Type} [DecidableEq α] : ∀ {l m : List α}, l.Nodup → l ⊆ m → l.length ≤ m.length := by
  intro l
  induction l with
  | nil => intro m _ _; exact Nat.zero_le _
  | cons a l ih =>
    intro m hn hs
    have ha : a ∈ m := hs (by simp)
    have h := ih (m := m.erase a) (List.nodup_cons.1 hn).2 (by
      intro x hx
      have hne : x ≠ a := fun h => (List.nodup_cons.1 hn).1 (h ▸ hx)
      exact (List.mem_erase_of_ne hne).2 (hs (by simp [hx])))
    rw [List.length_erase_of_mem ha] at h
    have := List.length_pos_of_mem ha
    simp only [List.length_cons]
    omega

/-- C65. What the builder keeps in memory after any history without leaks: one tree node for each distinct stack entered and one for the root, no more nodes than
calls made; one address for each address entered; no saved stacks. -/
theorem C65_memory (hist : List (Prog × Fate)) (hl : NoLeaks hist) :
    ∃ b, ∃ stacks : List Path, Builder.default.useRoots hist = .ok b ∧ stacks.Nodup ∧ (∀ p, p ∈ stacks ↔ entered (records hist) p) ∧
      b.trees.length = 1 + stacks.length ∧ stacks.length ≤ (records hist).length ∧
      b.visitedShared = (traceRoots hist []).visited ∧ b.shared = [] ∧ b.current.stack = [] := by
  obtain ⟨b, paths, e, i, v⟩ := Idle.default.useRoots (hist := hist) hl
  simp only [List.nil_append] at i
  have hrec : (traceRoots hist Builder.default.visitedShared).recs = records hist := rfl
  rw [hrec] at i
  have hroot := i.rep.root
  obtain ⟨p0, rest, rfl⟩ : ∃ p0 rest, paths = p0 :: rest := by
    cases paths with
    | nil => simp at hroot
    | cons p r => exact ⟨p, r, rfl⟩
  simp only [List.getElem?_cons_zero, Option.some.injEq] at hroot
  subst hroot
  have hnd := List.nodup_cons.1 i.rep.nodup
  have hm : ∀ p, p ∈ rest ↔ entered (records hist) p := by
    intro p
    have h := i.rep.mem p
    simp only [List.mem_cons] at h
    constructor
    · intro hp
      rcases h.1 (.inr hp) with rfl | h'
      · exact absurd hp hnd.1
      · exact h'
    · intro hp
      rcases h.2 (.inr hp) with rfl | h'
      · obtain ⟨r, hr, hp'⟩ := hp
        exact absurd hp' ((records_closed hist).ne r hr)
      · exact h'
  refine ⟨b, rest, e, hnd.2, hm, ?_, ?_, v, i.shared, ?_⟩
  · rw [← i.rep.len, List.length_cons]; omega
  · have : rest ⊆ (records hist).map Rec.path := by
      intro p hp
      obtain ⟨r, hr, h⟩ := (hm p).1 hp
      exact List.mem_map.2 ⟨r, hr, h⟩
    have := length_le_of_nodup_subset hnd.2 this
    simpa using this
  · rw [i.current]

/-! Non-vacuity: `n` cells, each pointing twice to the next: `2 ^ n` paths, but `2 * n` pointers. -/

/-- Cell `p < n` has two pointers to cell `p + 1`. -/
def Ex.doubling (n : Nat) : Heap := fun p =>
  if p < n then .shared (Ex.k "a") 8 (p + 1) .exit (.shared (Ex.k "b") 8 (p + 1) .exit .nil) else .nil

/-- One root, pointing to cell 0. -/
def Ex.doublingRoot : Obj := .shared (Ex.k "r") 8 0 .exit .nil

theorem Ex.doubling_paths (n : Nat) : ∀ d p, p + d = n → Heap.paths (Ex.doubling n) d p = 2 ^ d := by
  intro d
  induction d with
  | zero => intro p _; rfl
  | succ d ih =>
    intro p hp
    have hlt : p < n := by omega
    have h := ih (p + 1) (by omega)
    simp only [Heap.paths, Ex.doubling, if_pos hlt, Obj.ptrs]
    rw [if_neg (by simp)]
    simp only [List.map_cons, List.map_nil, List.sum_cons, List.sum_nil]
    rw [h, Nat.pow_succ]; omega

theorem Ex.doubling_reach (n : Nat) (p : Ptr) : p ∈ List.range (n + 1) ↔ Reachable (Ex.doubling n) [Ex.doublingRoot] p := by
  rw [List.mem_range]
  constructor
  · induction p with
    | zero => intro _; exact .root (o := Ex.doublingRoot) (by simp) (by simp [Ex.doublingRoot, Obj.ptrs])
    | succ p ih =>
      intro h
      exact .step (ih (by omega)) (by simp [Ex.doubling, show p < n by omega, Obj.ptrs])
  · intro h
    induction h with
    | root ho hp =>
      simp only [List.mem_singleton] at ho
      subst ho
      simp only [Ex.doublingRoot, Obj.ptrs, List.mem_singleton] at hp
      rw [hp]; exact Nat.succ_pos n
    | @step q p _ hp ih =>
      simp only [Ex.doubling] at hp
      split at hp
      · rename_i hq
        simp only [Obj.ptrs, List.mem_cons, List.not_mem_nil, or_false, or_self] at hp
        rw [hp]; exact Nat.succ_lt_succ hq
      · simp [Obj.ptrs] at hp

theorem Ex.doubling_calls (n : Nat) : ∃ b log, Builder.default.useRootsLogged [] (visits (Ex.doubling n) (n + 1) [Ex.doublingRoot]) = .ok (b, log) ∧
    log.countP Event.enters = 1 + 2 * n := by
  obtain ⟨b, log, e, _, h⟩ := C65_calls (Ex.doubling n) [Ex.doublingRoot] (List.range (n + 1)) List.nodup_range (Ex.doubling_reach n) (n + 1) (by simp)
  refine ⟨b, log, e, ?_⟩
  rw [h]
  have : ∀ m, m ≤ n → ((List.range m).map fun p => (Ex.doubling n p).calls).sum = 2 * m := by
    intro m
    induction m with
    | zero => intro _; rfl
    | succ m ih =>
      intro hm
      rw [List.range_succ, List.map_append, List.sum_append, ih (by omega)]
      simp [Ex.doubling, show m < n by omega, Obj.calls]
      omega
  rw [List.range_succ, List.map_append, List.sum_append, this n (Nat.le_refl _)]
  simp [Ex.doubling, Obj.calls, Ex.doublingRoot]

/-! The theorems of this file with a concrete case of their hypotheses. -/

example := C64_more_is_not_less [(Ex.prog1, .exit)] [(Ex.prog3, .exit), (Ex.prog1, .drop)] (by decide)
example := C64_adds_at_most [(Ex.prog1, .exit)] [(Ex.prog3, .exit), (Ex.prog1, .drop)] (by decide) (hu := Ex.unique_grows)
example := C65_calls Ex.cyclic Ex.roots [1, 2] (by decide) Ex.reach 2 (by decide)
example := C65_memory Ex.hist1 Ex.hist1_noLeaks

end Allocative
