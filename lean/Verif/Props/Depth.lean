import Verif.Lemmas.Depth
import Verif.Props.Objects
/-
C67: how deep visits and `finish` recurse.
-/
set_option linter.unusedSimpArgs false
namespace Allocative

/-- C67. While the roots of an object graph are visited, the number of visitors alive at the same time (hence of nested
`visit` calls) is at most one for the root visitor, plus how deep one of the roots nests, plus how deep the cells of one path
through the heap nest; no cell occurs twice on the path, so cycles do not matter. -/
theorem C67_visit_depth (heap : Heap) (roots : List Obj) (L : List Ptr) (hn : L.Nodup)
    (hL : ∀ p, p ∈ L ↔ Reachable heap roots p) (fuel : Nat) (hf : L.length ≤ fuel) (hne : roots ≠ []) :
    ∃ b log, Builder.default.useRootsLogged [] (visits heap fuel roots) = .ok (b, log) ∧
      Builder.default.useRoots (visits heap fuel roots) = .ok b ∧
      ∃ o ∈ roots, ∃ chain, heap.Chain o chain ∧ chain.Nodup ∧
        peakLive 0 log ≤ 1 + o.height + (chain.map fun p => (heap p).height).sum ∧
        peakLive 0 log ≤ 1 + o.height + (L.map fun p => (heap p).height).sum := by
  obtain ⟨l, _, _⟩ := visits_spec heap roots L hn hL fuel hf
  obtain ⟨b, e⟩ := useRootsLogged_log (hist := visits heap fuel roots) [] Idle.default l
  have he := useRootsLogged_erase (visits heap fuel roots) Builder.default []
  rw [e] at he
  obtain ⟨_, o, ho, chain, hc, hcn, hp⟩ := visits_deep heap L (fun p hp q hq => (hL q).2 (.step ((hL p).1 hp) hq)) fuel roots []
    (fun o ho p hp => (hL p).2 (.root ho hp)) (by unfold unvisited; exact Nat.le_trans (List.length_filter_le _ _) hf) hne
  simp only [List.nil_append] at e
  refine ⟨b, _, e, he.symm, o, ho, chain, hc, hcn, hp, Nat.le_trans hp ?_⟩
  have hsub : ∀ (c : List Ptr) (o : Obj), (∀ p ∈ o.ptrs, p ∈ L) → heap.Chain o c → ∀ p ∈ c, p ∈ L := by
    intro c
    induction c with
    | nil => intro o _ _ p hp; simp at hp
    | cons q c ih =>
      intro o ho hc p hp
      rcases List.mem_cons.1 hp with rfl | hp
      · exact ho _ hc.1
      · exact ih (heap q) (fun r hr => (hL r).2 (.step ((hL q).1 (ho q hc.1)) hr)) hc.2 p hp
  have hsub := hsub chain o (fun p hp => (hL p).2 (.root ho hp)) hc
  have hsum : ∀ (c M : List Ptr), c.Nodup → (∀ p ∈ c, p ∈ M) →
      (c.map fun p => (heap p).height).sum ≤ (M.map fun p => (heap p).height).sum := by
    intro c
    induction c with
    | nil => intro M _ _; simp
    | cons q c ih =>
      intro M hcn hs
      have hcn := List.nodup_cons.1 hcn
      have hq := hs q (by simp)
      have := ih (M.erase q) hcn.2 (fun p hp => (List.mem_erase_of_ne (fun e => hcn.1 (by rw [← e]; exact hp))).2 (hs p (by simp [hp])))
      rw [((List.perm_cons_erase hq).map _).sum_nat]
      simp only [List.map_cons, List.sum_cons]; omega
  have := hsum chain L hcn hsub
  omega

/-- C67. The longest stack recorded for an object graph is how deep its deepest root or reachable cell nests on its own: the
contents of a shared pointer start at the top again, so how long the paths through the heap are does not matter. -/
theorem C67_stack_length (heap : Heap) (roots : List Obj) (L : List Ptr) (hn : L.Nodup)
    (hL : ∀ p, p ∈ L ↔ Reachable heap roots p) (fuel : Nat) (hf : L.length ≤ fuel) :
    longestStack (records (visits heap fuel roots)) = (roots ++ L.map heap).foldr (fun o n => max o.height n) 0 := by
  have hp := (visits_spec heap roots L hn hL fuel hf).2.2
  have hm : ∀ r, r ∈ records (visits heap fuel roots) ↔ ∃ o ∈ roots ++ L.map heap, r ∈ o.own [] := by
    intro r
    rw [hp.mem_iff]
    simp only [List.mem_append, List.mem_flatMap, List.mem_map]
    constructor
    · rintro (⟨o, h1, h2⟩ | ⟨p, h1, h2⟩)
      · exact ⟨o, .inl h1, h2⟩
      · exact ⟨_, .inr ⟨p, h1, rfl⟩, h2⟩
    · rintro ⟨o, h1 | ⟨p, h1, rfl⟩, h2⟩
      · exact .inl ⟨o, h1, h2⟩
      · exact .inr ⟨p, h1, h2⟩
  have hmax : ∀ (l : List Obj), (∀ o ∈ l, o.height ≤ l.foldr (fun o n => max o.height n) 0) ∧
      (l.foldr (fun o n => max o.height n) 0 ≠ 0 → ∃ o ∈ l, o.height = l.foldr (fun o n => max o.height n) 0) := by
    intro l
    induction l with
    | nil => simp
    | cons x l ih =>
      simp only [List.foldr_cons]
      refine ⟨?_, ?_⟩
      · intro o ho
        rcases List.mem_cons.1 ho with rfl | ho
        · omega
        · have := ih.1 o ho; omega
      · intro h0
        by_cases hle : l.foldr (fun o n => max o.height n) 0 ≤ x.height
        · exact ⟨x, by simp, by omega⟩
        · obtain ⟨o, ho, e⟩ := ih.2 (by omega)
          exact ⟨o, by simp [ho], by rw [e]; omega⟩
  obtain ⟨m1, m2⟩ := hmax (roots ++ L.map heap)
  apply Nat.le_antisymm
  · by_cases h0 : longestStack (records (visits heap fuel roots)) = 0
    · omega
    · obtain ⟨r, hr, e⟩ := longestStack_attained h0
      obtain ⟨o, ho, hro⟩ := (hm r).1 hr
      have h1 := Obj.own_pathLength o [] r hro
      have h2 := m1 o ho
      simp only [List.length_nil] at h1; omega
  · by_cases h0 : (roots ++ L.map heap).foldr (fun o n => max o.height n) 0 = 0
    · omega
    · obtain ⟨o, ho, e⟩ := m2 h0
      obtain ⟨r, hr, e'⟩ := Obj.own_height o [] (by omega)
      have := le_longestStack ((hm r).2 ⟨o, ho, hr⟩)
      simp only [List.length_nil] at e'; omega

/-- C67. The two recursive passes of `finish`, for any history without leaks: a depth of recursion of `fuel` calls is enough
exactly if it exceeds the length of the longest recorded stack, and then the result is that of `finish`. -/
theorem C67_finish_depth (hist : List (Prog × Fate)) (hl : NoLeaks hist) (ord : HashOrder TreeId) :
    ∃ b trees out, Builder.default.useRoots hist = .ok b ∧ run ord hist = .ok out ∧ ∀ fuel,
      Builder.updateSizes ord fuel b.root b.trees =
        (if longestStack (records hist) < fuel then .ok trees else .error .outOfFuel) ∧
      Builder.writeFlameGraph ord trees fuel b.root [] =
        (if longestStack (records hist) < fuel then .ok (out.flamegraph, out.warnings) else .error .outOfFuel) := by
  obtain ⟨b, paths, e, h⟩ := useRoots_default hl
  obtain ⟨trees, eu, hrep, _, hgood⟩ := Rep.updateSizes (recs := records hist) (paths := paths) ord b.trees.length b.trees 0 [] h.rep
    h.rep.root (by omega)
  have hg : ∀ j, Good (records hist) paths trees j := fun j d p hd hp => hgood j p hp d p hd hp
  have hok := fun (j : Nat) (q : Path) (hq : paths[j]? = some q) (big : Nat) (hb : trees.length - j ≤ big) =>
    hrep.writeFlameGraph ord (fun _ => True) hg (fun _ _ _ _ => trivial) big j q hq hb
  obtain ⟨fg, ws, ew, _⟩ := hok 0 [] hrep.root trees.length (by omega)
  have ew' : Builder.writeFlameGraph ord trees trees.length 0 [] = .ok (fg, ws.flatMap (renderWarning (records hist))) := ew
  have hrun : run ord hist = .ok ⟨fg, ws.flatMap (renderWarning (records hist))⟩ := by
    simp only [run, e, Builder.finish, Builder.finishImpl, h.shared, h.current, h.notEntered, h.root, eu, ne_eq, not_true_eq_false,
      Bool.false_eq_true, if_false, ew']
  have hsh : ∀ fuel, Shallow paths [] fuel ↔ longestStack (records hist) < fuel := by
    intro fuel
    constructor
    · intro hs
      by_cases h0 : longestStack (records hist) = 0
      · have := hs [] (by simpa using List.mem_of_getElem? h.rep.root)
        simp only [List.length_nil] at this; omega
      · obtain ⟨r, hr, e⟩ := longestStack_attained h0
        have := hs r.path (by simpa using (h.rep.mem r.path).2 (.inr ⟨r, hr, rfl⟩))
        omega
    · intro hs q hq
      rcases (h.rep.mem q).1 (by simpa using hq) with rfl | ⟨r, hr, rfl⟩
      · simp only [List.length_nil]; omega
      · have := le_longestStack hr; omega
  refine ⟨b, trees, _, e, hrun, fun fuel => ?_⟩
  rw [h.root]
  obtain ⟨u1, u2⟩ := h.rep.updateSizes_shrink ord fuel b.trees.length b.trees 0 [] h.rep.root (by omega)
  have hw := hrep.genWrite_shrink (fun d => d.remSize.toNat)
      (fun d stack => if d.remSize > 0 then [] else if d.remSize < 0 ∧ stack ≠ [] then Builder.warningLine stack d.size d.inlineChildrenSize else [])
      ord fuel trees.length 0 [] hrep.root (by omega) (by
        intro j q hq big hb
        rw [← writeFlameGraph_gen]
        obtain ⟨fg, ws, e, _⟩ := hok j q hq big hb
        exact ⟨_, e⟩)
  simp only [← writeFlameGraph_gen] at hw
  rw [eu] at u1
  have ew'' : Builder.writeFlameGraph ord trees trees.length 0 (Path.names []) = .ok (fg, ws.flatMap (renderWarning (records hist))) := ew
  rw [ew''] at hw
  by_cases hs : longestStack (records hist) < fuel
  · rw [if_pos hs, if_pos hs]
    exact ⟨u1 ((hsh fuel).2 hs), hw.1 ((hsh fuel).2 hs)⟩
  · rw [if_neg hs, if_neg hs]
    exact ⟨u2 (fun x => hs ((hsh fuel).1 x)), hw.2 (fun x => hs ((hsh fuel).1 x))⟩

/-! ### Linked lists -/

/-- Cells `0 ... n`: cell `p < n` is a node of a linked list with an `Arc` to cell `p + 1`; cell `n` is the empty end. -/
def Ex.linked (n : Nat) : Heap := fun p =>
  if p < n then .inline (Ex.k "Node") 8 .exit (.shared (Ex.k "next") 8 (p + 1) .exit .nil) .nil else .nil

theorem Ex.linked_reach (n : Nat) (p : Ptr) :
    p ∈ List.range (n + 1) ↔ Reachable (Ex.linked n) [.shared (Ex.k "head") 8 0 .exit .nil] p := by
  rw [List.mem_range]
  constructor
  · intro h
    have : ∀ p : Nat, p < n + 1 → Reachable (Ex.linked n) [.shared (Ex.k "head") 8 0 .exit .nil] p := by
      intro p
      induction p with
      | zero => intro _; exact .root (List.mem_singleton_self _) (by simp [Obj.ptrs])
      | succ p ih =>
        intro h
        refine .step (q := p) (ih (by omega)) ?_
        have : p < n := by omega
        simp [Ex.linked, this, Obj.ptrs]
    exact this p h
  · intro h
    induction h with
    | root ho hp => simp only [List.mem_singleton] at ho; subst ho; simp [Obj.ptrs] at hp; subst hp; exact Nat.succ_pos n
    | @step q p _ hp ih =>
      simp only [Ex.linked] at hp
      by_cases hq : q < n
      · rw [if_pos hq] at hp
        simp only [Obj.ptrs, List.append_nil, List.mem_singleton] at hp
        subst hp; exact Nat.succ_lt_succ hq
      · rw [if_neg hq] at hp; simp [Obj.ptrs] at hp

/-- The visit of the cells from `p` on. -/
theorem Ex.linked_peak (n : Nat) : ∀ (m fuel : Nat) (vis : List Ptr) (d : Nat), m ≤ n → m ≤ fuel →
    (∀ q : Nat, n - m < q → q ∉ vis) →
    peakLive d (((Ex.linked n).visit fuel (Ex.linked n (n - m))).logAt [] vis) = d + 2 * m ∧
    liveVisitors d (((Ex.linked n).visit fuel (Ex.linked n (n - m))).logAt [] vis) = d ∧
    (((Ex.linked n).visit fuel (Ex.linked n (n - m))).trace [] vis).ctl = .returned := by
  intro m
  induction m with
  | zero =>
    intro fuel vis d _ _ _
    cases fuel <;> simp [Ex.linked, Heap.visit, Obj.visitWith, Prog.logAt, peakLive, liveVisitors, Prog.trace]
  | succ m ih =>
    intro fuel vis d hm hf hv
    obtain ⟨fuel, rfl⟩ : ∃ f, fuel = f + 1 := ⟨fuel - 1, by omega⟩
    have hlt : n - (m + 1) < n := by omega
    have hnext : n - (m + 1) + 1 = n - m := by omega
    have hnv : n - m ∉ vis := hv _ (by omega)
    obtain ⟨i1, i2, i3⟩ := ih fuel ((n - m) :: vis) (d + 2) (by omega) (by omega) (by
      intro q hq hmem
      rcases List.mem_cons.1 hmem with h | h
      · exact absurd (h : q = n - m) (by omega)
      · exact hv q (by omega) h)
    have e0 : Ex.linked n (n - (m + 1)) = .inline (Ex.k "Node") 8 .exit (.shared (Ex.k "next") 8 (n - m) .exit .nil) .nil := by
      simp only [Ex.linked, hlt, if_true, hnext]
    simp only [e0, Heap.visit, Obj.visitWith, Prog.logAt, Prog.trace, if_neg hnv, i3, Ending.fate, tailOf, Fate.leaks, if_true,
      List.append_nil, List.cons_append]
    have h1 : ∀ d, (Event.inline (Ex.k "Node") 8).live d = d + 1 := fun d => rfl
    have h2 : ∀ d, (Event.shared (Ex.k "next") 8 (n - m) true).live d = d + 1 := fun d => rfl
    have h3 : ∀ k d, (Event.exit k).live (d + 1) = d := fun k d => rfl
    refine ⟨?_, ?_, trivial⟩
    · simp only [peakLive, h1, h2, List.append_assoc, peakLive_append, i1, i2, List.cons_append, List.nil_append, h3]
      omega
    · simp only [liveVisitors, List.foldl_cons, List.foldl_append, List.foldl_nil, h1, h2] at i2 ⊢
      rw [i2]; simp only [h3]

/-- C67. Visiting a linked list of `n` nodes connected by `Arc`s needs `2 n + 2` visitors at the same time, two for each
node: the recursion of a visit is as deep as the list is long, so a long enough list overflows the stack of the thread.
The stacks in the flame graph have length at most two, however long the list. -/
theorem C67_list_depth (n fuel : Nat) (hf : n + 1 ≤ fuel) :
    ∃ b log, Builder.default.useRootsLogged [] (visits (Ex.linked n) fuel [.shared (Ex.k "head") 8 0 .exit .nil]) = .ok (b, log) ∧
      Builder.default.useRoots (visits (Ex.linked n) fuel [.shared (Ex.k "head") 8 0 .exit .nil]) = .ok b ∧
      peakLive 0 log = 2 * n + 2 ∧
      longestStack (records (visits (Ex.linked n) fuel [.shared (Ex.k "head") 8 0 .exit .nil])) ≤ 2 := by
  obtain ⟨l, _, _⟩ := visits_spec (Ex.linked n) [.shared (Ex.k "head") 8 0 .exit .nil] (List.range (n + 1)) List.nodup_range
    (Ex.linked_reach n) fuel (by simpa using hf)
  obtain ⟨b, e⟩ := useRootsLogged_log (hist := visits (Ex.linked n) fuel [.shared (Ex.k "head") 8 0 .exit .nil]) [] Idle.default l
  have he := useRootsLogged_erase (visits (Ex.linked n) fuel [.shared (Ex.k "head") 8 0 .exit .nil]) Builder.default []
  rw [e] at he
  simp only [List.nil_append] at e
  refine ⟨b, _, e, he.symm, ?_, ?_⟩
  · obtain ⟨fuel, rfl⟩ : ∃ f, fuel = f + 1 := ⟨fuel - 1, by omega⟩
    obtain ⟨i1, i2, i3⟩ := Ex.linked_peak n n fuel [0] 2 (Nat.le_refl n) (by omega) (by
      intro q hq hmem
      simp only [List.mem_singleton] at hmem
      have : q = 0 := hmem
      omega)
    rw [Nat.sub_self] at i1 i2 i3
    have h1 : ∀ d, Event.root.live d = d + 1 := fun d => rfl
    have h2 : ∀ d, (Event.shared (Ex.k "head") 8 0 true).live d = d + 1 := fun d => rfl
    have h3 : ∀ k d, (Event.exit k).live (d + 1) = d := fun k d => rfl
    have hvis : Builder.default.visitedShared = [] := rfl
    have hnm : (0 : Ptr) ∉ ([] : List Ptr) := by simp
    simp only [hvis, visits, List.map_cons, List.map_nil, logRoots, Heap.visit, Obj.visitWith, Prog.logAt, Prog.trace, if_neg hnm, i3,
      Ending.fate, tailOf, Fate.leaks, if_true, List.append_nil, List.cons_append, peakLive, h1, h2, List.append_assoc,
      peakLive_append, i1, i2, List.nil_append, h3]
    omega
  · rw [C67_stack_length (Ex.linked n) _ (List.range (n + 1)) List.nodup_range (Ex.linked_reach n) fuel (by simpa using hf)]
    have : ∀ l : List Obj, (∀ o ∈ l, o.height ≤ 2) → l.foldr (fun o n => max o.height n) 0 ≤ 2 := by
      intro l
      induction l with
      | nil => simp
      | cons x l ih =>
        intro h
        have h1 := h x (by simp)
        have h2 := ih (fun o ho => h o (by simp [ho]))
        simp only [List.foldr_cons]; omega
    apply this
    intro o ho
    rcases List.mem_append.1 ho with h | h
    · simp only [List.mem_singleton] at h; subst h; simp [Obj.height]
    · obtain ⟨p, _, rfl⟩ := List.mem_map.1 h
      simp only [Ex.linked]
      split <;> simp [Obj.height]

/-! Non-vacuity: the cycle of C08. -/

example : ∃ b log, Builder.default.useRootsLogged [] (visits Ex.cyclic 2 Ex.roots) = .ok (b, log) ∧
    Builder.default.useRoots (visits Ex.cyclic 2 Ex.roots) = .ok b ∧
    ∃ o ∈ Ex.roots, ∃ chain, Ex.cyclic.Chain o chain ∧ chain.Nodup ∧
      peakLive 0 log ≤ 1 + o.height + (chain.map fun p => (Ex.cyclic p).height).sum ∧
      peakLive 0 log ≤ 1 + o.height + ([1, 2].map fun p => (Ex.cyclic p).height).sum :=
  C67_visit_depth Ex.cyclic Ex.roots [1, 2] (by decide) Ex.reach 2 (by simp) (by simp [Ex.roots])

/-- Here the bound is attained: the root, `R`, its `Arc` to `A`, `A`, its `Arc` to `B`, `B`, and `n` in it. -/
example : peakLive 0 (logRoots (visits Ex.cyclic 2 Ex.roots) []) = 7 ∧ Ex.roots[0].height = 2 ∧ (Ex.cyclic 1).height = 2 ∧
    (Ex.cyclic 2).height = 2 ∧ longestStack (records (visits Ex.cyclic 2 Ex.roots)) = 2 := by decide

example := C67_stack_length Ex.cyclic Ex.roots [1, 2] (by decide) Ex.reach 2 (by decide)
example := C67_finish_depth Ex.hist1 Ex.hist1_noLeaks
example := C67_list_depth 1000 1001 (by decide)

end Allocative
