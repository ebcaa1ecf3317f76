import Verif.Lemmas.Write
import Verif.Lemmas.Run
import Verif.Props.Examples
/-
Property theorems about complete runs of the builder: C01, C02, C05, C06, C12, C17, C18, C20, C21.
-/
namespace Allocative

/-- C01. After any leak free history (any nesting, keys, sizes, pointers, user panics), `finish` succeeds and the self size of
every stack is `max 0 (S - C)` where `S` is the sum of sizes declared at the stack, and `C` the sum declared at its
direct child stacks (0 if the stack was ever entered as unique); stacks never entered do not exist. -/
theorem C01_self_sizes (hist : List (Prog × Fate)) (hl : NoLeaks hist) (ord : HashOrder TreeId) :
    ∃ out, run ord hist = .ok out ∧ ∀ p, p ≠ [] →
      (entered (records hist) p →
        out.flamegraph.selfAt p = some
          (max 0 ((sizeAt (records hist) p : Int) -
            (if uniqueAt (records hist) p then 0 else (childrenAt (records hist) p : Int)))).toNat) ∧
      (¬ entered (records hist) p → out.flamegraph.selfAt p = none) := by
  obtain ⟨out, ws, e, _, hs, _⟩ := run_spec (Q := fun _ => True) hl (fun x _ => Prog.KeysAre.trivial x.1) ord
  refine ⟨out, e, fun p hp => ⟨fun he => ?_, fun he => ?_⟩⟩
  · rw [hs p, if_pos (.inr he)]
    simp only [selfSpec, if_neg hp, remAt, Option.some.injEq]
    omega
  · rw [hs p, if_neg (by simp [hp, he])]

-- the history of the example: the boxed `T` and the shared `Inner` are found where the specification puts them
example : (records Ex.hist1).length = 17 ∧ sizeAt (records Ex.hist1) [Ex.k "S"] = 72
    ∧ childrenAt (records Ex.hist1) [Ex.k "S"] = 56 ∧ sizeAt (records Ex.hist1) [Ex.k "Inner"] = 40
    ∧ uniqueAt (records Ex.hist1) [Ex.k "S", Ex.k "b"] = true := by decide

/-- C02. The text has exactly one line per non-empty stack with non-zero self size, in strictly increasing
lexicographic order of the stacks. -/
theorem C02_text_exact_sorted (fg : FlameGraph) (hb : fg.Built Key.Proper) (ord : HashOrder (List Str)) :
    ∃ lines : List (Path × Nat), fg.write ord = lines.flatMap renderLine ∧
      lines.Pairwise (fun a b => pathLt a.1.names b.1.names) ∧
      ∀ p n, (p, n) ∈ lines ↔ p ≠ [] ∧ n ≠ 0 ∧ fg.selfAt p = some n := by
  refine ⟨FlameGraph.entries fg [], FlameGraph.write_eq _ _ hb.ok, FlameGraph.entries_sorted _ hb.ok _, ?_⟩
  intro p n
  rw [FlameGraph.mem_entries _ hb.ok]
  constructor
  · rintro ⟨q, e, h⟩; simp only [List.nil_append] at e; subst e; exact h
  · intro h; exact ⟨p, rfl, h⟩

/-- C02, for what `finish` returns: `finish` only returns flame graphs covered by the theorem above. -/
theorem C02_finish_covered (hist : List (Prog × Fate)) (hl : NoLeaks hist) (hk : ProperKeys hist) (ord : HashOrder TreeId) :
    ∃ out, run ord hist = .ok out ∧ out.flamegraph.Built Key.Proper := by
  obtain ⟨out, ws, e, h, _⟩ := run_spec hl hk ord
  exact ⟨out, e, h⟩

/-- C02. The writer of the code (sort the children, write each into the buffer) prints the same text as the writer of the theorems of this file, whatever
order the two find the children in. -/
theorem C02_literal (fg : FlameGraph) (hb : fg.Built Key.Proper) (ord ord' : HashOrder (List Str)) : fg.writeLoop ord = fg.write ord' := by
  have := FlameGraph.writeLoopImpl_eq ord fg hb.ok [] []
  rw [FlameGraph.write_eq ord' fg hb.ok]
  exact this

/-- C02. `finish_and_write_flame_graph()` after any root visits: one line for each entered stack whose self size is not zero, sorted, and nothing else. -/
theorem C02_finish_and_write (hist : List (Prog × Fate)) (hl : NoLeaks hist) (hk : ProperKeys hist) (ord : HashOrder TreeId)
    (ord' : HashOrder (List Str)) :
    ∃ b, ∃ lines : List (Path × Nat), Builder.default.useRoots hist = .ok b ∧ b.finishAndWriteFlameGraph ord ord' = .ok (lines.flatMap renderLine) ∧
      lines.Pairwise (fun a b => pathLt a.1.names b.1.names) ∧
      ∀ p n, (p, n) ∈ lines ↔ p ≠ [] ∧ entered (records hist) p ∧ n = selfSpec (records hist) p ∧ n ≠ 0 := by
  obtain ⟨out, ws, e, hb, hs, _⟩ := run_spec hl hk ord
  obtain ⟨lines, h1, h2, h3⟩ := C02_text_exact_sorted out.flamegraph hb ord'
  unfold run at e
  split at e
  · cases e
  rename_i b hb'
  refine ⟨b, lines, hb', ?_, h2, ?_⟩
  · simp only [Builder.finishAndWriteFlameGraph, e, C02_literal _ hb ord' ord', h1]
  · intro p n
    rw [h3, hs p]
    by_cases hp : p = []
    · simp [hp]
    by_cases he : entered (records hist) p
    · simp only [hp, he, or_true, if_true, Option.some.injEq, ne_eq, not_false_eq_true, true_and]
      constructor
      · rintro ⟨a, rfl⟩; exact ⟨rfl, a⟩
      · rintro ⟨rfl, a⟩; exact ⟨a, rfl⟩
    · simp [hp, he]

-- `Ex.hist1` meets the hypotheses
example (ord : HashOrder TreeId) (ord' : HashOrder (List Str)) :
    ∃ b, ∃ lines : List (Path × Nat), Builder.default.useRoots Ex.hist1 = .ok b ∧ b.finishAndWriteFlameGraph ord ord' = .ok (lines.flatMap renderLine) ∧
      lines.Pairwise (fun a b => pathLt a.1.names b.1.names) ∧
      ∀ p n, (p, n) ∈ lines ↔ p ≠ [] ∧ entered (records Ex.hist1) p ∧ n = selfSpec (records Ex.hist1) p ∧ n ≠ 0 :=
  C02_finish_and_write Ex.hist1 Ex.hist1_noLeaks Ex.hist1_proper ord ord'

/-- C05 and C06 together: text, total size and warnings are functions of the multiset of records. -/
theorem observe_of_perm {h1 h2 : List (Prog × Fate)} (hl1 : NoLeaks h1) (hl2 : NoLeaks h2) (hk1 : ProperKeys h1)
    (hk2 : ProperKeys h2) (hp : (records h1).Perm (records h2)) (o1 o2 : HashOrder TreeId) (o1' o2' : HashOrder (List Str)) :
    ∃ obs, observe o1 o1' h1 = .ok obs ∧ observe o2 o2' h2 = .ok obs := by
  obtain ⟨out1, ws1, e1, b1, s1, w1, n1, m1, so1⟩ := run_spec hl1 hk1 o1
  obtain ⟨out2, ws2, e2, b2, s2, w2, n2, m2, so2⟩ := run_spec hl2 hk2 o2
  have hsize : ∀ p, sizeAt (records h1) p = sizeAt (records h2) p := fun p => (hp.map _).sum_nat
  have hch : ∀ p, childrenAt (records h1) p = childrenAt (records h2) p := fun p => (hp.map _).sum_nat
  have hu : ∀ p, uniqueAt (records h1) p = uniqueAt (records h2) p := fun p => by
    unfold uniqueAt; exact hp.any_eq
  have he : ∀ p, entered (records h1) p ↔ entered (records h2) p := fun p => by
    unfold entered
    exact ⟨fun ⟨r, hr, e⟩ => ⟨r, hp.mem_iff.1 hr, e⟩, fun ⟨r, hr, e⟩ => ⟨r, hp.mem_iff.2 hr, e⟩⟩
  have hself : ∀ p, out1.flamegraph.selfAt p = out2.flamegraph.selfAt p := fun p => by
    rw [s1, s2]; simp only [selfSpec, remAt, hsize, hch, hu, he]
  have hw : out1.warnings = out2.warnings := by
    have : ws1 = ws2 := pairwise_ext (r := fun a b => pathLt a.names b.names) (fun _ _ => pathLt_asymm)
      (so1 fun _ h => h) (so2 fun _ h => h) (fun w => by rw [m1, m2]; simp only [overfull, he, hu, hsize, hch])
    rw [w1, w2, this]
    congr 1
    funext p
    simp only [renderWarning, hsize, hch]
  have ht : ∀ o o', out1.flamegraph.write o = out2.flamegraph.write o' := fun o o' =>
    write_congr b1.ok b2.ok (fun p n _ _ => by rw [hself]) o o'
  have htot : out1.flamegraph.totalSize = out2.flamegraph.totalSize := FlameGraph.totalSize_congr b1.ok b2.ok hself
  exact ⟨⟨out1.flamegraph.write o1', out1.flamegraph.totalSize, out1.warnings⟩, by simp only [observe, e1], by simp only [observe, e2, htot, hw, ht o1' o2']⟩

/-- C05. Hash map iteration orders are unobservable. -/
theorem C05_order_independent (hist : List (Prog × Fate)) (hl : NoLeaks hist) (hk : ProperKeys hist)
    (o1 o2 : HashOrder TreeId) (o1' o2' : HashOrder (List Str)) :
    ∃ obs, observe o1 o1' hist = .ok obs ∧ observe o2 o2' hist = .ok obs :=
  observe_of_perm hl hl hk hk (.refl _) o1 o2 o1' o2'

/-- C06. Histories with the same multiset of records are indistinguishable. -/
theorem C06_visit_order_independent (h1 h2 : List (Prog × Fate)) (hl1 : NoLeaks h1) (hl2 : NoLeaks h2) (hk1 : ProperKeys h1)
    (hk2 : ProperKeys h2) (hp : (records h1).Perm (records h2)) (ord : HashOrder TreeId) (ord' : HashOrder (List Str)) :
    ∃ obs, observe ord ord' h1 = .ok obs ∧ observe ord ord' h2 = .ok obs :=
  observe_of_perm hl1 hl2 hk1 hk2 hp ord ord ord' ord'

-- two different orders of root visits of the example have the same records up to permutation
example : records [(Ex.prog1, .exit), (Ex.prog2, .exit)] ≠ records [(Ex.prog2, .drop), (Ex.prog1, .exit)] ∧
    (records [(Ex.prog1, .exit), (Ex.prog2, .exit)]).Perm (records [(Ex.prog2, .drop), (Ex.prog1, .exit)]) := by decide

/-- C12. No assertion, index or `unwrap` of the builder fails: every leak free history, whatever keys (also with wrong hashes),
sizes and pointers, and whatever user panics, runs to the end and finishes. -/
theorem C12_no_internal_panic (hist : List (Prog × Fate)) (hl : NoLeaks hist) (ord : HashOrder TreeId) :
    ∃ b out, Builder.default.useRoots hist = .ok b ∧ b.finish ord = .ok out ∧
      ∀ prog fate, NoLeaks (hist ++ [(prog, fate)]) → ∃ b' ctl, b.useRoot prog fate = .ok (b', ctl) := by
  obtain ⟨b, paths, e, h⟩ := useRoots_default hl
  obtain ⟨fg, ws, ef, _⟩ := h.finish ord (fun _ => True) (by simp)
  refine ⟨b, _, e, ef, fun prog fate hp => ?_⟩
  obtain ⟨b', _, e', _⟩ := useRoots_default hp
  rw [useRoots_append, e] at e'
  simp only [Builder.useRoots] at e'
  split at e'
  · cases e'
  · rename_i b1 ctl he; exact ⟨b1, ctl, he⟩

example : NoLeaks Ex.hist1 ∧ ProperKeys Ex.hist1 := ⟨Ex.hist1_noLeaks, Ex.hist1_proper⟩

/-- C17. The sizes printed sum up to `total_size()` minus the self size of the nameless root node. -/
theorem C17_lines_sum (fg : FlameGraph) (hb : fg.Built Key.Proper) (ord : HashOrder (List Str)) :
    ∃ lines : List (Path × Nat), fg.write ord = lines.flatMap renderLine ∧
      (lines.map Prod.snd).sum = fg.totalSize - fg.nodeSize ∧ fg.nodeSize ≤ fg.totalSize := by
  refine ⟨FlameGraph.entries fg [], FlameGraph.write_eq _ _ hb.ok, ?_, ?_⟩
  · rw [FlameGraph.entries_sum, if_pos rfl, hb.ok.totalSize_eq]
  · simp [FlameGraph.totalSize]

/-- C17 for `finish`: the printed sizes sum up to exactly `total_size()`. -/
theorem C17_finish_lines_sum (hist : List (Prog × Fate)) (hl : NoLeaks hist) (hk : ProperKeys hist) (ord : HashOrder TreeId)
    (ord' : HashOrder (List Str)) :
    ∃ out, ∃ lines : List (Path × Nat), run ord hist = .ok out ∧ out.flamegraph.write ord' = lines.flatMap renderLine ∧
      (lines.map Prod.snd).sum = out.flamegraph.totalSize := by
  obtain ⟨out, ws, e, h, hs, _⟩ := run_spec hl hk ord
  obtain ⟨lines, e1, e2, _⟩ := C17_lines_sum out.flamegraph h ord'
  refine ⟨out, lines, e, e1, ?_⟩
  have : out.flamegraph.nodeSize = 0 := by
    have := hs []
    simpa [FlameGraph.selfAt_nil, selfSpec] using this
  omega

/-- C18. The warnings are one line per over-full stack, strictly sorted, no other lines. -/
theorem C18_warnings_exact (hist : List (Prog × Fate)) (hl : NoLeaks hist) (hk : ProperKeys hist) (ord : HashOrder TreeId) :
    ∃ out, ∃ ws : List Path, run ord hist = .ok out ∧ out.warnings = ws.flatMap (renderWarning (records hist)) ∧
      ws.Pairwise (fun a b => pathLt a.names b.names) ∧
      ∀ p, p ∈ ws ↔ p ≠ [] ∧ entered (records hist) p ∧ uniqueAt (records hist) p = false ∧
        sizeAt (records hist) p < childrenAt (records hist) p := by
  obtain ⟨out, ws, e, h, hs, hw, hn, hm, hso⟩ := run_spec hl hk ord
  exact ⟨out, ws, e, hw, hso fun _ h => h, hm⟩

example : overfull (records Ex.hist1) [Ex.k "M"] := by
  refine ⟨by decide, by decide, by decide, by decide⟩

/-- C20. The cached children size never drifts: `total_size()` is the sum of the self sizes of all nodes. -/
theorem C20_total_size (fg : FlameGraph) (hb : fg.Built (fun _ => True)) : fg.totalSize = fg.sumNodes :=
  hb.ok.totalSize_eq

/-- C21. `add` adds the self sizes stack by stack, and the totals. -/
theorem C21_add_pointwise (a b : FlameGraph) (ha : a.Built (fun _ => True)) (hb : b.Built (fun _ => True)) :
    (∀ p, ((a.add b).selfAt p).getD 0 = (a.selfAt p).getD 0 + (b.selfAt p).getD 0) ∧
    (∀ p, ((a.add b).selfAt p).isSome = ((a.selfAt p).isSome || (b.selfAt p).isSome)) ∧
    (a.add b).totalSize = a.totalSize + b.totalSize := by
  have _ := ha
  refine ⟨fun p => ?_, fun p => ?_, FlameGraph.totalSize_add a b hb.ok.sum⟩ <;>
  · rw [FlameGraph.selfAt_add b a hb.ok p]
    cases a.selfAt p <;> cases b.selfAt p <;> simp [FlameGraph.optAdd]

/-- C21. `add` is commutative, associative and has unit `default()`, as far as text and total size can tell. -/
theorem C21_add_laws (a b c : FlameGraph) (ha : a.Built Key.Proper) (hb : b.Built Key.Proper) (hc : c.Built Key.Proper)
    (o o' : HashOrder (List Str)) :
    ((a.add b).write o = (b.add a).write o' ∧ (a.add b).totalSize = (b.add a).totalSize) ∧
    (((a.add b).add c).write o = (a.add (b.add c)).write o' ∧
      ((a.add b).add c).totalSize = (a.add (b.add c)).totalSize) ∧
    ((a.add .default).write o = a.write o' ∧ (FlameGraph.default.add a).write o = a.write o' ∧
      (a.add .default).totalSize = a.totalSize ∧ (FlameGraph.default.add a).totalSize = a.totalSize) := by
  have hab := (FlameGraph.Built.add ha hb).ok
  have hba := (FlameGraph.Built.add hb ha).ok
  have hbc := (FlameGraph.Built.add hb hc).ok
  have habc := (FlameGraph.Built.add (.add ha hb) hc).ok
  have ha_bc := (FlameGraph.Built.add ha (.add hb hc)).ok
  have had := (FlameGraph.Built.add ha .default).ok
  have hda := (FlameGraph.Built.add .default ha).ok
  have sd : ∀ p, FlameGraph.default.selfAt p = if p = [] then some 0 else none := by
    intro p; cases p <;> rfl
  refine ⟨⟨write_congr hab hba ?_ o o', ?_⟩, ⟨write_congr habc ha_bc ?_ o o', ?_⟩,
    write_congr had ha.ok ?_ o o', write_congr hda ha.ok ?_ o o', ?_, ?_⟩
  · intro p n _ _
    rw [FlameGraph.selfAt_add b a hb.ok, FlameGraph.selfAt_add a b ha.ok]
    cases a.selfAt p <;> cases b.selfAt p <;> simp [FlameGraph.optAdd, Nat.add_comm]
  · rw [FlameGraph.totalSize_add _ _ hb.ok.sum, FlameGraph.totalSize_add _ _ ha.ok.sum, Nat.add_comm]
  · intro p n _ _
    rw [FlameGraph.selfAt_add c _ hc.ok, FlameGraph.selfAt_add b a hb.ok, FlameGraph.selfAt_add _ a hbc,
      FlameGraph.selfAt_add c b hc.ok]
    cases a.selfAt p <;> cases b.selfAt p <;> cases c.selfAt p <;> simp [FlameGraph.optAdd, Nat.add_assoc]
  · rw [FlameGraph.totalSize_add _ _ hc.ok.sum, FlameGraph.totalSize_add _ _ hb.ok.sum,
      FlameGraph.totalSize_add _ _ hbc.sum, FlameGraph.totalSize_add _ _ hc.ok.sum, Nat.add_assoc]
  · intro p n hp _
    rw [FlameGraph.selfAt_add _ a (FlameGraph.Ok.default Key.Proper), sd, if_neg hp]
    cases a.selfAt p <;> simp [FlameGraph.optAdd]
  · intro p n hp _
    rw [FlameGraph.selfAt_add a _ ha.ok, sd, if_neg hp]
    cases a.selfAt p <;> simp [FlameGraph.optAdd]
  · rw [FlameGraph.totalSize_add _ _ (FlameGraph.Ok.default Key.Proper).sum]; rfl
  · rw [FlameGraph.totalSize_add _ _ ha.ok.sum]; simp [FlameGraph.default, FlameGraph.totalSize]

example : ((FlameGraph.default.addSelf 3).addChild (Ex.k "a") (FlameGraph.default.addSelf 5)).Built Key.Proper :=
  .addChild _ rfl (.addSelf _ .default) (.addSelf _ .default)

/-! The theorems of this file with a concrete case of their hypotheses: a history with a shared cycle, an over-full node and a panic, and a flame graph. -/

/-- A flame graph made by hand: a root of 3 bytes with `a` of 5 bytes and `b` with `c` of 7 bytes. -/
def Ex.graph : FlameGraph :=
  ((FlameGraph.default.addSelf 3).addChild (Ex.k "a") (FlameGraph.default.addSelf 5)).addChild (Ex.k "b")
    (FlameGraph.default.addChild (Ex.k "c") (FlameGraph.default.addSelf 7))

theorem Ex.graph_built : Ex.graph.Built Key.Proper :=
  .addChild _ rfl (.addChild _ rfl (.addSelf _ .default) (.addSelf _ .default)) (.addChild _ rfl .default (.addSelf _ .default))

theorem Ex.graph_built' : Ex.graph.Built (fun _ => True) :=
  .addChild _ trivial (.addChild _ trivial (.addSelf _ .default) (.addSelf _ .default)) (.addChild _ trivial .default (.addSelf _ .default))

example := C01_self_sizes Ex.hist1 Ex.hist1_noLeaks
example := C02_text_exact_sorted Ex.graph Ex.graph_built
example := C02_finish_covered Ex.hist1 Ex.hist1_noLeaks Ex.hist1_proper
example := C02_literal Ex.graph Ex.graph_built
example : Ex.graph.write (HashOrder.id _) = ascii "a 5\nb;c 7\n" ∧ Ex.graph.totalSize = 15 := by decide
example := C05_order_independent Ex.hist1 Ex.hist1_noLeaks Ex.hist1_proper

theorem Ex.swapped : NoLeaks [(Ex.prog1, .exit), (Ex.prog2, .exit)] ∧ NoLeaks [(Ex.prog2, .drop), (Ex.prog1, .exit)] ∧
    ProperKeys [(Ex.prog1, .exit), (Ex.prog2, .exit)] ∧ ProperKeys [(Ex.prog2, .drop), (Ex.prog1, .exit)] ∧
    (records [(Ex.prog1, .exit), (Ex.prog2, .exit)]).Perm (records [(Ex.prog2, .drop), (Ex.prog1, .exit)]) := by
  refine ⟨by decide, by decide, ?_, ?_, by decide⟩ <;> intro x hx
  · have : x.1 = Ex.prog1 ∨ x.1 = Ex.prog2 := by simp at hx; rcases hx with rfl | rfl <;> simp
    rcases this with h | h <;> rw [h]
    · exact Ex.hist1_proper (Ex.prog1, .exit) (by simp [Ex.hist1])
    · exact Ex.hist1_proper (Ex.prog2, .drop) (by simp [Ex.hist1])
  · have : x.1 = Ex.prog1 ∨ x.1 = Ex.prog2 := by simp at hx; rcases hx with rfl | rfl <;> simp
    rcases this with h | h <;> rw [h]
    · exact Ex.hist1_proper (Ex.prog1, .exit) (by simp [Ex.hist1])
    · exact Ex.hist1_proper (Ex.prog2, .drop) (by simp [Ex.hist1])

example := C06_visit_order_independent _ _ Ex.swapped.1 Ex.swapped.2.1 Ex.swapped.2.2.1 Ex.swapped.2.2.2.1 Ex.swapped.2.2.2.2
example := C12_no_internal_panic Ex.hist1 Ex.hist1_noLeaks
example := C17_lines_sum Ex.graph Ex.graph_built
example := C17_finish_lines_sum Ex.hist1 Ex.hist1_noLeaks Ex.hist1_proper
example := C18_warnings_exact Ex.hist1 Ex.hist1_noLeaks Ex.hist1_proper
example := C20_total_size Ex.graph Ex.graph_built'
example := C21_add_pointwise Ex.graph (Ex.graph.add Ex.graph) Ex.graph_built' (.add Ex.graph_built' Ex.graph_built')
example := C21_add_laws Ex.graph (Ex.graph.add Ex.graph) (Ex.graph.addSelf 1) Ex.graph_built (.add Ex.graph_built Ex.graph_built) (.addSelf _ Ex.graph_built)

end Allocative
