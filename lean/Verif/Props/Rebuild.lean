import Verif.Spec.Rebuild
import Verif.Spec.Merge
import Verif.Props.Text
import Verif.Props.Merge
set_option linter.unusedSimpArgs false
/-
C71: flame graphs put together from (stack, size) pairs, and read back from text.
-/
namespace Allocative

theorem ofStack_built {Q : Key → Prop} : ∀ (p : Path) (n : Nat), (∀ k ∈ p, Q k) → (FlameGraph.ofStack p n).Built Q
  | [], n, _ => .addSelf n .default
  | k :: p, n, h => .addChild k (h k (by simp)) .default (ofStack_built p n fun k hk => h k (by simp [hk]))

theorem default_selfAt (p : Path) : (FlameGraph.default.selfAt p).getD 0 = 0 := by
  cases p with
  | nil => rfl
  | cons k p => rfl

theorem ofStack_selfAt : ∀ (p : Path) (n : Nat) (q : Path), ((FlameGraph.ofStack p n).selfAt q).getD 0 = if p = q then n else 0
  | [], n, q => by
    cases q with
    | nil => simp [FlameGraph.ofStack, FlameGraph.selfAt, FlameGraph.find?, FlameGraph.addSelf, FlameGraph.default, FlameGraph.nodeSize]
    | cons k q => rfl
  | k :: p, n, q => by
    rw [FlameGraph.ofStack, FlameGraph.selfAt_addChild (Q := fun _ => True) (ofStack_built p n (by simp)).ok]
    cases q with
    | nil => rfl
    | cons k' q =>
      have h := ofStack_selfAt p n q
      have hd : FlameGraph.default.selfAt (k' :: q) = none := rfl
      simp only [hd, List.cons.injEq]
      by_cases hk : k = k'
      · simp only [hk, if_true, true_and, ← h]
        cases (FlameGraph.ofStack p n).selfAt q <;> rfl
      · simp only [hk, if_false, false_and]; rfl

theorem ofStack_totalSize : ∀ (p : Path) (n : Nat), (FlameGraph.ofStack p n).totalSize = n
  | [], n => by simp [FlameGraph.ofStack, FlameGraph.totalSize, FlameGraph.addSelf, FlameGraph.default, FlameGraph.nodeSize, FlameGraph.childrenSize]
  | k :: p, n => by
    have := ofStack_totalSize p n
    simp only [FlameGraph.ofStack, FlameGraph.addChild, FlameGraph.totalSize, FlameGraph.nodeSize, FlameGraph.childrenSize, FlameGraph.default] at this ⊢
    omega

/-- The loop of `ofLines`, from any flame graph on. -/
theorem addLines_spec {Q : Key → Prop} : ∀ (lines : List (Path × Nat)) (fg : FlameGraph), fg.Built Q → (∀ l ∈ lines, ∀ k ∈ l.1, Q k) →
    (lines.foldl (fun fg l => fg.add (FlameGraph.ofStack l.1 l.2)) fg).Built Q ∧
    (∀ p, ((lines.foldl (fun fg l => fg.add (FlameGraph.ofStack l.1 l.2)) fg).selfAt p).getD 0 = (fg.selfAt p).getD 0 + bytesAt lines p) ∧
    (lines.foldl (fun fg l => fg.add (FlameGraph.ofStack l.1 l.2)) fg).totalSize = fg.totalSize + (lines.map Prod.snd).sum
  | [], fg, h, _ => ⟨h, fun p => by simp [bytesAt], by simp⟩
  | (q, n) :: rest, fg, h, hk => by
    have hs : (FlameGraph.ofStack q n).Built Q := ofStack_built q n (hk (q, n) (by simp))
    obtain ⟨h1, h2, h3⟩ := addLines_spec rest (fg.add (FlameGraph.ofStack q n)) (.add h hs) (fun l hl => hk l (by simp [hl]))
    refine ⟨h1, fun p => ?_, ?_⟩
    · simp only [List.foldl_cons, h2]
      rw [FlameGraph.selfAt_add _ _ hs.ok]
      have e := ofStack_selfAt q n p
      have : (FlameGraph.optAdd (fg.selfAt p) ((FlameGraph.ofStack q n).selfAt p)).getD 0 = (fg.selfAt p).getD 0 + ((FlameGraph.ofStack q n).selfAt p).getD 0 := by
        cases fg.selfAt p <;> cases (FlameGraph.ofStack q n).selfAt p <;> simp [FlameGraph.optAdd]
      rw [this, e]
      simp only [bytesAt, List.map_cons, List.sum_cons]
      omega
    · simp only [List.foldl_cons, h3, FlameGraph.totalSize_add _ _ hs.ok.sum, ofStack_totalSize, List.map_cons, List.sum_cons]
      omega

/-- C71. A flame graph put together from any (stack, size) pairs, in any order, stacks repeated or not: each stack has the sum of what was given for it, the total is the sum of
everything, and the text has the non-zero sums, sorted, and nothing else (what is given for the empty stack is not printed). -/
theorem C71_lines (lines : List (Path × Nat)) (hk : ∀ l ∈ lines, ∀ k ∈ l.1, k.Proper) (ord : HashOrder (List Str)) :
    (∀ p, ((FlameGraph.ofLines lines).selfAt p).getD 0 = bytesAt lines p) ∧ (FlameGraph.ofLines lines).totalSize = (lines.map Prod.snd).sum ∧
    ∃ printed : List (Path × Nat), (FlameGraph.ofLines lines).write ord = printed.flatMap renderLine ∧ printed.Pairwise (fun a b => pathLt a.1.names b.1.names) ∧
      ∀ p n, (p, n) ∈ printed ↔ p ≠ [] ∧ n ≠ 0 ∧ n = bytesAt lines p := by
  obtain ⟨h1, h2, h3⟩ := addLines_spec lines .default .default hk
  obtain ⟨printed, e1, e2, e3⟩ := C02_text_exact_sorted _ h1 ord
  have hs : ∀ p, ((FlameGraph.ofLines lines).selfAt p).getD 0 = bytesAt lines p := fun p => by
    have := h2 p
    rw [default_selfAt] at this
    simpa [FlameGraph.ofLines] using this
  refine ⟨hs, ?_, printed, e1, e2, fun p n => ?_⟩
  · simpa [FlameGraph.ofLines, FlameGraph.default, FlameGraph.totalSize, FlameGraph.nodeSize, FlameGraph.childrenSize] using h3
  · rw [e3, ← hs p]
    simp only [FlameGraph.ofLines]
    constructor
    · rintro ⟨a, b, c⟩; exact ⟨a, b, by rw [c]; rfl⟩
    · rintro ⟨a, b, c⟩
      refine ⟨a, b, ?_⟩
      revert c
      cases (List.foldl _ _ _ : FlameGraph).selfAt p with
      | none => intro c; exact absurd c b
      | some m => intro c; rw [c]; rfl

theorem readLines_spec : ∀ (lines : List (Path × Nat)) (fg : FlameGraph), (∀ l ∈ lines, ∀ k ∈ l.1, k.Proper) →
    fg.readLines (lines.map fun l => some (l.1.names, l.2)) = some (lines.foldl (fun fg l => fg.add (FlameGraph.ofStack l.1 l.2)) fg)
  | [], fg, _ => rfl
  | (p, n) :: rest, fg, h => by
    have hp : (Path.names p).map Key.new = p := by
      have := h (p, n) (by simp)
      simp only [Path.names, List.map_map]
      conv => rhs; rw [← List.map_id p]
      exact List.map_congr_left fun k hk => (this k hk).symm
    simp only [List.map_cons, FlameGraph.readLines, hp, List.foldl_cons]
    exact readLines_spec rest _ fun l hl => h l (by simp [hl])

theorem bytesAt_append (a b : List (Path × Nat)) (p : Path) : bytesAt (a ++ b) p = bytesAt a p + bytesAt b p := by simp [bytesAt]

/-- A sorted list of lines has a stack at most once. -/
theorem bytesAt_sorted : ∀ (lines : List (Path × Nat)), lines.Pairwise (fun a b => pathLt a.1.names b.1.names) → ∀ p,
    (∀ n, (p, n) ∈ lines → bytesAt lines p = n) ∧ ((∀ n, (p, n) ∉ lines) → bytesAt lines p = 0)
  | [], _, p => by simp [bytesAt]
  | (q, m) :: rest, h, p => by
    obtain ⟨h1, h2⟩ := List.pairwise_cons.1 h
    obtain ⟨i1, i2⟩ := bytesAt_sorted rest h2 p
    have hc : bytesAt ((q, m) :: rest) p = (if q = p then m else 0) + bytesAt rest p := by simp [bytesAt]
    rw [hc]
    constructor
    · intro n hn
      rcases List.mem_cons.1 hn with e | hn
      · cases e
        rw [i2 fun n hn => pathLt_irrefl _ (h1 (q, n) hn)]
        simp
      · rw [i1 n hn, if_neg]
        · omega
        · rintro rfl; exact pathLt_irrefl _ (h1 (q, n) hn)
    · intro hn
      rw [i2 fun n h => hn n (by simp [h]), if_neg]
      rintro rfl; exact hn m (by simp)

/-- The lines of a flame graph: their sums are its self sizes. -/
theorem entries_bytesAt (fg : FlameGraph) (h : fg.Built Key.Proper) (p : Path) :
    bytesAt (FlameGraph.entries fg []) p = if p = [] then 0 else (fg.selfAt p).getD 0 := by
  obtain ⟨h1, h2⟩ := bytesAt_sorted _ (FlameGraph.entries_sorted fg h.ok []) p
  have hm : ∀ n, (p, n) ∈ FlameGraph.entries fg [] ↔ p ≠ [] ∧ n ≠ 0 ∧ fg.selfAt p = some n := by
    intro n
    rw [FlameGraph.mem_entries _ h.ok]
    constructor
    · rintro ⟨q, e, h⟩; simp only [List.nil_append] at e; subst e; exact h
    · intro h; exact ⟨p, rfl, h⟩
  by_cases hp : p = []
  · rw [if_pos hp]; exact h2 fun n hn => ((hm n).1 hn).1 hp
  · rw [if_neg hp]
    cases hs : fg.selfAt p with
    | none => exact h2 fun n hn => by have := ((hm n).1 hn).2.2; rw [hs] at this; cases this
    | some n =>
      by_cases hn : n = 0
      · rw [h2]; · simp [hn]
        intro n' hn'
        have := (hm n').1 hn'
        rw [hs] at this
        exact this.2.1 (by rw [← Option.some.inj this.2.2, hn])
      · exact h1 n ((hm n).2 ⟨hp, hn, hs⟩)

theorem linesTotal (fg : FlameGraph) (h : fg.Built Key.Proper) : ((FlameGraph.entries fg []).map Prod.snd).sum = fg.totalSize - fg.nodeSize := by
  rw [FlameGraph.entries_sum, if_pos rfl, h.ok.totalSize_eq]

theorem FlameGraph.Built.mono {Q Q' : Key → Prop} (hq : ∀ k, Q k → Q' k) {fg : FlameGraph} (h : fg.Built Q) : fg.Built Q' := by
  induction h with
  | default => exact .default
  | addSelf n _ ih => exact .addSelf n ih
  | addChild k hk _ _ i1 i2 => exact .addChild k (hq k hk) i1 i2
  | add _ _ i1 i2 => exact .add i1 i2

/-- C71. Texts of any flame graphs, one after the other in one file, read back (split into lines, each at its last space and at `;`) and put together with the public operations:
the flame graph prints the same text as the flame graphs added with `add`; its total is the sum of their totals without the sizes of their nameless roots. -/
theorem C71_concat (fgs : List (FlameGraph × HashOrder (List Str))) (h : ∀ x ∈ fgs, x.1.Built fun k => k.Proper ∧ k.Plain) :
    ∃ fg, FlameGraph.read (fgs.flatMap fun x => x.1.write x.2) = some fg ∧ (∀ o o', fg.write o = (mergeAll (fgs.map Prod.fst)).write o') ∧
      fg.totalSize = (fgs.map fun x => x.1.totalSize - x.1.nodeSize).sum := by
  have hb : ∀ x ∈ fgs, x.1.Ok Key.Proper := fun x hx => (h x hx).ok.mono fun _ h => h.1
  have hbb : ∀ x ∈ fgs, x.1.Built Key.Proper := fun x hx => (h x hx).mono fun _ h => h.1
  let lines := fgs.flatMap fun x => FlameGraph.entries x.1 []
  have hmem : ∀ x ∈ fgs, ∀ p n, (p, n) ∈ FlameGraph.entries x.1 [] ↔ p ≠ [] ∧ n ≠ 0 ∧ x.1.selfAt p = some n := by
    intro x hx p n
    rw [FlameGraph.mem_entries _ (hb x hx)]
    constructor
    · rintro ⟨q, e, h⟩; simp only [List.nil_append] at e; subst e; exact h
    · intro h; exact ⟨p, rfl, h⟩
  have hkeys : ∀ l ∈ lines, l.1 ≠ [] ∧ ∀ k ∈ l.1, k.Proper ∧ k.Plain := by
    rintro ⟨p, n⟩ hl
    obtain ⟨x, hx, hl⟩ := List.mem_flatMap.1 hl
    have := (hmem x hx p n).1 hl
    exact ⟨this.1, fun k hk => (h x hx).ok.keys_of_selfAt p (by simp [this.2.2]) k hk⟩
  have htext : (fgs.flatMap fun x => x.1.write x.2) = lines.flatMap renderLine := by
    simp only [lines, List.flatMap_assoc]
    have : ∀ l : List (FlameGraph × HashOrder (List Str)), (∀ x ∈ l, x ∈ fgs) → (l.flatMap fun x => x.1.write x.2) = l.flatMap fun x => (FlameGraph.entries x.1 []).flatMap renderLine := by
      intro l
      induction l with
      | nil => intro _; rfl
      | cons x l ih => intro hl; simp only [List.flatMap_cons, ih fun y hy => hl y (by simp [hy]), FlameGraph.write_eq _ _ (hb x (hl x (by simp)))]
    exact this fgs fun _ h => h
  have hread : FlameGraph.read (fgs.flatMap fun x => x.1.write x.2) = some (FlameGraph.ofLines lines) := by
    rw [htext, FlameGraph.read, Parse.text_render _ fun e he => ⟨(hkeys e he).1, fun k hk => ((hkeys e he).2 k hk).2⟩]
    exact readLines_spec lines _ fun l hl k hk => ((hkeys l hl).2 k hk).1
  obtain ⟨h1, h2, h3⟩ := addLines_spec (Q := Key.Proper) lines .default .default fun l hl k hk => ((hkeys l hl).2 k hk).1
  have hmb : ∀ x ∈ fgs.map Prod.fst, x.Built Key.Proper := by
    intro x hx
    obtain ⟨y, hy, rfl⟩ := List.mem_map.1 hx
    exact hbb y hy
  obtain ⟨m1, m2, -⟩ := mergeAll_spec (fgs.map Prod.fst) hmb
  refine ⟨_, hread, fun o o' => write_congr h1.ok m1.ok ?_ o o', ?_⟩
  · intro p n hp hn
    have e : ((FlameGraph.ofLines lines).selfAt p).getD 0 = ((mergeAll (fgs.map Prod.fst)).selfAt p).getD 0 := by
      show ((List.foldl _ _ _ : FlameGraph).selfAt p).getD 0 = ((List.foldl _ _ _ : FlameGraph).selfAt p).getD 0
      have m2' := m2 p
      rw [mergeAll] at m2'
      rw [h2 p, m2', default_selfAt, Nat.zero_add]
      have : ∀ l : List (FlameGraph × HashOrder (List Str)), (∀ x ∈ l, x ∈ fgs) →
          bytesAt (l.flatMap fun x => FlameGraph.entries x.1 []) p = (l.map fun x => (x.1.selfAt p).getD 0).sum := by
        intro l
        induction l with
        | nil => intro _; rfl
        | cons x l ih =>
          intro hl
          rw [List.flatMap_cons, bytesAt_append, ih fun y hy => hl y (by simp [hy]), entries_bytesAt _ (hbb x (hl x (by simp))), if_neg hp]
          simp
      rw [this fgs fun _ h => h, List.map_map]
      rfl
    change (FlameGraph.ofLines lines).selfAt p = some n ↔ (mergeAll (fgs.map Prod.fst)).selfAt p = some n
    cases h1 : (FlameGraph.ofLines lines).selfAt p <;> cases h2 : (mergeAll (fgs.map Prod.fst)).selfAt p <;> simp [h1, h2] at e ⊢ <;> omega
  · have e0 : FlameGraph.default.totalSize = 0 := rfl
    show (List.foldl _ _ _ : FlameGraph).totalSize = _
    rw [h3, e0, Nat.zero_add]
    have : ∀ l : List (FlameGraph × HashOrder (List Str)), (∀ x ∈ l, x ∈ fgs) →
        ((l.flatMap fun x => FlameGraph.entries x.1 []).map Prod.snd).sum = (l.map fun x => x.1.totalSize - x.1.nodeSize).sum := by
      intro l
      induction l with
      | nil => intro _; rfl
      | cons x l ih =>
        intro hl
        rw [List.flatMap_cons, List.map_append, List.sum_append, ih fun y hy => hl y (by simp [hy]), linesTotal _ (hbb x (hl x (by simp)))]
        simp
    exact this fgs fun _ h => h

/-- C71. In particular reading the text of a flame graph gives one that prints the same text and has the same total (without the size of the nameless root). -/
theorem C71_rebuild (fg : FlameGraph) (h : fg.Built fun k => k.Proper ∧ k.Plain) (ord : HashOrder (List Str)) :
    ∃ fg', FlameGraph.read (fg.write ord) = some fg' ∧ (∀ o o', fg'.write o = fg.write o') ∧ fg'.totalSize = fg.totalSize - fg.nodeSize := by
  obtain ⟨fg', h1, h2, h3⟩ := C71_concat [(fg, ord)] (by simpa using h)
  have hb : fg.Built Key.Proper := h.mono fun _ h => h.1
  refine ⟨fg', by simpa using h1, fun o o' => ?_, by simpa using h3⟩
  rw [h2 o o]
  exact (C21_add_laws fg .default .default hb .default .default o o').2.2.2.1

/-! The theorems of this file with a concrete case of their hypotheses. -/
namespace RebuildExamples

/-- Unsorted, with a stack that is repeated, one of no bytes and the empty one. -/
def lines : List (Path × Nat) := [([Ex.k "b", Ex.k "c"], 3), ([Ex.k "a"], 5), ([], 2), ([Ex.k "b", Ex.k "c"], 4), ([Ex.k "z"], 0)]
theorem lines_proper : ∀ l ∈ lines, ∀ k ∈ l.1, k.Proper := by
  simp [lines, Ex.k, Key.Proper, Key.new, Key.newUnchecked]
example := C71_lines lines lines_proper
example : (FlameGraph.ofLines lines).write (HashOrder.id _) = ascii "a 5\nb;c 7\n" ∧ (FlameGraph.ofLines lines).totalSize = 14 := by decide +kernel

example := C71_concat [(Ex.graph, HashOrder.id _), (Ex.graph2, HashOrder.id _), (Ex.graph, HashOrder.id _)]
  (by intro x hx; simp only [List.mem_cons, List.not_mem_nil, or_false] at hx; rcases hx with rfl | rfl | rfl
      · exact Ex.graph_plain
      · exact Ex.graph2_plain
      · exact Ex.graph_plain)
example := C71_rebuild Ex.graph Ex.graph_plain
example : (FlameGraph.read (ascii "b;c 7\na 5\nb;c 1\n")).map (fun fg => fg.write (HashOrder.id _)) = some (ascii "a 5\nb;c 8\n") := by decide +kernel
end RebuildExamples

end Allocative
