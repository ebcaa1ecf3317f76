import Verif.Lemmas.Parse
import Verif.Props.Core
/-
C03, C04: the text format.
-/
namespace Allocative

/-- C03. If names contain neither `;` nor newline, parsing the text recovers exactly the (stack, self size) pairs. -/
theorem C03_parse_back (fg : FlameGraph) (hb : fg.Built (fun k => k.Proper ∧ k.Plain)) (ord : HashOrder (List Str)) :
    ∃ lines : List (Path × Nat),
      Parse.text (fg.write ord) = lines.map (fun e => some (e.1.names, e.2)) ∧
      lines.Nodup ∧ ∀ p n, (p, n) ∈ lines ↔ p ≠ [] ∧ n ≠ 0 ∧ fg.selfAt p = some n := by
  have hbp : fg.Ok Key.Proper := hb.ok.mono (fun _ h => h.1)
  have hmem : ∀ p n, (p, n) ∈ FlameGraph.entries fg [] ↔ p ≠ [] ∧ n ≠ 0 ∧ fg.selfAt p = some n := by
    intro p n
    rw [FlameGraph.mem_entries _ hbp]
    constructor
    · rintro ⟨q, e, h⟩; simp only [List.nil_append] at e; subst e; exact h
    · intro h; exact ⟨p, rfl, h⟩
  refine ⟨FlameGraph.entries fg [], ?_, ?_, hmem⟩
  · rw [FlameGraph.write_eq _ _ hbp]
    apply Parse.text_render
    rintro ⟨p, n⟩ he
    have := (hmem p n).1 he
    exact ⟨this.1, fun k hk => (hb.ok.keys_of_selfAt p (by simp [this.2.2]) k hk).2⟩
  · refine (FlameGraph.entries_sorted fg hbp []).imp ?_
    rintro a b h rfl
    exact pathLt_irrefl _ h

/-- C03. Hence equal texts mean equal (non-zero) self sizes. -/
theorem C03_text_injective (a b : FlameGraph) (ha : a.Built (fun k => k.Proper ∧ k.Plain))
    (hb : b.Built (fun k => k.Proper ∧ k.Plain)) (o o' : HashOrder (List Str)) (h : a.write o = b.write o') :
    ∀ p n, p ≠ [] → n ≠ 0 → (a.selfAt p = some n ↔ b.selfAt p = some n) := by
  have key : ∀ {a b : FlameGraph} (o o'), a.Built (fun k => k.Proper ∧ k.Plain) → b.Built (fun k => k.Proper ∧ k.Plain) →
      a.write o = b.write o' → ∀ p n, p ≠ [] → n ≠ 0 → a.selfAt p = some n → b.selfAt p = some n := by
    intro a b o o' ha hb h p n hp hn hs
    obtain ⟨la, ea, _, ma⟩ := C03_parse_back a ha o
    obtain ⟨lb, eb, _, mb⟩ := C03_parse_back b hb o'
    rw [h, eb] at ea
    have : some (Path.names p, n) ∈ la.map (fun e => some (e.1.names, e.2)) := List.mem_map.2 ⟨(p, n), (ma p n).2 ⟨hp, hn, hs⟩, rfl⟩
    rw [← ea] at this
    obtain ⟨⟨q, m⟩, hq, e⟩ := List.mem_map.1 this
    simp only [Option.some.injEq, Prod.mk.injEq] at e
    obtain ⟨e1, rfl⟩ := e
    have hq := ((mb q m).1 hq)
    have : p = q := names_inj (fun k hk => (ha.ok.keys_of_selfAt p (by simp [hs]) k hk).1)
      (fun k hk => (hb.ok.keys_of_selfAt q (by simp [hq.2.2]) k hk).1) e1.symm
    rw [this]; exact hq.2.2
  exact fun p n hp hn => ⟨key o o' ha hb h p n hp hn, key o' o hb ha h.symm p n hp hn⟩

example : (FlameGraph.default.addChild (Ex.k "a b") (FlameGraph.default.addSelf 5)).Built (fun k => k.Proper ∧ k.Plain) :=
  .addChild _ ⟨rfl, by unfold Key.Plain; decide⟩ .default (.addSelf _ .default)

/-- A leaf named like an array type. -/
def Ex.array : List (Prog × Fate) := [(.enter (Ex.k "[u8; 4]") 4 .exit .done .done, .exit)]
/-- A nested pair of nodes whose names are the two halves. -/
def Ex.nested : List (Prog × Fate) := [(.enter (Ex.k "[u8") 4 .exit (.enter (Ex.k " 4]") 4 .exit .done .done) .done, .exit)]

/-- C04. The restriction on names is needed: two runs with different stacks print the same text (and total, and no
warnings). -/
theorem C04_semicolon_ambiguous (ord : HashOrder TreeId) (ord' : HashOrder (List Str)) :
    ∃ obs out1 out2 p, observe ord ord' Ex.array = .ok obs ∧ observe ord ord' Ex.nested = .ok obs ∧ obs.warnings = [] ∧
      run ord Ex.array = .ok out1 ∧ run ord Ex.nested = .ok out2 ∧
      out1.flamegraph.selfAt p = some 4 ∧ out2.flamegraph.selfAt p = none := by
  have hl1 : NoLeaks Ex.array := by decide
  have hl2 : NoLeaks Ex.nested := by decide
  have hk1 : ProperKeys Ex.array := by
    simp [ProperKeys, Ex.array, Prog.KeysAre, Ex.k, Key.Proper, Key.new, Key.newUnchecked]
  have hk2 : ProperKeys Ex.nested := by
    simp [ProperKeys, Ex.nested, Prog.KeysAre, Ex.k, Key.Proper, Key.new, Key.newUnchecked]
  obtain ⟨obs1, e1, e1'⟩ := C05_order_independent Ex.array hl1 hk1 ord (.id _) ord' (.id _)
  obtain ⟨obs2, e2, e2'⟩ := C05_order_independent Ex.nested hl2 hk2 ord (.id _) ord' (.id _)
  have v1 : observe (.id _) (.id _) Ex.array = .ok ⟨ascii "[u8; 4] 4" ++ [10], 4, []⟩ := by rfl
  have v2 : observe (.id _) (.id _) Ex.nested = .ok ⟨ascii "[u8; 4] 4" ++ [10], 4, []⟩ := by rfl
  rw [v1] at e1'; rw [v2] at e2'; cases e1'; cases e2'
  obtain ⟨out1, r1, h1⟩ := C01_self_sizes Ex.array hl1 ord
  obtain ⟨out2, r2, h2⟩ := C01_self_sizes Ex.nested hl2 ord
  exact ⟨_, out1, out2, [Ex.k "[u8; 4]"], e1, e2, rfl, r1, r2, (h1 [Ex.k "[u8; 4]"] (by simp)).1 (by decide),
    (h2 [Ex.k "[u8; 4]"] (by simp)).2 (by decide)⟩

/-! The theorems of this file with a concrete case of their hypotheses. -/

theorem Ex.plain (s : String) (h : (Ex.k s).Plain) : (Ex.k s).Proper ∧ (Ex.k s).Plain := ⟨rfl, h⟩

theorem Ex.graph_plain : Ex.graph.Built (fun k => k.Proper ∧ k.Plain) :=
  .addChild _ (Ex.plain "b" (by unfold Key.Plain; decide)) (.addChild _ (Ex.plain "a" (by unfold Key.Plain; decide)) (.addSelf _ .default) (.addSelf _ .default))
    (.addChild _ (Ex.plain "c" (by unfold Key.Plain; decide)) .default (.addSelf _ .default))

/-- The children of `Ex.graph` added in the other order, the root with another size (which is not printed). -/
def Ex.graph2 : FlameGraph :=
  (FlameGraph.default.addChild (Ex.k "b") (FlameGraph.default.addChild (Ex.k "c") (FlameGraph.default.addSelf 7))).addChild (Ex.k "a") (FlameGraph.default.addSelf 5)

theorem Ex.graph2_plain : Ex.graph2.Built (fun k => k.Proper ∧ k.Plain) :=
  .addChild _ (Ex.plain "a" (by unfold Key.Plain; decide)) (.addChild _ (Ex.plain "b" (by unfold Key.Plain; decide)) .default
    (.addChild _ (Ex.plain "c" (by unfold Key.Plain; decide)) .default (.addSelf _ .default))) (.addSelf _ .default)

example := C03_parse_back Ex.graph Ex.graph_plain
example := C03_text_injective Ex.graph Ex.graph2 Ex.graph_plain Ex.graph2_plain (HashOrder.id _) (HashOrder.id _) (by decide)

end Allocative
