import Verif.Spec.Run
import Verif.Lemmas.Output
/-
The outcome of complete runs in terms of the records.
-/
namespace Allocative

theorem trace_keys {Q : Key → Prop} (prog : Prog) : ∀ (cur : Path) (vis : List Ptr), prog.KeysAre Q → (∀ k ∈ cur, Q k) →
    ∀ r ∈ (prog.trace cur vis).recs, ∀ k ∈ r.path, Q k := by
  induction prog with
  | done => intro cur vis _ _ r hr; simp [Prog.trace] at hr
  | panic => intro cur vis _ _ r hr; simp [Prog.trace] at hr
  | enter k n f body rest ih1 ih2 =>
    intro cur vis h hc r hr
    obtain ⟨hk, h1, h2⟩ := h
    have hc' : ∀ k' ∈ cur ++ [k], Q k' := by
      intro k' hk'; rcases List.mem_append.1 hk' with h | h
      · exact hc _ h
      · simp at h; exact h ▸ hk
    simp only [Prog.trace] at hr
    split at hr
    · rcases List.mem_cons.1 hr with rfl | hr
      · exact hc'
      · exact ih1 _ _ h1 hc' r hr
    · simp only [List.cons_append, List.mem_cons, List.mem_append] at hr
      rcases hr with rfl | hr | hr
      · exact hc'
      · exact ih1 _ _ h1 hc' r hr
      · exact ih2 _ _ h2 hc r hr
  | enterUnique k n f body rest ih1 ih2 =>
    intro cur vis h hc r hr
    obtain ⟨hk, h1, h2⟩ := h
    have hc' : ∀ k' ∈ cur ++ [k], Q k' := by
      intro k' hk'; rcases List.mem_append.1 hk' with h | h
      · exact hc _ h
      · simp at h; exact h ▸ hk
    simp only [Prog.trace] at hr
    split at hr
    · rcases List.mem_cons.1 hr with rfl | hr
      · exact hc'
      · exact ih1 _ _ h1 hc' r hr
    · simp only [List.cons_append, List.mem_cons, List.mem_append] at hr
      rcases hr with rfl | hr | hr
      · exact hc'
      · exact ih1 _ _ h1 hc' r hr
      · exact ih2 _ _ h2 hc r hr
  | enterShared k n ptr f body rs rn ih1 ih2 ih3 =>
    intro cur vis h hc r hr
    obtain ⟨hk, h1, h2, h3⟩ := h
    have hc' : ∀ k' ∈ cur ++ [k], Q k' := by
      intro k' hk'; rcases List.mem_append.1 hk' with h | h
      · exact hc _ h
      · simp at h; exact h ▸ hk
    simp only [Prog.trace] at hr
    split at hr
    · rcases List.mem_cons.1 hr with rfl | hr
      · exact hc'
      · exact ih3 _ _ h3 hc r hr
    · split at hr
      · rcases List.mem_cons.1 hr with rfl | hr
        · exact hc'
        · exact ih1 _ _ h1 (by simp) r hr
      · simp only [List.cons_append, List.mem_cons, List.mem_append] at hr
        rcases hr with rfl | hr | hr
        · exact hc'
        · exact ih1 _ _ h1 (by simp) r hr
        · exact ih2 _ _ h2 hc r hr
  | catchUnwind body rest ih1 ih2 =>
    intro cur vis h hc r hr
    simp only [Prog.trace, List.mem_append] at hr
    rcases hr with hr | hr
    · exact ih1 _ _ h.1 hc r hr
    · exact ih2 _ _ h.2 hc r hr

theorem traceRoots_keys {Q : Key → Prop} {hist : List (Prog × Fate)} : ∀ (vis : List Ptr), (∀ x ∈ hist, x.1.KeysAre Q) →
    ∀ r ∈ (traceRoots hist vis).recs, ∀ k ∈ r.path, Q k := by
  induction hist with
  | nil => intro vis _ r hr; simp [traceRoots] at hr
  | cons x rest ih =>
    intro vis h r hr
    obtain ⟨prog, fate⟩ := x
    simp only [traceRoots, List.mem_append] at hr
    rcases hr with hr | hr
    · exact trace_keys prog [] vis (h (prog, fate) (by simp)) (by simp) r hr
    · exact ih _ (fun y hy => h y (by simp [hy])) r hr

theorem records_keys {Q : Key → Prop} {hist : List (Prog × Fate)} (h : ∀ x ∈ hist, x.1.KeysAre Q) :
    ∀ r ∈ records hist, ∀ k ∈ r.path, Q k := traceRoots_keys [] h

theorem Prog.KeysAre.trivial (prog : Prog) : prog.KeysAre (fun _ => True) := by
  induction prog <;> simp_all [Prog.KeysAre]

/-- The refinement theorem: a leak free history finishes, and the result is given by the records. -/
theorem run_spec {Q : Key → Prop} {hist : List (Prog × Fate)} (hl : NoLeaks hist) (hQ : ∀ x ∈ hist, x.1.KeysAre Q)
    (ord : HashOrder TreeId) :
    ∃ (out : Builder.Output) (ws : List Path), run ord hist = .ok out ∧ out.flamegraph.Built Q ∧
      (∀ p, out.flamegraph.selfAt p = if p = [] ∨ entered (records hist) p then some (selfSpec (records hist) p) else none) ∧
      out.warnings = ws.flatMap (renderWarning (records hist)) ∧
      ws.Nodup ∧ (∀ w, w ∈ ws ↔ overfull (records hist) w) ∧
      ((∀ k, Q k → k.Proper) → ws.Pairwise (fun a b => pathLt a.names b.names)) := by
  obtain ⟨b, paths, e, h⟩ := useRoots_default hl
  obtain ⟨fg, ws, ef, hb, hs, hn, hm, hso⟩ := h.finish ord Q (records_keys hQ)
  refine ⟨⟨fg, ws.flatMap (renderWarning (records hist))⟩, ws, by simp only [run, e, ef], hb, ?_, rfl, hn, hm, hso⟩
  intro p
  simp only [hs p]
  have := h.rep.mem p
  by_cases hp : p ∈ paths
  · rw [if_pos hp, if_pos (this.1 hp)]
  · rw [if_neg hp, if_neg (fun x => hp (this.2 x))]

/-- Flame graphs with proper keys and the same non-zero self sizes print the same text. -/
theorem write_congr {a b : FlameGraph} (ha : a.Ok Key.Proper) (hb : b.Ok Key.Proper)
    (h : ∀ p n, p ≠ [] → n ≠ 0 → (a.selfAt p = some n ↔ b.selfAt p = some n)) (o1 o2) : a.write o1 = b.write o2 := by
  rw [FlameGraph.write_eq _ _ ha, FlameGraph.write_eq _ _ hb]
  congr 1
  apply pairwise_ext (r := fun a b => pathLt a.1.names b.1.names) (fun _ _ => pathLt_asymm)
    (FlameGraph.entries_sorted a ha []) (FlameGraph.entries_sorted b hb [])
  rintro ⟨p, n⟩
  rw [FlameGraph.mem_entries a ha, FlameGraph.mem_entries b hb]
  constructor
  · rintro ⟨q, e, h1, h2, h3⟩; simp only [List.nil_append] at e; subst e
    exact ⟨_, rfl, h1, h2, (h _ _ h1 h2).1 h3⟩
  · rintro ⟨q, e, h1, h2, h3⟩; simp only [List.nil_append] at e; subst e
    exact ⟨_, rfl, h1, h2, (h _ _ h1 h2).2 h3⟩

end Allocative
