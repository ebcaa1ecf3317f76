import Verif.Lemmas.Exec
/-
`update_sizes` and `write_flame_graph` compute the self sizes and warnings specified from the records.
-/
namespace Allocative

theorem sum_map_zero {α : Type} (l : List α) : (l.map fun _ => 0).sum = 0 := by
  induction l with
  | nil => rfl
  | cons a l ih => simp only [List.map_cons, List.sum_cons, ih]

/-- Sum over the child map of a node. -/
theorem childrenAt_eq_sum {recs : List Rec} {p : Path} {ks : List Key} (hn : ks.Nodup)
    (hk : ∀ k, entered recs (p ++ [k]) → k ∈ ks) :
    (ks.map fun k => sizeAt recs (p ++ [k])).sum = childrenAt recs p := by
  induction recs with
  | nil => simpa [sizeAt, childrenAt] using sum_map_zero ks
  | cons r rest ih =>
    have ih := ih (fun k ⟨r', hr, e⟩ => hk k ⟨r', by simp [hr], e⟩)
    have h1 : childrenAt (r :: rest) p = (if isChild p r.path then r.size else 0) + childrenAt rest p := by
      simp [childrenAt]
    have h2 : ∀ q, sizeAt (r :: rest) q = (if r.path = q then r.size else 0) + sizeAt rest q := by
      intro q; simp [sizeAt]
    simp only [h1, h2]
    rw [← ih]
    have h3 : ∀ l : List Key, (l.map fun k => (if r.path = p ++ [k] then r.size else 0) + sizeAt rest (p ++ [k])).sum =
        (l.map fun k => if r.path = p ++ [k] then r.size else 0).sum + (l.map fun k => sizeAt rest (p ++ [k])).sum := by
      intro l; induction l with
      | nil => rfl
      | cons a l ihl => simp only [List.map_cons, List.sum_cons, ihl]; omega
    rw [h3]
    congr 1
    by_cases hc : isChild p r.path
    · obtain ⟨k, hk'⟩ := isChild_iff.1 hc
      have hmem : k ∈ ks := hk k ⟨r, by simp, hk'⟩
      rw [if_pos hc]
      have h4 : ∀ l : List Key, l.Nodup → (l.map fun k' => if r.path = p ++ [k'] then r.size else 0).sum =
          if k ∈ l then r.size else 0 := by
        intro l; induction l with
        | nil => simp
        | cons a l ihl =>
          intro hl
          have hl := List.nodup_cons.1 hl
          rw [List.map_cons, List.sum_cons, ihl hl.2]
          simp only [hk', List.append_cancel_left_eq, List.cons.injEq, and_true,
            List.mem_cons]
          by_cases e : k = a
          · subst e; simp [hl.1]
          · simp [e]
      rw [h4 ks hn, if_pos hmem]
    · rw [if_neg hc]
      have : ∀ k, ¬ r.path = p ++ [k] := fun k e => hc (isChild_iff.2 ⟨k, e⟩)
      simp only [this, if_false]
      exact sum_map_zero ks

/-- The remaining size of node `j` has been computed. -/
def Good (recs : List Rec) (paths : List Path) (trees : Trees) (j : Nat) : Prop :=
  ∀ d p, trees[j]? = some d → paths[j]? = some p → d.remSize = remAt recs p

theorem Rep.sumSizes {trees recs paths} (h : Rep trees recs paths) : ∀ (l : List TreeId),
    (∀ c ∈ l, c < trees.length) →
    Builder.sumSizes trees l = .ok (l.map fun c => sizeAt recs (paths[c]?.getD [])).sum := by
  intro l
  induction l with
  | nil => intro _; rfl
  | cons c rest ih =>
    intro hl
    have hc := hl c (by simp)
    have hp : c < paths.length := by rw [h.len]; exact hc
    have h1 : trees[c]? = some trees[c] := by simp [hc]
    have h2 : paths[c]? = some paths[c] := by simp [hp]
    simp only [Builder.sumSizes, Trees.index, h1, ih (fun c' hc' => hl c' (by simp [hc'])), List.map_cons, List.sum_cons,
      h.size h2 h1, h2, Option.getD_some]

theorem Rep.childrenSum {trees recs paths} (h : Rep trees recs paths) {i : Nat} {p : Path} {d : TreeData} (hp : paths[i]? = some p)
    (hd : trees[i]? = some d) : ((d.children.map Prod.snd).map fun c => sizeAt recs (paths[c]?.getD [])).sum = childrenAt recs p := by
  rw [← childrenAt_eq_sum (h.keys hd)]
  · rw [List.map_map, List.map_map]
    congr 1
    apply List.map_congr_left
    rintro ⟨k, c⟩ hm
    simp [(h.child hp hd).1 hm]
  · intro k he
    obtain ⟨c, hc⟩ := List.mem_iff_getElem?.1 ((h.mem (p ++ [k])).2 (.inr he))
    exact List.mem_map.2 ⟨(k, c), (h.child hp hd).2 hc, rfl⟩

theorem Rep.setRem {trees recs paths} (h : Rep trees recs paths) {i : Nat} {d : TreeData} (hd : trees[i]? = some d) (x : Int) :
    Rep (trees.set i { d with remSize := x }) recs paths := by
  have key : ∀ {j : Nat} {e : TreeData}, (trees.set i { d with remSize := x })[j]? = some e →
      ∃ e0, trees[j]? = some e0 ∧ e.size = e0.size ∧ e.unique = e0.unique ∧ e.children = e0.children := by
    intro j e he
    rw [List.getElem?_set] at he
    split at he
    · rename_i h1; subst h1
      split at he
      · simp at he; exact ⟨d, hd, by simp [← he]⟩
      · simp at he
    · exact ⟨e, he, rfl, rfl, rfl⟩
  refine ⟨⟨by simp [h.len], h.nodup, h.root, ?_, ?_, ?_, ?_, ?_, h.parent⟩, h.mem⟩
  · intro j p e hp he
    obtain ⟨e0, h0, h1, _, _⟩ := key he
    rw [h1]; exact h.size hp h0
  · intro j p e hp he
    obtain ⟨e0, h0, _, h1, _⟩ := key he
    rw [h1]; exact h.unique hp h0
  · intro j e he
    obtain ⟨e0, h0, _, _, h1⟩ := key he
    rw [h1]; exact h.keys h0
  · intro j p e k c hp he
    obtain ⟨e0, h0, _, _, h1⟩ := key he
    rw [h1]; exact h.child hp h0
  · intro j e k c he hm
    obtain ⟨e0, h0, _, _, h1⟩ := key he
    rw [h1] at hm; exact h.lt h0 hm

theorem Rep.prefix_mem {trees recs paths} (h : RepCore trees recs paths) (p q : Path) (hm : p ++ q ∈ paths) : p ∈ paths := by
  induction q generalizing p with
  | nil => simpa using hm
  | cons k q ih => exact h.parent (ih (p ++ [k]) (by simpa [List.append_assoc] using hm))

theorem remAt_of {recs : List Rec} {p : Path} : remAt recs p =
    (sizeAt recs p : Int) - ((if uniqueAt recs p then 0 else childrenAt recs p : Nat) : Int) := by
  unfold remAt; split <;> simp

theorem Rep.updateSizes {recs paths} (ord : HashOrder TreeId) : ∀ (fuel : Nat) (trees : Trees) (i : Nat) (p : Path),
    Rep trees recs paths → paths[i]? = some p → trees.length - i ≤ fuel →
    ∃ trees', Builder.updateSizes ord fuel i trees = .ok trees' ∧ Rep trees' recs paths ∧
      (∀ j, Good recs paths trees j → Good recs paths trees' j) ∧
      (∀ j q, paths[j]? = some (p ++ q) → Good recs paths trees' j) := by
  intro fuel
  induction fuel with
  | zero =>
    intro trees i p h hp hf
    have := (List.getElem?_eq_some_iff.1 hp).1
    rw [h.len] at this
    exact absurd hf (by omega)
  | succ fuel ih =>
    intro trees i p h hp hf
    have hil := (List.getElem?_eq_some_iff.1 hp).1
    obtain ⟨d, hd⟩ := h.get hp
    -- the loop over the children
    have loop : ∀ (l : List TreeId) (tr : Trees), Rep tr recs paths → (∀ c ∈ l, i < c ∧ ∃ k, paths[c]? = some (p ++ [k])) →
        ∃ tr', l.foldlM (fun trees child => Builder.updateSizes ord fuel child trees) tr = .ok tr' ∧ Rep tr' recs paths ∧
          (∀ j, Good recs paths tr j → Good recs paths tr' j) ∧
          (∀ c ∈ l, ∀ k, paths[c]? = some (p ++ [k]) → ∀ j q, paths[j]? = some (p ++ [k] ++ q) → Good recs paths tr' j) := by
      intro l
      induction l with
      | nil => intro tr htr _; exact ⟨tr, rfl, htr, fun _ hj => hj, by simp⟩
      | cons c rest ihl =>
        intro tr htr hl
        obtain ⟨hic, k, hk⟩ := hl c (by simp)
        obtain ⟨tr1, e1, h1, g1, g1'⟩ := ih tr c (p ++ [k]) htr hk (by rw [← htr.len]; rw [← h.len] at hf; omega)
        obtain ⟨tr2, e2, h2, g2, g2'⟩ := ihl tr1 h1 (fun c' hc' => hl c' (by simp [hc']))
        refine ⟨tr2, ?_, h2, fun j hj => g2 j (g1 j hj), ?_⟩
        · rw [List.foldlM_cons, e1]; exact e2
        · intro c' hc' k' hk' j q hj
          rcases List.mem_cons.1 hc' with rfl | hc'
          · rw [hk] at hk'
            have : k = k' := by simpa using hk'
            subst this
            exact g2 j (g1' j q hj)
          · exact g2' c' hc' k' hk' j q hj
    have hch : ∀ c ∈ ord.run i (d.children.map Prod.snd), i < c ∧ ∃ k, paths[c]? = some (p ++ [k]) := by
      intro c hc
      obtain ⟨⟨k, c'⟩, hm, rfl⟩ := List.mem_map.1 ((ord.perm _ _).mem_iff.1 hc)
      exact ⟨h.lt hd hm, k, (h.child hp hd).1 hm⟩
    obtain ⟨tr, e, hrep, g, g'⟩ := loop _ trees h hch
    obtain ⟨d', hd'⟩ := hrep.get hp
    have hsum : (if d'.unique then .ok 0 else Builder.sumSizes tr (ord.run i (d'.children.map Prod.snd))) =
        (.ok (if uniqueAt recs p then 0 else childrenAt recs p) : Except Panic Nat) := by
      rw [hrep.unique hp hd']
      split
      · rfl
      · rw [hrep.sumSizes, (((ord.perm _ _).map _).sum_nat), hrep.childrenSum hp hd']
        intro c hc
        obtain ⟨⟨k, c'⟩, hm, rfl⟩ := List.mem_map.1 ((ord.perm _ _).mem_iff.1 hc)
        have := (List.getElem?_eq_some_iff.1 ((hrep.child hp hd').1 hm)).1
        rw [hrep.len] at this; exact this
    refine ⟨tr.set i { d' with remSize := remAt recs p }, ?_, hrep.setRem hd' _, ?_, ?_⟩
    · simp only [Builder.updateSizes, Trees.index, hd, e, hd', hsum, Trees.update, hrep.size hp hd', remAt_of]
    · intro j hj e p' he hp'
      rw [List.getElem?_set] at he
      split at he
      · rename_i h1; subst h1
        rw [hp] at hp'; cases hp'
        split at he
        · simp at he; simp [← he]
        · simp at he
      · exact g j hj e p' he hp'
    · intro j q hj e p' he hp'
      rw [List.getElem?_set] at he
      split at he
      · rename_i h1; subst h1
        rw [hp] at hp'; cases hp'
        split at he
        · simp at he; simp [← he]
        · simp at he
      · rename_i h1
        cases q with
        | nil =>
          simp only [List.append_nil] at hj
          exact absurd (nodup_getElem?_inj h.nodup hp hj) h1
        | cons k q =>
          have hkm : p ++ [k] ∈ paths := Rep.prefix_mem h.toRepCore (p ++ [k]) q
            (by simpa [List.append_assoc] using List.mem_of_getElem? hj)
          obtain ⟨c, hc⟩ := List.mem_iff_getElem?.1 hkm
          have hcm := (h.child hp hd).2 hc
          have : c ∈ ord.run i (d.children.map Prod.snd) :=
            (ord.perm _ _).mem_iff.2 (List.mem_map.2 ⟨(k, c), hcm, rfl⟩)
          exact g' c this k hc j q (by simpa [List.append_assoc] using hj) e p' he hp'

end Allocative
