import Verif.Spec.Records
import Verif.Model.Builder
import Verif.Lemmas.FlameGraph
/-
The arena of the builder represents the list of records.
-/
namespace Allocative

theorem isChild_iff {p q : Path} : isChild p q = true ↔ ∃ k, q = p ++ [k] := by
  unfold isChild
  constructor
  · intro h
    simp only [ne_eq, decide_not, Bool.and_eq_true, Bool.not_eq_eq_eq_not, Bool.not_true, decide_eq_false_iff_not,
      decide_eq_true_eq] at h
    obtain ⟨h1, h2⟩ := h
    exact ⟨q.getLast h1, by rw [← h2]; exact (List.dropLast_concat_getLast h1).symm⟩
  · rintro ⟨k, rfl⟩; simp

theorem sizeAt_append (a b : List Rec) (p : Path) : sizeAt (a ++ b) p = sizeAt a p + sizeAt b p := by
  simp [sizeAt]
theorem sizeAt_single (r : Rec) (p : Path) : sizeAt [r] p = if r.path = p then r.size else 0 := by simp [sizeAt]
theorem uniqueAt_append (a b : List Rec) (p : Path) : uniqueAt (a ++ b) p = (uniqueAt a p || uniqueAt b p) := by
  simp [uniqueAt]
theorem childrenAt_append (a b : List Rec) (p : Path) : childrenAt (a ++ b) p = childrenAt a p + childrenAt b p := by
  simp [childrenAt]
theorem entered_append (a b : List Rec) (p : Path) : entered (a ++ b) p ↔ entered a p ∨ entered b p := by
  simp only [entered, List.mem_append]
  constructor
  · rintro ⟨r, h | h, e⟩
    · exact .inl ⟨r, h, e⟩
    · exact .inr ⟨r, h, e⟩
  · rintro (⟨r, h, e⟩ | ⟨r, h, e⟩)
    · exact ⟨r, .inl h, e⟩
    · exact ⟨r, .inr h, e⟩

/-- The arena represents `recs`; `paths[i]` is the stack of node `i`. -/
structure RepCore (trees : Trees) (recs : List Rec) (paths : List Path) : Prop where
  len : paths.length = trees.length
  nodup : paths.Nodup
  root : paths[0]? = some []
  size : ∀ {i : Nat} {p : Path} {d : TreeData}, paths[i]? = some p → trees[i]? = some d → d.size = sizeAt recs p
  unique : ∀ {i : Nat} {p : Path} {d : TreeData}, paths[i]? = some p → trees[i]? = some d → d.unique = uniqueAt recs p
  keys : ∀ {i : Nat} {d : TreeData}, trees[i]? = some d → (d.children.map Prod.fst).Nodup
  child : ∀ {i : Nat} {p : Path} {d : TreeData} {k : Key} {c : TreeId}, paths[i]? = some p → trees[i]? = some d → ((k, c) ∈ d.children ↔ paths[c]? = some (p ++ [k]))
  lt : ∀ {i : Nat} {d : TreeData} {k : Key} {c : TreeId}, trees[i]? = some d → (k, c) ∈ d.children → i < c
  parent : ∀ {p : Path} {k : Key}, p ++ [k] ∈ paths → p ∈ paths

/-- ... and the nodes are exactly the root and the recorded stacks. -/
structure Rep (trees : Trees) (recs : List Rec) (paths : List Path) : Prop extends RepCore trees recs paths where
  mem : ∀ p, p ∈ paths ↔ p = [] ∨ entered recs p

/-- The tree stack stands at stack `p`. -/
inductive StackAt (paths : List Path) : List TreeId → TreeId → Path → Prop
  | nil {t} : paths[t]? = some [] → StackAt paths [] t []
  | cons {s t' t p k} : StackAt paths s t' p → paths[t]? = some (p ++ [k]) → StackAt paths (t' :: s) t (p ++ [k])

theorem StackAt.tree {paths s t p} (h : StackAt paths s t p) : paths[t]? = some p := by cases h <;> assumption

theorem prefix_getElem? {α : Type} {l l' : List α} (h : l <+: l') {i : Nat} {a : α} (hi : l[i]? = some a) : l'[i]? = some a := by
  obtain ⟨t, rfl⟩ := h
  rw [List.getElem?_append_left (List.getElem?_eq_some_iff.1 hi).1]; exact hi

theorem StackAt.mono {paths paths' : List Path} (hp : paths <+: paths') {s t p} (h : StackAt paths s t p) :
    StackAt paths' s t p := by
  induction h with
  | nil h => exact .nil (prefix_getElem? hp h)
  | cons _ h ih => exact .cons ih (prefix_getElem? hp h)

theorem Rep.default : Rep Builder.default.trees [] [[]] := by
  have key : ∀ {i : Nat} {d : TreeData}, Builder.default.trees[i]? = some d → i = 0 ∧ d = {} := by
    intro i d h
    cases i with
    | zero => simp [Builder.default, Trees.newTree] at h; exact ⟨rfl, h.symm⟩
    | succ i => simp [Builder.default, Trees.newTree] at h
  refine ⟨⟨rfl, by simp, rfl, ?_, ?_, ?_, ?_, ?_, ?_⟩, ?_⟩
  · intro i p d _ h; simp [(key h).2, sizeAt]
  · intro i p d _ h; simp [(key h).2, uniqueAt]
  · intro i d h; simp [(key h).2]
  · intro i p d k c hp h
    simp only [(key h).2, List.not_mem_nil, false_iff]
    intro hc
    have := List.mem_of_getElem? hc
    simp at this
  · intro i d k c h hm; simp [(key h).2] at hm
  · intro p k h; simp at h
  · intro p; simp [entered]

theorem nodup_getElem?_inj {α : Type} {l : List α} (hn : l.Nodup) {i j : Nat} {a : α} (hi : l[i]? = some a) (hj : l[j]? = some a) :
    i = j := by
  obtain ⟨hi', e⟩ := List.getElem?_eq_some_iff.1 hi
  obtain ⟨hj', e'⟩ := List.getElem?_eq_some_iff.1 hj
  exact List.getElem_inj hn |>.1 (e.trans e'.symm)

/-- Updating the size (and unique flag) of the node at stack `p`. -/
theorem RepCore.bump {trees recs paths} {t : Nat} {p d} (h : RepCore trees recs paths) (ht : paths[t]? = some p) (hd : trees[t]? = some d)
    (n : Nat) (u : Bool) (d' : TreeData)
    (hs : d'.size = d.size + n) (hu : d'.unique = (d.unique || u)) (hc : d'.children = d.children) :
    RepCore (trees.set t d') (recs ++ [⟨p, n, u⟩]) paths := by
  have key : ∀ {i : Nat} {e : TreeData}, (trees.set t d')[i]? = some e →
      (i = t ∧ e = d') ∨ (i ≠ t ∧ trees[i]? = some e) := by
    intro i e he
    rw [List.getElem?_set] at he
    split at he
    · rename_i h1; subst h1
      split at he
      · simp at he; exact .inl ⟨rfl, he.symm⟩
      · simp at he
    · rename_i h1; exact .inr ⟨fun e => h1 e.symm, he⟩
  refine ⟨by simp [h.len], h.nodup, h.root, ?_, ?_, ?_, ?_, ?_, h.parent⟩
  · intro i q e hq he
    rw [sizeAt_append, sizeAt_single]
    rcases key he with ⟨rfl, rfl⟩ | ⟨hi, he⟩
    · rw [ht] at hq; cases hq
      simp [hs, h.size ht hd]
    · have : p ≠ q := fun e' => hi (nodup_getElem?_inj h.nodup hq (e' ▸ ht))
      simp [this, h.size hq he]
  · intro i q e hq he
    rw [uniqueAt_append]
    rcases key he with ⟨rfl, rfl⟩ | ⟨hi, he⟩
    · rw [ht] at hq; cases hq
      rw [hu, h.unique ht hd]
      simp [uniqueAt]
    · have : p ≠ q := fun e' => hi (nodup_getElem?_inj h.nodup hq (e' ▸ ht))
      rw [h.unique hq he]; simp [uniqueAt, this]
  · intro i e he
    rcases key he with ⟨rfl, rfl⟩ | ⟨hi, he⟩
    · rw [hc]; exact h.keys hd
    · exact h.keys he
  · intro i q e k c hq he
    rcases key he with ⟨rfl, rfl⟩ | ⟨hi, he⟩
    · rw [hc]; exact h.child hq hd
    · exact h.child hq he
  · intro i e k c he hm
    rcases key he with ⟨rfl, rfl⟩ | ⟨hi, he⟩
    · rw [hc] at hm; exact h.lt hd hm
    · exact h.lt he hm

theorem RepCore.get {trees recs paths} {t : Nat} {p} (h : RepCore trees recs paths) (ht : paths[t]? = some p) : ∃ d, trees[t]? = some d := by
  have := (List.getElem?_eq_some_iff.1 ht).1
  rw [h.len] at this
  exact ⟨trees[t], by simp [this]⟩

theorem Rep.sizeAt_eq_zero {recs : List Rec} {p : Path} (h : ¬ entered recs p) : sizeAt recs p = 0 := by
  induction recs with
  | nil => rfl
  | cons r rest ih =>
    have h1 : r.path ≠ p := fun e => h ⟨r, by simp, e⟩
    have h2 : ¬ entered rest p := fun ⟨r', hm, e⟩ => h ⟨r', by simp [hm], e⟩
    have := ih h2
    simp only [sizeAt] at this
    simp [sizeAt, h1, this]

theorem Rep.uniqueAt_eq_false {recs : List Rec} {p : Path} (h : ¬ entered recs p) : uniqueAt recs p = false := by
  simp only [uniqueAt, List.any_eq_false]
  intro r hr
  have h1 : r.path ≠ p := fun e => h ⟨r, hr, e⟩
  simp [h1]

/-- `down`: finds or creates the child node. -/
theorem Rep.down {trees recs paths} {st : TreeStack} {p : Path} (h : Rep trees recs paths)
    (hst : StackAt paths st.stack st.tree p) (k : Key) :
    ∃ trees' t paths', Allocative.down trees st k = .ok (trees', ⟨st.tree :: st.stack, t⟩) ∧
      RepCore trees' recs paths' ∧ paths <+: paths' ∧ paths'[t]? = some (p ++ [k]) ∧
      (∀ q, q ∈ paths' ↔ q = [] ∨ entered recs q ∨ q = p ++ [k]) := by
  have ht := hst.tree
  obtain ⟨d, hd⟩ := h.get ht
  simp only [Allocative.down, Trees.index, hd]
  cases hg : HMap.get? k d.children with
  | some c =>
    have hc := (h.child ht hd).1 (HMap.get?_mem hg)
    refine ⟨trees, c, paths, rfl, h.toRepCore, List.prefix_rfl, hc, ?_⟩
    intro q
    rw [h.mem q]
    constructor
    · rintro (h | h)
      · exact .inl h
      · exact .inr (.inl h)
    · rintro (h' | h' | h')
      · exact .inl h'
      · exact .inr h'
      · subst h'; exact (h.mem _).1 (List.mem_of_getElem? hc)
  | none =>
    have hnew : p ++ [k] ∉ paths := by
      intro hm
      obtain ⟨c, hc⟩ := List.mem_iff_getElem?.1 hm
      have := HMap.get?_of_mem (h.keys hd) ((h.child ht hd).2 hc)
      rw [hg] at this; cases this
    have hne : ¬ entered recs (p ++ [k]) := fun he => hnew ((h.mem _).2 (.inr he))
    have htl : st.tree < trees.length := (List.getElem?_eq_some_iff.1 hd).1
    simp only [Trees.update, hd, Trees.newTree, List.length_set, ↓reduceIte]
    have key : ∀ {i : Nat} {e : TreeData},
        (trees.set st.tree { d with children := d.children ++ [(k, trees.length)] } ++ [({ size := 0 } : TreeData)])[i]? = some e →
        (i = st.tree ∧ e = { d with children := d.children ++ [(k, trees.length)] }) ∨
        (i ≠ st.tree ∧ trees[i]? = some e) ∨ (i = trees.length ∧ e = { size := 0 }) := by
      intro i e he
      by_cases hi : i < trees.length
      · rw [List.getElem?_append_left (by simpa using hi), List.getElem?_set] at he
        split at he
        · rename_i h1; subst h1
          simp at he; exact .inl ⟨rfl, he.symm⟩
        · rename_i h1; exact .inr (.inl ⟨fun e => h1 e.symm, he⟩)
      · rw [List.getElem?_append_right (by simpa using hi)] at he
        simp only [List.length_set] at he
        have : i - trees.length = 0 := by
          have := (List.getElem?_eq_some_iff.1 he).1
          simp at this; omega
        rw [this] at he
        simp at he
        exact .inr (.inr ⟨by omega, he.symm⟩)
    have plt : ∀ {i : Nat} {q : Path}, (paths ++ [p ++ [k]])[i]? = some q →
        (paths[i]? = some q ∧ i < trees.length) ∨ (i = trees.length ∧ q = p ++ [k]) := by
      intro i q hq
      by_cases hi : i < paths.length
      · rw [List.getElem?_append_left hi] at hq; exact .inl ⟨hq, h.len ▸ hi⟩
      · rw [List.getElem?_append_right (by omega)] at hq
        have : i - paths.length = 0 := by
          have := (List.getElem?_eq_some_iff.1 hq).1
          simp at this; omega
        rw [this] at hq
        simp at hq
        exact .inr ⟨by rw [← h.len]; omega, hq.symm⟩
    have pnew : (paths ++ [p ++ [k]])[trees.length]? = some (p ++ [k]) := by
      rw [List.getElem?_append_right (by rw [h.len]; omega), h.len]; simp
    have pold : ∀ {i : Nat} {q : Path}, paths[i]? = some q → (paths ++ [p ++ [k]])[i]? = some q :=
      fun hq => prefix_getElem? (List.prefix_append _ _) hq
    refine ⟨_, trees.length, paths ++ [p ++ [k]], rfl, ?_, List.prefix_append _ _, pnew, ?_⟩
    · refine ⟨by simp [h.len], ?_, pold h.root, ?_, ?_, ?_, ?_, ?_, ?_⟩
      · rw [List.nodup_append]
        exact ⟨h.nodup, by simp, by rintro a ha b hb rfl; simp at hb; subst hb; exact hnew ha⟩
      · intro i q e hq he
        rcases plt hq with ⟨hq, hi⟩ | ⟨rfl, rfl⟩
        · rcases key he with ⟨rfl, rfl⟩ | ⟨_, he⟩ | ⟨rfl, _⟩
          · show d.size = _; exact h.size hq hd
          · exact h.size hq he
          · omega
        · rcases key he with ⟨h1, _⟩ | ⟨_, he⟩ | ⟨_, rfl⟩
          · exact absurd h1 (Nat.ne_of_gt htl)
          · have := (List.getElem?_eq_some_iff.1 he).1; omega
          · exact (Rep.sizeAt_eq_zero hne).symm
      · intro i q e hq he
        rcases plt hq with ⟨hq, hi⟩ | ⟨rfl, rfl⟩
        · rcases key he with ⟨rfl, rfl⟩ | ⟨_, he⟩ | ⟨rfl, _⟩
          · show d.unique = _; exact h.unique hq hd
          · exact h.unique hq he
          · omega
        · rcases key he with ⟨h1, _⟩ | ⟨_, he⟩ | ⟨_, rfl⟩
          · exact absurd h1 (Nat.ne_of_gt htl)
          · have := (List.getElem?_eq_some_iff.1 he).1; omega
          · exact (Rep.uniqueAt_eq_false hne).symm
      · intro i e he
        rcases key he with ⟨rfl, rfl⟩ | ⟨_, he⟩ | ⟨rfl, rfl⟩
        · simp only [List.map_append, List.map_cons, List.map_nil]
          rw [List.nodup_append]
          refine ⟨h.keys hd, by simp, ?_⟩
          rintro a ha b hb rfl
          simp at hb; subst hb
          exact HMap.get?_eq_none.1 hg ha
        · exact h.keys he
        · simp
      · intro i q e k' c hq he
        rcases plt hq with ⟨hq2, hi⟩ | ⟨rfl, rfl⟩
        · rcases key he with ⟨rfl, rfl⟩ | ⟨hne', he⟩ | ⟨rfl, _⟩
          · rw [ht] at hq2; cases hq2
            simp only [List.mem_append, List.mem_singleton, Prod.mk.injEq]
            constructor
            · rintro (hm | ⟨rfl, rfl⟩)
              · exact pold ((h.child ht hd).1 hm)
              · exact pnew
            · intro hc
              rcases plt hc with ⟨hc, _⟩ | ⟨rfl, e⟩
              · exact .inl ((h.child ht hd).2 hc)
              · have := (List.append_inj' e rfl).2
                simp at this
                exact .inr ⟨this, rfl⟩
          · rw [h.child hq2 he]
            constructor
            · exact pold
            · intro hc
              rcases plt hc with ⟨hc, _⟩ | ⟨rfl, e⟩
              · exact hc
              · have := (List.append_inj' e rfl).1
                subst this
                exact absurd (nodup_getElem?_inj h.nodup hq2 ht) hne'
          · omega
        · rcases key he with ⟨h1, _⟩ | ⟨_, he⟩ | ⟨_, rfl⟩
          · exact absurd h1 (Nat.ne_of_gt htl)
          · have := (List.getElem?_eq_some_iff.1 he).1; omega
          · simp only [List.not_mem_nil, false_iff]
            intro hc
            rcases plt hc with ⟨hc, _⟩ | ⟨rfl, e⟩
            · exact hnew (h.parent (List.mem_of_getElem? hc))
            · have := congrArg List.length e; simp at this
      · intro i e k' c he hm
        rcases key he with ⟨rfl, rfl⟩ | ⟨_, he⟩ | ⟨_, rfl⟩
        · simp only [List.mem_append, List.mem_singleton, Prod.mk.injEq] at hm
          rcases hm with hm | ⟨_, rfl⟩
          · exact h.lt hd hm
          · exact htl
        · exact h.lt he hm
        · simp at hm
      · intro q k' hm
        simp only [List.mem_append, List.mem_singleton] at hm ⊢
        rcases hm with hm | e
        · exact .inl (h.parent hm)
        · rw [(List.append_inj' e rfl).1]; exact .inl (List.mem_of_getElem? ht)
    · intro q
      simp only [List.mem_append, List.mem_singleton, h.mem q]
      constructor
      · rintro ((h | h) | h)
        · exact .inl h
        · exact .inr (.inl h)
        · exact .inr (.inr h)
      · rintro (h | h | h)
        · exact .inl (.inl h)
        · exact .inl (.inr h)
        · exact .inr h

/-- An enter: `down`, then the size and the unique flag. -/
theorem Rep.downAndAdd {b : Builder} {recs paths} {p : Path} (h : Rep b.trees recs paths)
    (hst : StackAt paths b.current.stack b.current.tree p) (k : Key) (n : Nat) (u : Bool) (f : TreeData → TreeData)
    (hf : ∀ d, (f d).size = d.size ∧ (f d).unique = (d.unique || u) ∧ (f d).children = d.children) :
    ∃ trees' t paths', b.downAndAdd k n f = .ok { b with trees := trees', current := ⟨b.current.tree :: b.current.stack, t⟩ } ∧
      Rep trees' (recs ++ [⟨p ++ [k], n, u⟩]) paths' ∧ paths <+: paths' ∧
      StackAt paths' (b.current.tree :: b.current.stack) t (p ++ [k]) := by
  obtain ⟨trees', t, paths', hdn, hrep, hpre, ht, hmem⟩ := h.down hst k
  obtain ⟨d, hd⟩ := hrep.get ht
  refine ⟨trees'.set t (f { d with size := d.size + n }), t, paths', ?_, ?_, hpre, .cons (hst.mono hpre) ht⟩
  · simp only [Builder.downAndAdd, hdn, Trees.update, hd]
  · refine { hrep.bump ht hd n u (f { d with size := d.size + n }) (hf _).1 (hf _).2.1 (hf _).2.2 with mem := ?_ }
    intro q
    rw [hmem q, entered_append]
    have : entered [⟨p ++ [k], n, u⟩] q ↔ q = p ++ [k] := by simp [entered, eq_comm]
    rw [this]

end Allocative
