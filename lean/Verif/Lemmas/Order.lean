import Verif.Model.Collections
/-
Order lemmas: `Str.cmp`, `Key.le`, `sortByKey`.
-/
namespace Allocative

namespace Str

theorem cmp_refl (a : Str) : cmp a a = .eq := by
  induction a with
  | nil => rfl
  | cons x xs ih => simp [cmp, ih, UInt8.lt_irrefl]

theorem cmp_eq_iff (a b : Str) : cmp a b = .eq ↔ a = b := by
  induction a generalizing b with
  | nil => cases b <;> simp [cmp]
  | cons x xs ih =>
    cases b with
    | nil => simp [cmp]
    | cons y ys =>
      simp only [cmp, List.cons.injEq]
      split
      · rename_i h
        simp only [reduceCtorEq, false_iff, not_and]
        intro e; subst e; exact absurd h (UInt8.lt_irrefl _)
      · split
        · rename_i h
          simp only [reduceCtorEq, false_iff, not_and]
          intro e; subst e; exact absurd h (UInt8.lt_irrefl _)
        · rename_i h1 h2
          have : x = y := UInt8.le_antisymm (UInt8.not_lt.1 h2) (UInt8.not_lt.1 h1)
          simp [this, ih]

theorem cmp_swap (a b : Str) : cmp b a = (cmp a b).swap := by
  induction a generalizing b with
  | nil => cases b <;> rfl
  | cons x xs ih =>
    cases b with
    | nil => rfl
    | cons y ys =>
      simp only [cmp]
      by_cases h1 : x < y
      · have h2 : ¬ y < x := UInt8.not_lt.2 (UInt8.le_of_lt h1)
        simp [h1, h2]
      · by_cases h2 : y < x
        · simp [h1, h2]
        · simp [h1, h2, ih]

/-- Strict order on strings. -/
def lt (a b : Str) : Prop := cmp a b = .lt

instance (a b : Str) : Decidable (lt a b) := inferInstanceAs (Decidable (_ = _))

theorem lt_trans {a b c : Str} (h1 : lt a b) (h2 : lt b c) : lt a c := by
  unfold lt at *
  induction a generalizing b c with
  | nil =>
    cases b with
    | nil => simp [cmp] at h1
    | cons y ys => cases c <;> simp_all [cmp]
  | cons x xs ih =>
    cases b with
    | nil => simp [cmp] at h1
    | cons y ys =>
      cases c with
      | nil => simp [cmp] at h2
      | cons z zs =>
        simp only [cmp] at h1 h2 ⊢
        by_cases hxy : x < y
        · by_cases hyz : y < z
          · simp [UInt8.lt_trans hxy hyz]
          · by_cases hzy : z < y
            · simp [hyz, hzy] at h2
            · have : y = z := UInt8.le_antisymm (UInt8.not_lt.1 hzy) (UInt8.not_lt.1 hyz)
              subst this; simp [hxy]
        · by_cases hyx : y < x
          · simp [hxy, hyx] at h1
          · have e : x = y := UInt8.le_antisymm (UInt8.not_lt.1 hyx) (UInt8.not_lt.1 hxy)
            subst e
            simp only [UInt8.lt_irrefl, ↓reduceIte] at h1
            by_cases hyz : x < z
            · simp [hyz]
            · by_cases hzy : z < x
              · simp [hyz, hzy] at h2
              · simp only [hyz, hzy, ↓reduceIte] at h2 ⊢
                exact ih h1 h2

theorem lt_irrefl (a : Str) : ¬ lt a a := by simp [lt, cmp_refl]

theorem lt_trichotomy (a b : Str) : lt a b ∨ a = b ∨ lt b a := by
  unfold lt
  rw [cmp_swap a b, ← cmp_eq_iff a b]
  cases cmp a b <;> simp

theorem lt_asymm {a b : Str} (h : lt a b) : ¬ lt b a := fun h' => lt_irrefl _ (lt_trans h h')

end Str

theorem Key.le_iff (a b : Key) : a.le b = true ↔ ¬ Str.lt b.s a.s := by
  unfold Key.le Key.cmp Str.lt
  rw [Str.cmp_swap a.s b.s]
  cases Str.cmp a.s b.s <;> decide

theorem Key.le_iff' (a b : Key) : a.le b = true ↔ Str.lt a.s b.s ∨ a.s = b.s := by
  rw [Key.le_iff]
  constructor
  · intro h
    rcases Str.lt_trichotomy a.s b.s with h1 | h1 | h1
    · exact .inl h1
    · exact .inr h1
    · exact absurd h1 h
  · rintro (h | h) h'
    · exact Str.lt_asymm h h'
    · rw [h] at h'; exact Str.lt_irrefl _ h'

theorem Key.le_total (a b : Key) : a.le b = true ∨ b.le a = true := by
  rw [Key.le_iff', Key.le_iff']
  rcases Str.lt_trichotomy a.s b.s with h | h | h <;> simp [h]

theorem Key.le_trans {a b c : Key} (h1 : a.le b = true) (h2 : b.le c = true) : a.le c = true := by
  rw [Key.le_iff'] at *
  rcases h1 with h1 | h1 <;> rcases h2 with h2 | h2
  · exact .inl (Str.lt_trans h1 h2)
  · rw [← h2]; exact .inl h1
  · rw [h1]; exact .inl h2
  · exact .inr (h1.trans h2)

section sort
variable {α : Type}

theorem insertByKey_perm (x : Key × α) (l : List (Key × α)) : (insertByKey x l).Perm (x :: l) := by
  induction l with
  | nil => exact .refl _
  | cons y rest ih =>
    simp only [insertByKey]
    split
    · exact .refl _
    · exact (List.Perm.cons y ih).trans (List.Perm.swap x y rest)

theorem sortByKey_perm (l : List (Key × α)) : (sortByKey l).Perm l := by
  induction l with
  | nil => exact .refl _
  | cons x rest ih => exact (insertByKey_perm x _).trans (.cons x ih)

/-- Weakly sorted by key. -/
def SortedByKey (l : List (Key × α)) : Prop := l.Pairwise (fun a b => a.1.le b.1 = true)

theorem insertByKey_sorted (x : Key × α) (l : List (Key × α)) (h : SortedByKey l) :
    SortedByKey (insertByKey x l) := by
  induction l with
  | nil => simp [insertByKey, SortedByKey]
  | cons y rest ih =>
    simp only [insertByKey]
    have h' := List.pairwise_cons.1 h
    split
    · rename_i hxy
      refine List.pairwise_cons.2 ⟨?_, h⟩
      intro z hz
      rcases List.mem_cons.1 hz with rfl | hz
      · exact hxy
      · exact Key.le_trans hxy (h'.1 z hz)
    · rename_i hxy
      refine List.pairwise_cons.2 ⟨?_, ih h'.2⟩
      intro z hz
      have hz := (insertByKey_perm x rest).mem_iff.1 hz
      rcases List.mem_cons.1 hz with rfl | hz
      · exact (Key.le_total _ _).resolve_left hxy
      · exact h'.1 z hz

theorem sortByKey_sorted (l : List (Key × α)) : SortedByKey (sortByKey l) := by
  induction l with
  | nil => simp [sortByKey, SortedByKey]
  | cons x rest ih => exact insertByKey_sorted x _ ih

/-- `sort_by_key` maps through value transformations. -/
theorem insertByKey_map {β : Type} (f : Key × α → β) (x : Key × α) (l : List (Key × α)) :
    insertByKey (x.1, f x) (l.map fun y => (y.1, f y)) = (insertByKey x l).map fun y => (y.1, f y) := by
  induction l with
  | nil => rfl
  | cons y rest ih =>
    simp only [insertByKey, List.map_cons]
    split
    · simp
    · simp [ih]

theorem sortByKey_map {β : Type} (f : Key × α → β) (l : List (Key × α)) :
    sortByKey (l.map fun y => (y.1, f y)) = (sortByKey l).map fun y => (y.1, f y) := by
  induction l with
  | nil => rfl
  | cons x rest ih => simp only [List.map_cons, sortByKey, ih, insertByKey_map]

end sort

/-- Strict lexicographic order on stacks of names. -/
def pathLt : List Str → List Str → Prop
  | [], [] => False
  | [], _ :: _ => True
  | _ :: _, [] => False
  | a :: as, b :: bs => Str.lt a b ∨ (a = b ∧ pathLt as bs)

theorem pathLt_irrefl : ∀ a, ¬ pathLt a a
  | [] => id
  | a :: as => by
    simp only [pathLt, not_or, not_and]
    exact ⟨Str.lt_irrefl a, fun _ => pathLt_irrefl as⟩

theorem pathLt_trans : ∀ {a b c}, pathLt a b → pathLt b c → pathLt a c
  | [], [], _, h, _ => h.elim
  | [], _ :: _, [], _, h => h.elim
  | [], _ :: _, _ :: _, _, _ => trivial
  | _ :: _, [], _, h, _ => h.elim
  | _ :: _, _ :: _, [], _, h => h.elim
  | a :: as, b :: bs, c :: cs, h1, h2 => by
    simp only [pathLt] at *
    rcases h1 with h1 | ⟨h1, h1'⟩ <;> rcases h2 with h2 | ⟨h2, h2'⟩
    · exact .inl (Str.lt_trans h1 h2)
    · rw [← h2]; exact .inl h1
    · rw [h1]; exact .inl h2
    · exact .inr ⟨h1.trans h2, pathLt_trans h1' h2'⟩

theorem pathLt_asymm {a b} (h : pathLt a b) : ¬ pathLt b a := fun h' => pathLt_irrefl _ (pathLt_trans h h')

theorem pathLt_append_left : ∀ (p : List Str) {a b}, pathLt (p ++ a) (p ++ b) ↔ pathLt a b
  | [], _, _ => Iff.rfl
  | x :: xs, a, b => by
    simp [pathLt, Str.lt_irrefl, pathLt_append_left xs]

/-- Strictly sorted lists with the same elements are equal. -/
theorem pairwise_ext {α : Type} {r : α → α → Prop} (asymm : ∀ a b, r a b → ¬ r b a)
    {l₁ l₂ : List α} (h₁ : l₁.Pairwise r) (h₂ : l₂.Pairwise r) (h : ∀ x, x ∈ l₁ ↔ x ∈ l₂) : l₁ = l₂ := by
  induction l₁ generalizing l₂ with
  | nil =>
    cases l₂ with
    | nil => rfl
    | cons y ys => exact absurd ((h y).2 (by simp)) (by simp)
  | cons x xs ih =>
    cases l₂ with
    | nil => exact absurd ((h x).1 (by simp)) (by simp)
    | cons y ys =>
      have h₁' := List.pairwise_cons.1 h₁
      have h₂' := List.pairwise_cons.1 h₂
      have irr : ∀ a, ¬ r a a := fun a ha => asymm a a ha ha
      have hxy : x = y := by
        rcases List.mem_cons.1 ((h x).1 (by simp)) with e | hx
        · exact e
        · rcases List.mem_cons.1 ((h y).2 (by simp)) with e | hy
          · exact e.symm
          · exact absurd (h₂'.1 x hx) (asymm _ _ (h₁'.1 y hy))
      subst hxy
      congr 1
      apply ih h₁'.2 h₂'.2
      intro z
      constructor
      · intro hz
        rcases List.mem_cons.1 ((h z).1 (by simp [hz])) with e | hz'
        · subst e; exact absurd (h₁'.1 z hz) (irr z)
        · exact hz'
      · intro hz
        rcases List.mem_cons.1 ((h z).2 (by simp [hz])) with e | hz'
        · subst e; exact absurd (h₂'.1 z hz) (irr z)
        · exact hz'

end Allocative
