import Verif.Spec.Gaps
import Verif.Lemmas.Own
import Verif.Lemmas.Footprint
set_option linter.unusedSimpArgs false
/-
Gaps of objects.
-/
namespace Allocative

/-- `gapsAt`, on objects. -/
def Obj.gapAt : Obj → Path → Path → Nat
  | .nil, _, _ => 0
  | .inline k n _ i r, cur, p => (if cur ++ [k] = p then n - i.direct else 0) + i.gapAt (cur ++ [k]) p + r.gapAt cur p
  | .unique k n _ i r, cur, p => (if cur ++ [k] = p then n else 0) + i.gapAt (cur ++ [k]) p + r.gapAt cur p
  | .shared k n _ _ r, cur, p => (if cur ++ [k] = p then n else 0) + r.gapAt cur p

theorem next_nil (cur : Path) : Next cur [] := by simp [Next]

theorem own_head (o : Obj) (cur : Path) : ∀ x ∈ (o.own cur).head?, x.path.length = cur.length + 1 := by
  cases o <;> simp [Obj.own]

theorem next_own {o : Obj} {cur : Path} {later : List Rec} (h : Next cur later) : Next cur (o.own cur ++ later) := by
  intro x hx
  rw [List.head?_append] at hx
  cases ho : (o.own cur).head? with
  | none => rw [ho] at hx; exact h x (by simpa using hx)
  | some y =>
    rw [ho] at hx
    simp only [Option.some_or, Option.mem_def, Option.some.injEq] at hx
    subst hx
    have := own_head o cur y ho
    omega

theorem next_down {cur : Path} (k : Key) {o : Obj} {later : List Rec} (h : Next cur later) : Next (cur ++ [k]) (o.own cur ++ later) := by
  intro x hx ⟨h1, h2⟩
  rw [List.head?_append] at hx
  simp only [List.length_append, List.length_cons, List.length_nil] at h2
  cases ho : (o.own cur).head? with
  | none =>
    rw [ho] at hx
    refine h x (by simpa using hx) ⟨(List.prefix_append cur [k]).trans h1, by omega⟩
  | some y =>
    rw [ho] at hx
    simp only [Option.some_or, Option.mem_def, Option.some.injEq] at hx
    subst hx
    have := own_head o cur y ho
    omega

theorem not_below_next {cur : Path} (k : Key) {later : List Rec} (h : Next cur later) : ∀ x ∈ later.head?, ¬ below (cur ++ [k]) x.path := by
  intro x hx ⟨h1, h2⟩
  refine h x hx ⟨(List.prefix_append cur [k]).trans h1, ?_⟩
  obtain ⟨t, ht⟩ := h1
  cases t with
  | nil => exact absurd (by simpa using ht.symm) h2
  | cons a t => rw [← ht]; simp

theorem own_below (o : Obj) : ∀ cur, ∀ x ∈ o.own cur, below cur x.path := by
  have base : ∀ (cur : Path) (k : Key), below cur (cur ++ [k]) := fun cur k => ⟨List.prefix_append _ _, by simp⟩
  have step : ∀ (cur : Path) (k : Key) (p : Path), below (cur ++ [k]) p → below cur p := by
    intro cur k p ⟨h1, h2⟩
    refine ⟨(List.prefix_append _ _).trans h1, ?_⟩
    rintro rfl
    have := h1.length_le
    simp at this
    omega
  induction o with
  | nil => intro cur x hx; cases hx
  | inline k n e i r ih1 ih2 =>
    intro cur x hx
    simp only [Obj.own, List.cons_append, List.mem_cons, List.mem_append] at hx
    rcases hx with rfl | hx | hx
    · exact base _ _
    · exact step _ _ _ (ih1 _ x hx)
    · exact ih2 _ x hx
  | unique k n e i r ih1 ih2 =>
    intro cur x hx
    simp only [Obj.own, List.cons_append, List.mem_cons, List.mem_append] at hx
    rcases hx with rfl | hx | hx
    · exact base _ _
    · exact step _ _ _ (ih1 _ x hx)
    · exact ih2 _ x hx
  | shared k n q e r ih =>
    intro cur x hx
    simp only [Obj.own, List.mem_cons] at hx
    rcases hx with rfl | hx
    · exact base _ _
    · exact ih _ x hx

theorem takeWhile_split {α : Type} (f : α → Bool) (a b : List α) (ha : ∀ x ∈ a, f x = true) (hb : ∀ x ∈ b.head?, f x = false) : (a ++ b).takeWhile f = a := by
  induction a with
  | nil =>
    cases b with
    | nil => rfl
    | cons x b => simp [List.takeWhile_cons, hb x (by simp)]
  | cons x a ih => simp [List.takeWhile_cons, ha x (by simp), ih fun y hy => ha y (by simp [hy])]

/-- What is made inside of an entered value is what it visits. -/
theorem madeInside_own (o : Obj) (k : Key) (n : Nat) (u : Bool) (cur : Path) (r : Obj) (later : List Rec) (h : Next cur later) :
    madeInside ⟨cur ++ [k], n, u⟩ (o.own (cur ++ [k]) ++ (r.own cur ++ later)) = o.own (cur ++ [k]) := by
  unfold madeInside
  refine takeWhile_split _ _ _ (fun x hx => by simpa using own_below o _ x hx) ?_
  intro x hx
  simpa using not_below_next k (next_own h) x hx

theorem gapsAt_own (o : Obj) : ∀ (cur p : Path) (later : List Rec), Next cur later → gapsAt (o.own cur ++ later) p = o.gapAt cur p + gapsAt later p := by
  induction o with
  | nil => intro cur p later _; simp [Obj.own, Obj.gapAt]
  | inline k n e i r ih1 ih2 =>
    intro cur p later h
    simp only [Obj.own, List.cons_append, List.append_assoc, gapsAt, Obj.gapAt, gap, madeInside_own i k n false cur r later h, childrenAt_own,
      ih1 _ p _ (next_down k h), ih2 _ p _ h]
    simp; omega
  | unique k n e i r ih1 ih2 =>
    intro cur p later h
    simp only [Obj.own, List.cons_append, List.append_assoc, gapsAt, Obj.gapAt, gap, ih1 _ p _ (next_down k h), ih2 _ p _ h]
    simp; omega
  | shared k n q e r ih =>
    intro cur p later h
    have := madeInside_own .nil k n false cur r later h
    simp only [Obj.own, List.nil_append] at this
    simp only [Obj.own, List.cons_append, gapsAt, Obj.gapAt, gap, this, ih _ p _ h]
    simp [childrenAt]; omega

theorem roomy_own (o : Obj) : ∀ (cur : Path) (later : List Rec), o.Consistent → Next cur later → Roomy later → Roomy (o.own cur ++ later) := by
  induction o with
  | nil => intro cur later _ _ h; exact h
  | inline k n e i r ih1 ih2 =>
    intro cur later hc h hl
    simp only [Obj.own, List.cons_append, List.append_assoc, Roomy, madeInside_own i k n false cur r later h, childrenAt_own]
    exact ⟨fun _ => hc.1, ih1 _ _ hc.2.1 (next_down k h) (ih2 _ _ hc.2.2 h hl)⟩
  | unique k n e i r ih1 ih2 =>
    intro cur later hc h hl
    simp only [Obj.own, List.cons_append, List.append_assoc, Roomy]
    exact ⟨fun h => (nomatch h), ih1 _ _ hc.1 (next_down k h) (ih2 _ _ hc.2 h hl)⟩
  | shared k n q e r ih =>
    intro cur later hc h hl
    have := madeInside_own .nil k n false cur r later h
    simp only [Obj.own, List.nil_append] at this
    simp only [Obj.own, List.cons_append, Roomy, this]
    exact ⟨fun _ => by simp [childrenAt], ih _ _ hc h hl⟩

/-- Stacks that are not unique. -/
theorem gapAt_inline (o : Obj) : ∀ (cur p : Path), o.Consistent → uniqueAt (o.own cur) p = false →
    sizeAt (o.own cur) p + (if p = cur then o.direct else 0) = childrenAt (o.own cur) p + o.gapAt cur p := by
  have child : ∀ (cur p : Path) (k : Key), isChild p (cur ++ [k]) = decide (p = cur) := by
    intro cur p k
    simp only [isChild, List.dropLast_concat]
    by_cases h : p = cur
    · simp [h]
    · simp [h, show ¬ cur = p from fun e => h e.symm]
  have ne : ∀ (cur : Path) (k : Key), cur ++ [k] ≠ cur := fun cur k => by simp
  induction o with
  | nil => intro cur p _ _; simp [Obj.own, Obj.gapAt, Obj.direct, sizeAt, childrenAt]
  | inline k n e i r ih1 ih2 =>
    intro cur p hc hu
    simp only [Obj.own, List.cons_append, uniqueAt, List.any_cons, List.any_append, Bool.or_eq_false_iff] at hu
    have h1 := ih1 (cur ++ [k]) p hc.2.1 hu.2.1
    have h2 := ih2 cur p hc.2.2 hu.2.2
    have h3 := hc.1
    simp only [Obj.own, List.cons_append, childrenAt_cons, childrenAt_append, sizeAt_cons, sizeAt_append, child, Obj.gapAt, Obj.direct]
    by_cases hp : p = cur
    · have : ¬ cur ++ [k] = p := by rw [hp]; exact ne _ _
      have : ¬ p = cur ++ [k] := fun h => this h.symm
      simp_all; omega
    · by_cases hq : p = cur ++ [k]
      · simp [← hq, hp] at h1 h2 ⊢
        omega
      · have hq' : ¬ cur ++ [k] = p := fun h => hq h.symm
        simp only [hp, hq, hq', if_false, decide_false, Bool.false_eq_true] at h1 h2 ⊢
        omega
  | unique k n e i r ih1 ih2 =>
    intro cur p hc hu
    simp only [Obj.own, List.cons_append, uniqueAt, List.any_cons, List.any_append, Bool.or_eq_false_iff] at hu
    have hq' : ¬ cur ++ [k] = p := by simpa using hu.1
    have hq : ¬ p = cur ++ [k] := fun h => hq' h.symm
    have h1 := ih1 (cur ++ [k]) p hc.1 hu.2.1
    have h2 := ih2 cur p hc.2 hu.2.2
    simp only [Obj.own, List.cons_append, childrenAt_cons, childrenAt_append, sizeAt_cons, sizeAt_append, child, Obj.gapAt, Obj.direct]
    by_cases hp : p = cur
    · simp only [hp, hq, hq', if_true, if_false, decide_true, decide_false, Bool.false_eq_true] at h1 h2 ⊢
      simp [ne] at h1 ⊢
      omega
    · simp only [hp, hq, hq', if_false, decide_false, Bool.false_eq_true] at h1 h2 ⊢
      omega
  | shared k n q e r ih =>
    intro cur p hc hu
    simp only [Obj.own, uniqueAt, List.any_cons, Bool.or_eq_false_iff] at hu
    have h2 := ih cur p hc hu.2
    simp only [Obj.own, childrenAt_cons, sizeAt_cons, child, Obj.gapAt, Obj.direct]
    by_cases hp : p = cur
    · simp [hp, ne] at h2 ⊢
      omega
    · simp only [hp, if_false, decide_false, Bool.false_eq_true] at h2 ⊢
      omega

/-- Stacks that are only unique. -/
theorem gapAt_unique (o : Obj) : ∀ (cur p : Path), (∀ x ∈ o.own cur, x.path = p → x.unique = true) → sizeAt (o.own cur) p = o.gapAt cur p := by
  induction o with
  | nil => intro cur p _; rfl
  | inline k n e i r ih1 ih2 =>
    intro cur p h
    simp only [Obj.own, List.cons_append, List.mem_cons, List.mem_append] at h
    have hq : ¬ cur ++ [k] = p := fun hp => by have := h _ (.inl rfl) hp; cases this
    simp only [Obj.own, List.cons_append, sizeAt_cons, sizeAt_append, Obj.gapAt, hq, if_false,
      ih1 _ p fun x hx => h x (.inr (.inl hx)), ih2 _ p fun x hx => h x (.inr (.inr hx))]
    omega
  | unique k n e i r ih1 ih2 =>
    intro cur p h
    simp only [Obj.own, List.cons_append, List.mem_cons, List.mem_append] at h
    simp only [Obj.own, List.cons_append, sizeAt_cons, sizeAt_append, Obj.gapAt,
      ih1 _ p fun x hx => h x (.inr (.inl hx)), ih2 _ p fun x hx => h x (.inr (.inr hx))]
    omega
  | shared k n q e r ih =>
    intro cur p h
    simp only [Obj.own, List.mem_cons] at h
    have hq : ¬ cur ++ [k] = p := fun hp => by have := h _ (.inl rfl) hp; cases this
    simp only [Obj.own, sizeAt_cons, Obj.gapAt, hq, if_false, ih _ p fun x hx => h x (.inr hx)]

/-- Stacks that were not entered have no gaps. -/
theorem gapsAt_entered (recs : List Rec) (p : Path) (h : gapsAt recs p ≠ 0) : entered recs p := by
  induction recs with
  | nil => exact absurd rfl h
  | cons r l ih =>
    by_cases hp : r.path = p
    · exact ⟨r, by simp, hp⟩
    · simp only [gapsAt, hp, if_false, Nat.zero_add] at h
      obtain ⟨x, hx, hxp⟩ := ih h
      exact ⟨x, by simp [hx], hxp⟩

/-- Several objects, one after the other. -/
theorem gaps_all (os : List Obj) (hc : ∀ o ∈ os, o.Consistent) : Next [] (os.flatMap fun o => o.own []) ∧ Roomy (os.flatMap fun o => o.own []) ∧
    ∀ p, p ≠ [] → (∀ x ∈ os.flatMap (fun o => o.own []), ∀ x' ∈ os.flatMap (fun o => o.own []), x.path = x'.path → x.unique = x'.unique) →
      selfSpec (os.flatMap fun o => o.own []) p = gapsAt (os.flatMap fun o => o.own []) p := by
  have hn : Next [] (os.flatMap fun o => o.own []) := by
    induction os with
    | nil => exact next_nil _
    | cons o os ih => exact next_own (ih fun x hx => hc x (by simp [hx]))
  have hr : Roomy (os.flatMap fun o => o.own []) := by
    clear hn
    induction os with
    | nil => trivial
    | cons o os ih =>
      have hn : Next [] (os.flatMap fun o => o.own []) := by
        clear ih hc
        induction os with
        | nil => exact next_nil _
        | cons o os ih => exact next_own ih
      exact roomy_own _ _ _ (hc o (by simp)) hn (ih fun x hx => hc x (by simp [hx]))
  refine ⟨hn, hr, fun p hp hmix => ?_⟩
  have hg : ∀ os : List Obj, gapsAt (os.flatMap fun o => o.own []) p = (os.map fun o => o.gapAt [] p).sum := by
    intro os
    induction os with
    | nil => rfl
    | cons o os ih =>
      have hn : Next [] (os.flatMap fun o => o.own []) := by
        clear ih
        induction os with
        | nil => exact next_nil _
        | cons o os ih => exact next_own ih
      rw [List.flatMap_cons, gapsAt_own _ _ _ _ hn, ih]; rfl
  simp only [selfSpec, hp, if_false, remAt]
  cases hu : uniqueAt (os.flatMap fun o => o.own []) p with
  | true =>
    have hall : ∀ x ∈ os.flatMap (fun o => o.own []), x.path = p → x.unique = true := by
      intro x hx hxp
      simp only [uniqueAt, List.any_eq_true, Bool.and_eq_true, decide_eq_true_eq] at hu
      obtain ⟨y, hy, hyp, hyu⟩ := hu
      rw [hmix x hx y hy (by rw [hxp, hyp]), hyu]
    have hs : sizeAt (os.flatMap fun o => o.own []) p = (os.map fun o => o.gapAt [] p).sum := by
      clear hg hu hmix hn hr hc
      induction os with
      | nil => rfl
      | cons o os ih =>
        simp only [List.flatMap_cons, List.mem_append] at hall
        rw [List.flatMap_cons, sizeAt_append, ih fun x hx => hall x (.inr hx), gapAt_unique o [] p fun x hx => hall x (.inl hx)]
        rfl
    rw [hg, ← hs]
    simp
  | false =>
    have hs : sizeAt (os.flatMap fun o => o.own []) p = childrenAt (os.flatMap fun o => o.own []) p + (os.map fun o => o.gapAt [] p).sum := by
      clear hg hmix hn hr
      induction os with
      | nil => rfl
      | cons o os ih =>
        simp only [List.flatMap_cons, uniqueAt_append, Bool.or_eq_false_iff] at hu
        have h1 := gapAt_inline o [] p (hc o (by simp)) hu.1
        have h2 := ih (fun x hx => hc x (by simp [hx])) hu.2
        simp only [hp, if_false] at h1
        simp only [List.flatMap_cons, sizeAt_append, childrenAt_append, List.map_cons, List.sum_cons]
        omega
    rw [hg, hs]
    simp
    omega

end Allocative
