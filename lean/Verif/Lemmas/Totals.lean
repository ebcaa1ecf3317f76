import Verif.Spec.Totals
import Verif.Lemmas.Cut
/-
Sums over records.
-/
namespace Allocative

theorem sum_pick {β : Type} [DecidableEq β] (x : β) (w : Nat) (l : List β) (hn : l.Nodup) (hx : x ∈ l) :
    (l.map fun p => if x = p then w else 0).sum = w := by
  induction l with
  | nil => cases hx
  | cons a l ih =>
    rw [List.nodup_cons] at hn
    rw [List.map_cons, List.sum_cons]
    by_cases h : x = a
    · subst h
      rw [if_pos rfl, sum_eq_zero_of' (fun p => if x = p then w else 0) l (fun p hp => by
        rw [if_neg]; rintro rfl; exact hn.1 hp)]; rfl
    · rw [if_neg h, Nat.zero_add]
      exact ih hn.2 ((List.mem_cons.1 hx).resolve_left h)
where
  sum_eq_zero_of' {α : Type} (f : α → Nat) (l : List α) (h : ∀ x ∈ l, f x = 0) : (l.map f).sum = 0 :=
    FlameGraph.sum_eq_zero_of f l h

theorem sum_map_add {α : Type} (f g : α → Nat) (l : List α) : (l.map fun a => f a + g a).sum = (l.map f).sum + (l.map g).sum := by
  induction l with
  | nil => rfl
  | cons a l ih => simp only [List.map_cons, List.sum_cons, ih]; omega

theorem sum_map_congr {α : Type} {f g : α → Nat} {l : List α} (h : ∀ a ∈ l, f a = g a) : (l.map f).sum = (l.map g).sum := by
  rw [List.map_congr_left h]

/-- Summing over the fibers of `g` is summing over everything. -/
theorem sum_fiber {α β : Type} [DecidableEq β] (g : α → β) (w : α → Nat) (l : List β) (hn : l.Nodup) (A : List α)
    (hg : ∀ a ∈ A, g a ∈ l) : (l.map fun p => (A.map fun a => if g a = p then w a else 0).sum).sum = (A.map w).sum := by
  induction A with
  | nil => simp only [List.map_nil, List.sum_nil]; exact sum_map_zero l
  | cons a A ih =>
    simp only [List.map_cons, List.sum_cons]
    rw [sum_map_add, sum_pick _ _ _ hn (hg a (by simp)), ih (fun b hb => hg b (by simp [hb]))]

/-- Records of real histories: no record at the empty stack, parents of records recorded. -/
structure Closed (recs : List Rec) : Prop where
  ne : ∀ r ∈ recs, r.path ≠ []
  parent : ∀ r ∈ recs, r.path.dropLast = [] ∨ entered recs r.path.dropLast

theorem trace_closed (prog : Prog) : ∀ (cur : Path) (vis : List Ptr) (pre : List Rec), Closed pre → (cur = [] ∨ entered pre cur) →
    Closed (pre ++ (prog.trace cur vis).recs) := by
  have app : ∀ {pre : List Rec} {cur : Path} {k : Key} {n u}, Closed pre → (cur = [] ∨ entered pre cur) →
      Closed (pre ++ [⟨cur ++ [k], n, u⟩]) := by
    intro pre cur k n u h hc
    constructor
    · intro r hr
      rcases List.mem_append.1 hr with hr | hr
      · exact h.ne r hr
      · simp at hr; subst hr; simp
    · intro r hr
      have mono : ∀ p, entered pre p → entered (pre ++ [⟨cur ++ [k], n, u⟩]) p := by
        rintro p ⟨r, hr, e⟩; exact ⟨r, by simp [hr], e⟩
      rcases List.mem_append.1 hr with hr | hr
      · exact (h.parent r hr).imp id (mono _)
      · simp at hr; subst hr
        simpa using hc.imp id (mono _)
  have mono : ∀ {pre more : List Rec} {p : Path}, (p = [] ∨ entered pre p) → (p = [] ∨ entered (pre ++ more) p) := by
    rintro pre more p (h | ⟨r, hr, e⟩)
    · exact .inl h
    · exact .inr ⟨r, by simp [hr], e⟩
  have me : ∀ {pre : List Rec} {r : Rec}, entered (pre ++ [r]) r.path := fun {pre r} => ⟨r, by simp, rfl⟩
  induction prog with
  | done => intro cur vis pre h _; simpa [Prog.trace] using h
  | panic => intro cur vis pre h _; simpa [Prog.trace] using h
  | enter k n f body rest ih1 ih2 =>
    intro cur vis pre h hc
    have h1 := ih1 (cur ++ [k]) vis _ (app h hc (k := k) (n := n) (u := false)) (.inr me)
    simp only [Prog.trace]
    split
    · simpa using h1
    · have := ih2 cur (body.trace (cur ++ [k]) vis).visited _ h1 (mono (mono hc))
      simpa using this
  | enterUnique k n f body rest ih1 ih2 =>
    intro cur vis pre h hc
    have h1 := ih1 (cur ++ [k]) vis _ (app h hc (k := k) (n := n) (u := true)) (.inr me)
    simp only [Prog.trace]
    split
    · simpa using h1
    · have := ih2 cur (body.trace (cur ++ [k]) vis).visited _ h1 (mono (mono hc))
      simpa using this
  | enterShared k n p f body rs rn ih1 ih2 ih3 =>
    intro cur vis pre h hc
    have h0 := app h hc (k := k) (n := n) (u := false)
    simp only [Prog.trace]
    split
    · have := ih3 cur vis _ h0 (mono hc)
      simpa using this
    · have h1 := ih1 [] (p :: vis) _ h0 (.inl rfl)
      split
      · simpa using h1
      · have := ih2 cur (body.trace [] (p :: vis)).visited _ h1 (mono (mono hc))
        simpa using this
  | catchUnwind body rest ih1 ih2 =>
    intro cur vis pre h hc
    have h1 := ih1 cur vis _ h hc
    have := ih2 cur (body.trace cur vis).visited _ h1 (mono hc)
    simpa [Prog.trace] using this

theorem traceRoots_closed (hist : List (Prog × Fate)) : ∀ vis pre, Closed pre → Closed (pre ++ (traceRoots hist vis).recs) := by
  induction hist with
  | nil => intro vis pre h; simpa [traceRoots] using h
  | cons x rest ih =>
    intro vis pre h
    obtain ⟨prog, fate⟩ := x
    have := ih (prog.trace [] vis).visited _ (trace_closed prog [] vis pre h (.inl rfl))
    simpa [traceRoots] using this

theorem records_closed (hist : List (Prog × Fate)) : Closed (records hist) := by
  have := traceRoots_closed hist [] [] ⟨by simp, by simp⟩
  simpa [records] using this

/-- Bytes by which the children of a stack exceed it. -/
def excessAt (recs : List Rec) (p : Path) : Nat :=
  if p = [] ∨ uniqueAt recs p = true then 0 else childrenAt recs p - sizeAt recs p

theorem selfSpec_sum {recs : List Rec} (hc : Closed recs) {l : List Path} (hn : l.Nodup) (hl : ∀ p, p ∈ l ↔ p = [] ∨ entered recs p) :
    (l.map (selfSpec recs)).sum = attributed recs + (l.map (excessAt recs)).sum := by
  let inl : Path → Nat := fun p => if p = [] ∨ uniqueAt recs p = true then 0 else childrenAt recs p
  have hpt : ∀ p ∈ l, selfSpec recs p + inl p = sizeAt recs p + excessAt recs p := by
    intro p _
    simp only [selfSpec, remAt, inl, excessAt]
    by_cases hp : p = []
    · have : sizeAt recs [] = 0 := by
        apply FlameGraph.sum_eq_zero_of
        intro r hr
        rw [if_neg (hc.ne r hr)]
      simp [hp, this]
    · by_cases hu : uniqueAt recs p = true
      · simp [hp, hu]
      · simp [hp, hu]; omega
  have h1 : (l.map (selfSpec recs)).sum + (l.map inl).sum = (l.map (sizeAt recs)).sum + (l.map (excessAt recs)).sum := by
    rw [← sum_map_add, ← sum_map_add]; exact sum_map_congr hpt
  have h2 : (l.map (sizeAt recs)).sum = (recs.map Rec.size).sum := by
    have := sum_fiber Rec.path Rec.size l hn recs (fun r hr => (hl _).2 (.inr ⟨r, hr, rfl⟩))
    exact this
  have h3 : (l.map inl).sum =
      (recs.map fun r => if r.path.dropLast = [] ∨ uniqueAt recs r.path.dropLast = true then 0 else r.size).sum := by
    have := sum_fiber (fun r : Rec => r.path.dropLast)
      (fun r => if r.path.dropLast = [] ∨ uniqueAt recs r.path.dropLast = true then 0 else r.size) l hn recs
      (fun r hr => (hl _).2 (hc.parent r hr))
    rw [← this]
    apply sum_map_congr
    intro p _
    simp only [inl]
    by_cases hp : p = [] ∨ uniqueAt recs p = true
    · rw [if_pos hp]
      symm
      apply FlameGraph.sum_eq_zero_of
      intro r _
      by_cases h : r.path.dropLast = p
      · rw [if_pos h, h, if_pos hp]
      · rw [if_neg h]
    · rw [if_neg hp]
      unfold childrenAt
      apply sum_map_congr
      intro r hr
      by_cases h : r.path.dropLast = p
      · rw [if_pos h, h, if_neg hp]; simp [isChild, hc.ne r hr, h]
      · rw [if_neg h]; simp [isChild, h]
  have h4 : attributed recs + (recs.map fun r => if r.path.dropLast = [] ∨ uniqueAt recs r.path.dropLast = true then 0 else r.size).sum
      = (recs.map Rec.size).sum := by
    unfold attributed
    rw [← sum_map_add]
    apply sum_map_congr
    intro r _
    split <;> simp
  omega

/-- Consistent programs: children of a never-unique stack fit. -/
theorem trace_consistent (prog : Prog) : ∀ (cur : Path) (vis : List Ptr), prog.Consistent → ∀ p, p ≠ [] →
    uniqueAt (prog.trace cur vis).recs p = false →
    childrenAt (prog.trace cur vis).recs p ≤ sizeAt (prog.trace cur vis).recs p + if p = cur then prog.direct else 0 := by
  have cc : ∀ (r : Rec) (l : List Rec) p, childrenAt (r :: l) p = (if isChild p r.path then r.size else 0) + childrenAt l p := fun _ _ _ => rfl
  have sc : ∀ (r : Rec) (l : List Rec) p, sizeAt (r :: l) p = (if r.path = p then r.size else 0) + sizeAt l p := fun _ _ _ => rfl
  have uc : ∀ (r : Rec) (l : List Rec) p, uniqueAt (r :: l) p = ((r.path = p && r.unique) || uniqueAt l p) := fun _ _ _ => rfl
  have ua : ∀ (a b : List Rec) p, uniqueAt (a ++ b) p = (uniqueAt a p || uniqueAt b p) := fun a b p => by
    unfold uniqueAt; exact List.any_append
  have ca : ∀ (a b : List Rec) p, childrenAt (a ++ b) p = childrenAt a p + childrenAt b p := fun a b p => by
    unfold childrenAt; rw [List.map_append, List.sum_append_nat]
  have sa : ∀ (a b : List Rec) p, sizeAt (a ++ b) p = sizeAt a p + sizeAt b p := fun a b p => by
    unfold sizeAt; rw [List.map_append, List.sum_append_nat]
  have ic : ∀ (p cur : Path) (k : Key), isChild p (cur ++ [k]) = decide (p = cur) := by
    intro p cur k; simp only [isChild, List.dropLast_concat]; rw [Bool.eq_iff_iff]; simp; exact ⟨Eq.symm, Eq.symm⟩
  induction prog with
  | done => intros; simp [Prog.trace, childrenAt]
  | panic => intros; simp [Prog.trace, childrenAt]
  | enter k n f body rest ih1 ih2 =>
    intro cur vis hcons p hp hu
    obtain ⟨hd, hb, hr⟩ := hcons
    have h1 := ih1 (cur ++ [k]) vis hb p hp
    have h2 := ih2 cur (body.trace (cur ++ [k]) vis).visited hr p hp
    simp only [Prog.trace] at hu ⊢
    split at hu
    · simp only [uc, Bool.or_eq_false_iff] at hu
      have h1 := h1 hu.2
      simp only [cc, sc, ic, Prog.direct, decide_eq_true_eq]
      by_cases e1 : p = cur <;> by_cases e2 : p = cur ++ [k]
      · exact absurd (e1.symm.trans e2) (by simp)
      · have e2' : ¬ cur ++ [k] = p := fun h => e2 h.symm
        rw [if_pos e1, if_neg e2', if_pos e1]; rw [if_neg e2] at h1; omega
      · rw [if_neg e1, if_pos e2.symm, if_neg e1]; rw [if_pos e2] at h1; omega
      · have e2' : ¬ cur ++ [k] = p := fun h => e2 h.symm
        rw [if_neg e1, if_neg e2', if_neg e1]; rw [if_neg e2] at h1; omega
    · simp only [List.cons_append, uc, ua, Bool.or_eq_false_iff] at hu
      have h1 := h1 hu.2.1
      have h2 := h2 hu.2.2
      simp only [List.cons_append, cc, sc, ca, sa, ic, Prog.direct, decide_eq_true_eq]
      by_cases e1 : p = cur <;> by_cases e2 : p = cur ++ [k]
      · exact absurd (e1.symm.trans e2) (by simp)
      · have e2' : ¬ cur ++ [k] = p := fun h => e2 h.symm
        rw [if_pos e1, if_neg e2', if_pos e1]; rw [if_neg e2] at h1; rw [if_pos e1] at h2; omega
      · rw [if_neg e1, if_pos e2.symm, if_neg e1]; rw [if_pos e2] at h1; rw [if_neg e1] at h2; omega
      · have e2' : ¬ cur ++ [k] = p := fun h => e2 h.symm
        rw [if_neg e1, if_neg e2', if_neg e1]; rw [if_neg e2] at h1; rw [if_neg e1] at h2; omega
  | enterUnique k n f body rest ih1 ih2 =>
    intro cur vis hcons p hp hu
    obtain ⟨hb, hr⟩ := hcons
    have h1 := ih1 (cur ++ [k]) vis hb p hp
    have h2 := ih2 cur (body.trace (cur ++ [k]) vis).visited hr p hp
    simp only [Prog.trace] at hu ⊢
    split at hu
    · simp only [uc, Bool.or_eq_false_iff] at hu
      have h1 := h1 hu.2
      have e2 : ¬ cur ++ [k] = p := by simpa using hu.1
      have e2' : ¬ p = cur ++ [k] := fun h => e2 h.symm
      simp only [cc, sc, ic, Prog.direct, decide_eq_true_eq, if_neg e2] at *
      simp only [if_neg e2'] at h1
      split <;> omega
    · simp only [List.cons_append, uc, ua, Bool.or_eq_false_iff] at hu
      have h1 := h1 hu.2.1
      have h2 := h2 hu.2.2
      have e2 : ¬ cur ++ [k] = p := by simpa using hu.1
      have e2' : ¬ p = cur ++ [k] := fun h => e2 h.symm
      simp only [List.cons_append, cc, sc, ca, sa, ic, Prog.direct, decide_eq_true_eq, if_neg e2] at *
      simp only [if_neg e2'] at h1
      split
      · rename_i e; simp only [if_pos e] at h2; omega
      · rename_i e; simp only [if_neg e] at h2; omega
  | enterShared k n ptr f body rs rn ih1 ih2 ih3 =>
    intro cur vis hcons p hp hu
    obtain ⟨hb, hrs, hrn⟩ := hcons
    simp only [Prog.trace] at hu ⊢
    have nonneg : ∀ x : Nat, (if cur ++ [k] = p then n else 0) + x ≥ x := by intro x; omega
    split at hu
    · rename_i hv
      simp only [if_pos hv, uc, Bool.or_eq_false_iff] at hu ⊢
      have h3 := ih3 cur vis hrn p hp hu.2
      simp only [cc, sc, ic, Prog.direct, decide_eq_true_eq]
      split
      · rename_i e; simp only [if_pos e] at h3; omega
      · rename_i e; simp only [if_neg e] at h3; omega
    · rename_i hv
      simp only [if_neg hv]
      have h1 := ih1 [] (ptr :: vis) hb p hp
      have h2 := ih2 cur (body.trace [] (ptr :: vis)).visited hrs p hp
      rw [if_neg hp] at h1
      split at hu
      · rename_i hc
        simp only [uc, Bool.or_eq_false_iff] at hu
        have h1 := h1 hu.2
        simp only [cc, sc, ic, Prog.direct, decide_eq_true_eq]
        split <;> omega
      · rename_i hc
        simp only [List.cons_append, uc, ua, Bool.or_eq_false_iff] at hu
        have h1 := h1 hu.2.1
        have h2 := h2 hu.2.2
        simp only [List.cons_append, cc, sc, ca, sa, ic, Prog.direct, decide_eq_true_eq]
        split
        · rename_i e; simp only [if_pos e] at h2; omega
        · rename_i e; simp only [if_neg e] at h2; omega
  | catchUnwind body rest ih1 ih2 =>
    intro cur vis hcons p hp hu
    simp only [Prog.trace] at hu ⊢
    simp only [ua, Bool.or_eq_false_iff] at hu
    have h1 := ih1 cur vis hcons.1 p hp hu.1
    have h2 := ih2 cur (body.trace cur vis).visited hcons.2 p hp hu.2
    simp only [ca, sa, Prog.direct]
    split
    · rename_i e; simp only [if_pos e] at h1 h2; omega
    · rename_i e; simp only [if_neg e] at h1 h2; omega

theorem traceRoots_consistent (hist : List (Prog × Fate)) : ∀ (vis : List Ptr), (∀ x ∈ hist, x.1.Consistent) → ∀ p, p ≠ [] →
    uniqueAt (traceRoots hist vis).recs p = false →
    childrenAt (traceRoots hist vis).recs p ≤ sizeAt (traceRoots hist vis).recs p := by
  induction hist with
  | nil => intros; simp [traceRoots, childrenAt]
  | cons x rest ih =>
    intro vis hc p hp hu
    obtain ⟨prog, fate⟩ := x
    simp only [traceRoots] at hu ⊢
    have ua : ∀ (a b : List Rec) p, uniqueAt (a ++ b) p = (uniqueAt a p || uniqueAt b p) := fun a b p => by
      unfold uniqueAt; exact List.any_append
    rw [ua, Bool.or_eq_false_iff] at hu
    have h1 := trace_consistent prog [] vis (hc (prog, fate) (by simp)) p hp hu.1
    rw [if_neg hp] at h1
    have h2 := ih (prog.trace [] vis).visited (fun y hy => hc y (by simp [hy])) p hp hu.2
    unfold childrenAt sizeAt at *
    rw [List.map_append, List.map_append, List.sum_append_nat, List.sum_append_nat]
    omega

/-- Addresses the program does not use do not matter. -/
theorem trace_frame (prog : Prog) : ∀ (cur : Path) (vis w : List Ptr), (∀ p ∈ prog.ptrs, p ∉ w) →
    prog.trace cur (vis ++ w) = { prog.trace cur vis with visited := (prog.trace cur vis).visited ++ w } := by
  induction prog with
  | done => intros; rfl
  | panic => intros; rfl
  | enter k n f body rest ih1 ih2 =>
    intro cur vis w h
    simp only [Prog.ptrs, List.mem_append] at h
    simp only [Prog.trace, ih1 (cur ++ [k]) vis w (fun p hp => h p (.inl hp))]
    cases (body.trace (cur ++ [k]) vis).ctl with
    | unwinding => rfl
    | returned => simp only [ih2 cur _ w (fun p hp => h p (.inr hp))]
  | enterUnique k n f body rest ih1 ih2 =>
    intro cur vis w h
    simp only [Prog.ptrs, List.mem_append] at h
    simp only [Prog.trace, ih1 (cur ++ [k]) vis w (fun p hp => h p (.inl hp))]
    cases (body.trace (cur ++ [k]) vis).ctl with
    | unwinding => rfl
    | returned => simp only [ih2 cur _ w (fun p hp => h p (.inr hp))]
  | enterShared k n ptr f body rs rn ih1 ih2 ih3 =>
    intro cur vis w h
    simp only [Prog.ptrs, List.mem_append, List.mem_cons] at h
    have hw : ptr ∉ w := h ptr (.inl rfl)
    simp only [Prog.trace, List.mem_append, hw, or_false]
    by_cases hv : ptr ∈ vis
    · simp only [if_pos hv, ih3 cur vis w (fun p hp => h p (.inr (.inr hp)))]
    · have := ih1 [] (ptr :: vis) w (fun p hp => h p (.inr (.inl (.inl hp))))
      rw [List.cons_append] at this
      simp only [if_neg hv, this]
      cases (body.trace [] (ptr :: vis)).ctl with
      | unwinding => rfl
      | returned => simp only [ih2 cur _ w (fun p hp => h p (.inr (.inl (.inr hp))))]
  | catchUnwind body rest ih1 ih2 =>
    intro cur vis w h
    simp only [Prog.ptrs, List.mem_append] at h
    simp only [Prog.trace, ih1 cur vis w (fun p hp => h p (.inl hp)), ih2 cur _ w (fun p hp => h p (.inr hp))]

theorem traceRoots_frame (hist : List (Prog × Fate)) : ∀ (vis w : List Ptr), (∀ p ∈ histPtrs hist, p ∉ w) →
    traceRoots hist (vis ++ w) = { traceRoots hist vis with visited := (traceRoots hist vis).visited ++ w } := by
  induction hist with
  | nil => intros; rfl
  | cons x rest ih =>
    intro vis w h
    obtain ⟨prog, fate⟩ := x
    simp only [histPtrs, List.flatMap_cons, List.mem_append] at h
    simp only [traceRoots, trace_frame prog [] vis w (fun p hp => h p (.inl hp)),
      ih _ w (fun p hp => h p (.inr hp))]

theorem trace_visited_subset (prog : Prog) : ∀ (cur : Path) (vis : List Ptr), ∀ p ∈ (prog.trace cur vis).visited, p ∈ vis ∨ p ∈ prog.ptrs := by
  induction prog with
  | done => intro cur vis p hp; exact .inl hp
  | panic => intro cur vis p hp; exact .inl hp
  | enter k n f body rest ih1 ih2 =>
    intro cur vis p hp
    simp only [Prog.trace] at hp
    simp only [Prog.ptrs, List.mem_append]
    split at hp
    · rcases ih1 _ _ _ hp with h | h <;> simp [h]
    · rcases ih2 _ _ _ hp with h | h
      · rcases ih1 _ _ _ h with h | h <;> simp [h]
      · simp [h]
  | enterUnique k n f body rest ih1 ih2 =>
    intro cur vis p hp
    simp only [Prog.trace] at hp
    simp only [Prog.ptrs, List.mem_append]
    split at hp
    · rcases ih1 _ _ _ hp with h | h <;> simp [h]
    · rcases ih2 _ _ _ hp with h | h
      · rcases ih1 _ _ _ h with h | h <;> simp [h]
      · simp [h]
  | enterShared k n ptr f body rs rn ih1 ih2 ih3 =>
    intro cur vis p hp
    simp only [Prog.trace] at hp
    simp only [Prog.ptrs, List.mem_append, List.mem_cons]
    have b : ∀ q, q ∈ (body.trace [] (ptr :: vis)).visited → q ∈ vis ∨ q = ptr ∨ q ∈ body.ptrs := by
      intro q hq
      rcases ih1 _ _ _ hq with h | h
      · rcases List.mem_cons.1 h with h | h <;> simp [h]
      · simp [h]
    split at hp
    · rcases ih3 _ _ _ hp with h | h <;> simp [h]
    · split at hp
      · rcases b _ hp with h | h | h <;> simp [h]
      · rcases ih2 _ _ _ hp with h | h
        · rcases b _ h with h | h | h <;> simp [h]
        · simp [h]
  | catchUnwind body rest ih1 ih2 =>
    intro cur vis p hp
    simp only [Prog.trace] at hp
    simp only [Prog.ptrs, List.mem_append]
    rcases ih2 _ _ _ hp with h | h
    · rcases ih1 _ _ _ h with h | h <;> simp [h]
    · simp [h]

theorem traceRoots_visited_subset (hist : List (Prog × Fate)) : ∀ (vis : List Ptr), ∀ p ∈ (traceRoots hist vis).visited,
    p ∈ vis ∨ p ∈ histPtrs hist := by
  induction hist with
  | nil => intro vis p hp; exact .inl hp
  | cons x rest ih =>
    intro vis p hp
    obtain ⟨prog, fate⟩ := x
    simp only [traceRoots] at hp
    simp only [histPtrs, List.flatMap_cons, List.mem_append]
    rcases ih _ _ hp with h | h
    · rcases trace_visited_subset _ _ _ _ h with h | h <;> simp [h]
    · right; right; exact h

theorem records_append_disjoint {h1 h2 : List (Prog × Fate)} (hd : ∀ p, p ∈ histPtrs h1 → p ∉ histPtrs h2) :
    records (h1 ++ h2) = records h1 ++ records h2 ∧
    (NoLeaks h1 → NoLeaks h2 → NoLeaks (h1 ++ h2)) := by
  have hv : ∀ p ∈ (traceRoots h1 []).visited, p ∈ histPtrs h1 := fun p hp =>
    (traceRoots_visited_subset h1 [] p hp).resolve_left (by simp)
  have hf := traceRoots_frame h2 [] (traceRoots h1 []).visited (fun p hp hw => hd p (hv p hw) hp)
  rw [List.nil_append] at hf
  constructor
  · unfold records
    rw [(traceRoots_append h1 h2 []).1, hf]
  · unfold NoLeaks
    intro a b
    rw [(traceRoots_append h1 h2 []).2.2, hf, a, b]

end Allocative
