import Verif.Spec.Unwind
import Verif.Lemmas.Machine
/-
Lemmas for C57: a nested `add` never overflows, the outer cached size overflows before.
-/
set_option linter.unusedSimpArgs false
namespace Allocative.Machine
open FlameGraph (Ok)

theorem upsertU_eq {α : Type} {k : Key} {f : α → α × Ctl} {g : α → α} {v : α} : ∀ {m : HMap α},
    (∀ e, (k, e) ∈ m → f e = (g e, .returned)) → upsertU k f v m = (HMap.upsert k g v m, .returned)
  | [], _ => rfl
  | (k', v') :: rest, h => by
    simp only [upsertU, HMap.upsert]
    by_cases e : k' = k
    · subst e
      simp only [if_true, h v' (by simp)]
    · simp only [if_neg e]
      rw [upsertU_eq (g := g) (fun e he => h e (by simp [he]))]

theorem addSelfU_eq [Target] (g : FlameGraph) (n : Nat) :
    addSelfU g n = if g.nodeSize + n < Usize.modulus then (g.addSelf n, .returned) else (g, .unwinding) := by
  unfold addSelfU
  by_cases h : g.nodeSize + n < Usize.modulus
  · rw [if_pos h, addUsize_fits h]; cases g; rfl
  · rw [if_neg h]
    cases e : addUsize .on g.nodeSize n with
    | error _ => rfl
    | ok t => unfold addUsize at e; rw [if_neg h] at e; cases e

theorem addAllU_cons [Target] (self : FlameGraph) (k b rest) : addAllU self ((k, b) :: rest) =
    match addChildU self k b with
    | (s, .unwinding) => (s, .unwinding)
    | (s, .returned) => addAllU s rest := by
  rw [addAllU]; simp only [addChildU]
  cases totalSize .on b with
  | error e => rfl
  | ok t =>
    simp only
    cases addUsize .on self.childrenSize t with
    | error e => rfl
    | ok cs =>
      simp only
      rcases upsertU k (fun e => addU e b) b self.children with ⟨s, _ | _⟩ <;> rfl

theorem child_le_cs {Q fg} (h : Ok Q fg) {kc : Key × FlameGraph} (hm : kc ∈ fg.children) : kc.2.totalSize ≤ fg.childrenSize := by
  have := le_sum_of_mem (f := fun kc : Key × FlameGraph => kc.2.totalSize) hm
  have := h.sum
  omega

theorem addChildU_aux [Target] {Q} {a b : FlameGraph} {k : Key} (ha : Ok Q a)
    (ih : ∀ e, Ok Q e → e.totalSize + b.totalSize < Usize.modulus → addU e b = (e.add b, .returned)) :
    addChildU a k b = if a.childrenSize + b.totalSize < Usize.modulus then (a.addChild k b, .returned) else (a, .unwinding) := by
  simp only [addChildU, totalSize]
  by_cases h : a.childrenSize + b.totalSize < Usize.modulus
  · have h1 : addUsize .on b.nodeSize b.childrenSize = .ok b.totalSize := by
      simp only [FlameGraph.totalSize] at *; exact addUsize_fits (by omega)
    rw [if_pos h, h1]
    simp only [addUsize_fits (c := .on) h]
    rw [upsertU_eq (g := fun e => e.add b)]
    · rfl
    · intro e he
      have := child_le_cs ha he
      refine ih e (ha.sub _ he) ?_
      simp only at this; omega
  · rw [if_neg h]
    cases h1 : addUsize .on b.nodeSize b.childrenSize with
    | error e => rfl
    | ok t =>
      have ht : t = b.totalSize := addUsize_on h1
      subst ht
      simp only
      cases h2 : addUsize .on a.childrenSize b.totalSize with
      | error e => rfl
      | ok t =>
        exfalso
        unfold addUsize at h2
        rw [if_neg h] at h2
        cases h2

theorem addU_fits [Target] {Q} (b : FlameGraph) : ∀ (a : FlameGraph), Ok Q a → Ok Q b → a.totalSize + b.totalSize < Usize.modulus →
    addU a b = (a.add b, .returned) := by
  induction b using FlameGraph.induct with
  | h ch cs n ih =>
    intro a ha hb h
    have hs := hb.sum
    simp only [FlameGraph.mk_childrenSize, FlameGraph.mk_children] at hs
    have key : ∀ (l : List (Key × FlameGraph)), (∀ kc ∈ l, kc ∈ ch) → ∀ s : FlameGraph, Ok Q s →
        s.childrenSize + (l.map (fun kc => kc.2.totalSize)).sum < Usize.modulus → addAllU s l = (s.addAll l, .returned) := by
      intro l
      induction l with
      | nil => intro _ s _ _; rw [addAllU, FlameGraph.addAll]
      | cons kc rest ihl =>
        obtain ⟨k, b⟩ := kc
        intro hl s hsok ht
        have hm : (k, b) ∈ ch := hl _ (by simp)
        simp only [List.map_cons, List.sum_cons] at ht
        have hbok : Ok Q b := hb.sub _ hm
        rw [addAllU_cons, addChildU_aux hsok (fun e he h => ih _ hm e he hbok h), if_pos (by simp only at ht ⊢; omega), FlameGraph.addAll_cons]
        simp only
        refine ihl (fun x hx => hl x (by simp [hx])) _ (hsok.addChild hbok (hb.keys _ hm)) ?_
        simp only [FlameGraph.addChild, FlameGraph.mk_childrenSize]; omega
    simp only [FlameGraph.totalSize, FlameGraph.mk_nodeSize, FlameGraph.mk_childrenSize] at h
    rw [addU, FlameGraph.add, addSelfU_eq, if_pos (by omega)]
    simp only
    exact key ch (fun _ h => h) _ (ha.addSelf n) (by rw [FlameGraph.addSelf_childrenSize]; omega)

/-- `add_child` is atomic. -/
theorem addChildU_eq [Target] {Q} {a b : FlameGraph} {k : Key} (ha : Ok Q a) (hb : Ok Q b) :
    addChildU a k b = if a.childrenSize + b.totalSize < Usize.modulus then (a.addChild k b, .returned) else (a, .unwinding) :=
  addChildU_aux ha fun e he h => addU_fits b e he hb h

/-- The loop of `add` stops at the first child that does not fit. -/
theorem addAllU_eq [Target] {Q} : ∀ (l : List (Key × FlameGraph)) (s : FlameGraph), Ok Q s → (∀ kc ∈ l, Q kc.1 ∧ Ok Q kc.2) →
    s.childrenSize < Usize.modulus →
    (s.childrenSize + (l.map (fun kc => kc.2.totalSize)).sum < Usize.modulus ∧ addAllU s l = (s.addAll l, .returned)) ∨
    (∃ l₁ k c l₂, l = l₁ ++ (k, c) :: l₂ ∧ addAllU s l = (s.addAll l₁, .unwinding) ∧
      Usize.modulus ≤ s.childrenSize + (l₁.map (fun kc => kc.2.totalSize)).sum + c.totalSize ∧
      s.childrenSize + (l₁.map (fun kc => kc.2.totalSize)).sum < Usize.modulus)
  | [], s, _, _, h => by
    left; rw [addAllU, FlameGraph.addAll]; simpa using h
  | (k, c) :: rest, s, hs, hl, h => by
    have hkc := hl (k, c) (by simp)
    rw [addAllU_cons, addChildU_eq hs hkc.2]
    by_cases hf : s.childrenSize + c.totalSize < Usize.modulus
    · rw [if_pos hf]
      have hcs : (s.addChild k c).childrenSize = s.childrenSize + c.totalSize := rfl
      simp only
      rcases addAllU_eq rest (s.addChild k c) (hs.addChild hkc.2 hkc.1) (fun x hx => hl x (by simp [hx])) (by rw [hcs]; exact hf) with
        ⟨h1, h2⟩ | ⟨l₁, k', c', l₂, h1, h2, h3, h4⟩
      · left
        rw [hcs] at h1
        refine ⟨by simp only [List.map_cons, List.sum_cons]; omega, by rw [h2, FlameGraph.addAll_cons]⟩
      · right
        rw [hcs] at h3 h4
        refine ⟨(k, c) :: l₁, k', c', l₂, by simp [h1], by rw [h2, FlameGraph.addAll_cons], ?_, ?_⟩ <;>
        · simp only [List.map_cons, List.sum_cons]; omega
    · rw [if_neg hf]
      right
      refine ⟨[], k, c, rest, rfl, by rw [FlameGraph.addAll], ?_, ?_⟩
      · simpa using Nat.le_of_not_lt hf
      · simpa using h

/-- Result of `add` in every case. -/
theorem addU_eq [Target] {Q} {a b : FlameGraph} (ha : Ok Q a) (hb : Ok Q b) (hs : a.childrenSize < Usize.modulus) :
    (a.nodeSize + b.nodeSize < Usize.modulus ∧ a.childrenSize + b.childrenSize < Usize.modulus ∧ addU a b = (a.add b, .returned)) ∨
    (Usize.modulus ≤ a.nodeSize + b.nodeSize ∧ addU a b = (a, .unwinding)) ∨
    (a.nodeSize + b.nodeSize < Usize.modulus ∧ ∃ l₁ k c l₂, b.children = l₁ ++ (k, c) :: l₂ ∧
      addU a b = ((a.addSelf b.nodeSize).addAll l₁, .unwinding) ∧
      Usize.modulus ≤ a.childrenSize + (l₁.map (fun kc => kc.2.totalSize)).sum + c.totalSize ∧
      a.childrenSize + (l₁.map (fun kc => kc.2.totalSize)).sum < Usize.modulus) := by
  have hsum := hb.sum
  obtain ⟨ch, cs, n⟩ := b
  simp only [FlameGraph.mk_nodeSize, FlameGraph.mk_children, FlameGraph.mk_childrenSize] at *
  rw [addU, addSelfU_eq, FlameGraph.add]
  by_cases h : a.nodeSize + n < Usize.modulus
  · rw [if_pos h]
    simp only
    rcases addAllU_eq ch (a.addSelf n) (ha.addSelf n) (fun kc hm => ⟨hb.keys kc hm, hb.sub kc hm⟩) (by rw [FlameGraph.addSelf_childrenSize]; exact hs) with
      ⟨h1, h2⟩ | ⟨l₁, k', c', l₂, h1, h2, h3, h4⟩
    · rw [FlameGraph.addSelf_childrenSize] at h1
      exact .inl ⟨h, by omega, h2⟩
    · rw [FlameGraph.addSelf_childrenSize] at h3 h4
      exact .inr (.inr ⟨h, l₁, k', c', l₂, h1, h2, h3, h4⟩)
  · rw [if_neg h]
    exact .inr (.inl ⟨by omega, rfl⟩)

end Allocative.Machine

namespace Allocative
open FlameGraph (Ok Built)

theorem FlameGraph.Built.addAll {Q} {a : FlameGraph} (ha : Built Q a) : ∀ {l : List (Key × FlameGraph)},
    (∀ kc ∈ l, Q kc.1 ∧ Built Q kc.2) → Built Q (a.addAll l) := by
  intro l
  induction l generalizing a with
  | nil => intro _; rw [FlameGraph.addAll]; exact ha
  | cons kc rest ih =>
    intro h
    obtain ⟨k, c⟩ := kc
    rw [FlameGraph.addAll_cons]
    have := h (k, c) (by simp)
    exact ih (.addChild k this.1 ha this.2) fun x hx => h x (by simp [hx])

theorem FlameGraph.Built.children_addChild {Q} {a c : FlameGraph} {k : Key} (hk : Q k) (hc : Built Q c)
    (h : ∀ kc ∈ a.children, Q kc.1 ∧ Built Q kc.2) : ∀ kc ∈ (a.addChild k c).children, Q kc.1 ∧ Built Q kc.2 := by
  intro kc hm
  rcases HMap.mem_upsert (m := a.children) hm with h1 | h1 | ⟨e, h1, h2⟩
  · exact h kc h1
  · subst h1; exact ⟨hk, hc⟩
  · subst h2; exact ⟨hk, .add (h _ h1).2 hc⟩

theorem FlameGraph.Built.children_addAll {Q} {a : FlameGraph} (h : ∀ kc ∈ a.children, Q kc.1 ∧ Built Q kc.2) :
    ∀ {l : List (Key × FlameGraph)}, (∀ kc ∈ l, Q kc.1 ∧ Built Q kc.2) → ∀ kc ∈ (a.addAll l).children, Q kc.1 ∧ Built Q kc.2 := by
  intro l
  induction l generalizing a with
  | nil => intro _; rw [FlameGraph.addAll]; exact h
  | cons kc rest ih =>
    intro hl
    obtain ⟨k, c⟩ := kc
    rw [FlameGraph.addAll_cons]
    have := hl (k, c) (by simp)
    exact ih (FlameGraph.Built.children_addChild this.1 this.2 h) fun x hx => hl x (by simp [hx])

/-- The children of a flame graph are flame graphs. -/
theorem FlameGraph.Built.sub {Q} {g : FlameGraph} (h : Built Q g) : ∀ kc ∈ g.children, Q kc.1 ∧ Built Q kc.2 := by
  induction h with
  | default => simp [FlameGraph.default]
  | addSelf n _ ih => rw [FlameGraph.addSelf_children]; exact ih
  | addChild k hk _ hc ih1 _ => exact FlameGraph.Built.children_addChild hk hc ih1
  | @add a b _ _ ih1 ih2 =>
    obtain ⟨ch, cs, n⟩ := b
    rw [FlameGraph.add]
    exact FlameGraph.Built.children_addAll (by rw [FlameGraph.addSelf_children]; exact ih1) ih2

end Allocative
