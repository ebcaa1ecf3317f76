import Verif.Lemmas.Unwind
import Verif.Props.Core
import Verif.Props.Machine
/-
C57 (a caught overflow panic leaves a flame graph consistent).
-/
set_option linter.unusedSimpArgs false
namespace Allocative
open FlameGraph (Ok Built)

/-- Invariant of the flame graphs of a debug build. -/
theorem Caught.inv [Target] {g : FlameGraph} (h : Caught g) : g.Built (fun _ => True) ∧ g.nodeSize < Usize.modulus ∧ g.childrenSize < Usize.modulus := by
  induction h with
  | default => exact ⟨.default, Usize.modulus_pos, Usize.modulus_pos⟩
  | @addSelf g r n ctl hg hn e ih =>
    rw [Machine.addSelfU_eq] at e
    split at e
    · rename_i hf
      simp only [Prod.mk.injEq] at e
      obtain ⟨rfl, _⟩ := e
      refine ⟨.addSelf n ih.1, by rw [FlameGraph.addSelf_nodeSize]; exact hf, by rw [FlameGraph.addSelf_childrenSize]; exact ih.2.2⟩
    · simp only [Prod.mk.injEq] at e
      obtain ⟨rfl, _⟩ := e
      exact ih
  | @addChild g c r k ctl _ _ e ih1 ih2 =>
    rw [Machine.addChildU_eq ih1.1.ok ih2.1.ok] at e
    split at e
    · rename_i hf
      simp only [Prod.mk.injEq] at e
      obtain ⟨rfl, _⟩ := e
      exact ⟨.addChild k trivial ih1.1 ih2.1, ih1.2.1, hf⟩
    · simp only [Prod.mk.injEq] at e
      obtain ⟨rfl, _⟩ := e
      exact ih1
  | @add a b r ctl _ _ e ih1 ih2 =>
    rcases Machine.addU_eq ih1.1.ok ih2.1.ok ih1.2.2 with ⟨h1, h2, h3⟩ | ⟨_, h3⟩ | ⟨h1, l₁, k, c, l₂, h2, h3, h4, h5⟩
    · rw [h3, Prod.mk.injEq] at e
      obtain ⟨rfl, _⟩ := e
      refine ⟨.add ih1.1 ih2.1, by rw [FlameGraph.add_nodeSize]; exact h1, ?_⟩
      obtain ⟨ch, cs, n⟩ := b
      have := ih2.1.ok.sum
      rw [FlameGraph.add, FlameGraph.addAll_childrenSize, FlameGraph.addSelf_childrenSize]
      simp only [FlameGraph.mk_childrenSize, FlameGraph.mk_children] at *
      omega
    · rw [h3, Prod.mk.injEq] at e
      obtain ⟨rfl, _⟩ := e
      exact ih1
    · rw [h3, Prod.mk.injEq] at e
      obtain ⟨rfl, _⟩ := e
      refine ⟨.addAll (.addSelf _ ih1.1) fun x hx => ih2.1.sub x (by simp [h2, hx]), ?_, ?_⟩
      · rw [FlameGraph.addAll_nodeSize, FlameGraph.addSelf_nodeSize]; exact h1
      · rw [FlameGraph.addAll_childrenSize, FlameGraph.addSelf_childrenSize]; exact h5

theorem sumBelow_eq {Q} {g : FlameGraph} (h : Ok Q g) : g.sumBelow = g.childrenSize := by
  have := h.totalSize_eq
  simp only [FlameGraph.sumBelow, FlameGraph.selfAt_nil, Option.getD_some, ← this, FlameGraph.totalSize]
  omega

/-- C57. However many panics have been caught: the flame graph is one that calls without any panic could have made (so that everything
proved about those holds: text, order, sums), every self size fits, and `total_size` is the sum of all self sizes, or panics if that does not fit. -/
theorem C57_consistent [Target] (g : FlameGraph) (h : Caught g) :
    g.Built (fun _ => True) ∧ (∀ p n, g.selfAt p = some n → n < Usize.modulus) ∧ g.sumBelow < Usize.modulus ∧
    Machine.totalSize .on g = if g.sumNodes < Usize.modulus then .ok g.sumNodes else .error .arithOverflow := by
  obtain ⟨h1, h2, h3⟩ := h.inv
  refine ⟨h1, ?_, by rw [sumBelow_eq h1.ok]; exact h3, ?_⟩
  · intro p n hp
    cases p with
    | nil => rw [FlameGraph.selfAt_nil] at hp; cases hp; exact h2
    | cons k p =>
      rw [FlameGraph.selfAt_cons] at hp
      cases hk : HMap.get? k g.children with
      | none => rw [hk] at hp; cases hp
      | some c =>
        rw [hk] at hp
        have hm := HMap.get?_mem hk
        have hle := Machine.child_le_cs h1.ok hm
        have hok := h1.ok.sub _ hm
        have hmem : p ∈ c.allPaths := (FlameGraph.mem_allPaths c hok p).2 (by simp only [Option.bind] at hp; rw [hp]; rfl)
        have hs := FlameGraph.sumNodes_allPaths c hok
        have hl := Machine.le_sum_of_mem (f := fun p => (c.selfAt p).getD 0) hmem
        simp only [Option.bind] at hp
        simp only [hp, Option.getD_some] at hl
        rw [← hs, ← hok.totalSize_eq] at hl
        exact Nat.lt_of_le_of_lt (Nat.le_trans hl hle) h3
  · have := h1.ok.totalSize_eq
    simp only [FlameGraph.totalSize] at this
    rw [Machine.totalSize, Machine.addUsize, this]

/-- C57. `add_self` is all or nothing, and panics exactly if the sum does not fit. -/
theorem C57_add_self [Target] (g r : FlameGraph) (n : Nat) (ctl : Ctl) (e : Machine.addSelfU g n = (r, ctl)) :
    (ctl = .returned ↔ (g.selfAt []).getD 0 + n < Usize.modulus) ∧
    (ctl = .returned → r.selfAt [] = some ((g.selfAt []).getD 0 + n) ∧ ∀ k p, r.selfAt (k :: p) = g.selfAt (k :: p)) ∧
    (ctl = .unwinding → r = g) := by
  rw [Machine.addSelfU_eq] at e
  simp only [FlameGraph.selfAt_nil, Option.getD_some]
  split at e <;> rename_i hf <;>
  · simp only [Prod.mk.injEq] at e
    obtain ⟨rfl, rfl⟩ := e
    simp [hf, FlameGraph.selfAt_cons]

/-- C57. `add_child` is all or nothing: if it panics then nothing has changed.  It panics exactly if the sizes below the root do not fit. -/
theorem C57_add_child [Target] (a b r : FlameGraph) (k : Key) (ctl : Ctl) (ha : Caught a) (hb : Caught b)
    (e : Machine.addChildU a k b = (r, ctl)) :
    (ctl = .returned ↔ a.sumBelow + b.sumNodes < Usize.modulus) ∧
    (ctl = .returned → r.selfAt [] = a.selfAt [] ∧
      (∀ p, (r.selfAt (k :: p)).getD 0 = (a.selfAt (k :: p)).getD 0 + (b.selfAt p).getD 0) ∧
      (∀ k' p, k' ≠ k → r.selfAt (k' :: p) = a.selfAt (k' :: p))) ∧
    (ctl = .unwinding → r = a) := by
  obtain ⟨ha, -, -⟩ := ha.inv
  obtain ⟨hb, -, -⟩ := hb.inv
  rw [Machine.addChildU_eq ha.ok hb.ok] at e
  rw [sumBelow_eq ha.ok, ← hb.ok.totalSize_eq]
  split at e <;> rename_i hf
  · simp only [Prod.mk.injEq] at e
    obtain ⟨rfl, rfl⟩ := e
    refine ⟨by simp [hf], fun _ => ⟨rfl, fun p => ?_, fun k' p hk => ?_⟩, by simp⟩
    · rw [FlameGraph.selfAt_addChild hb.ok]
      simp only [if_true]
      cases a.selfAt (k :: p) <;> cases b.selfAt p <;> simp [FlameGraph.optAdd]
    · rw [FlameGraph.selfAt_addChild hb.ok]
      simp only [if_neg (Ne.symm hk)]
  · simp only [Prod.mk.injEq] at e
    obtain ⟨rfl, rfl⟩ := e
    exact ⟨by simp [hf], by simp, fun _ => rfl⟩

/-- C57. `add` panics exactly if the self sizes of the roots or the sizes below the roots do not fit.  If it panics then either nothing
has changed, or the self size of the root and some of the root's children have been merged completely (`kept`), the others not at all. -/
theorem C57_add [Target] (a b r : FlameGraph) (ctl : Ctl) (ha : Caught a) (hb : Caught b) (e : Machine.addU a b = (r, ctl)) :
    (ctl = .returned ↔ (a.selfAt []).getD 0 + (b.selfAt []).getD 0 < Usize.modulus ∧ a.sumBelow + b.sumBelow < Usize.modulus) ∧
    (ctl = .returned → ∀ p, (r.selfAt p).getD 0 = (a.selfAt p).getD 0 + (b.selfAt p).getD 0) ∧
    (ctl = .unwinding →
      (r = a ∧ Usize.modulus ≤ (a.selfAt []).getD 0 + (b.selfAt []).getD 0) ∨
      (∃ kept : List Key, (∃ k, k ∉ kept ∧ (b.selfAt [k]).isSome) ∧
        r.selfAt [] = some ((a.selfAt []).getD 0 + (b.selfAt []).getD 0) ∧
        (∀ k p, k ∈ kept → (r.selfAt (k :: p)).getD 0 = (a.selfAt (k :: p)).getD 0 + (b.selfAt (k :: p)).getD 0) ∧
        (∀ k p, k ∉ kept → r.selfAt (k :: p) = a.selfAt (k :: p)))) := by
  obtain ⟨ha, -, ha'⟩ := ha.inv
  obtain ⟨hb, -, -⟩ := hb.inv
  rw [sumBelow_eq ha.ok, sumBelow_eq hb.ok]
  simp only [FlameGraph.selfAt_nil, Option.getD_some]
  have hsum := hb.ok.sum
  rcases Machine.addU_eq ha.ok hb.ok ha' with ⟨h1, h2, h3⟩ | ⟨h1, h3⟩ | ⟨h1, l₁, k, c, l₂, h2, h3, h4, h5⟩
  · rw [h3, Prod.mk.injEq] at e
    obtain ⟨rfl, rfl⟩ := e
    exact ⟨by simp [h1, h2], fun _ p => (C21_add_pointwise a b ha hb).1 p, by simp⟩
  · rw [h3, Prod.mk.injEq] at e
    obtain ⟨rfl, rfl⟩ := e
    refine ⟨by simp; omega, by simp, fun _ => .inl ⟨rfl, h1⟩⟩
  · rw [h3, Prod.mk.injEq] at e
    obtain ⟨rfl, rfl⟩ := e
    have hn := hb.ok.nodup
    rw [h2] at hn
    simp only [List.map_append, List.map_cons, List.nodup_append, List.nodup_cons] at hn
    have hn1 : (l₁.map Prod.fst).Nodup := hn.1
    have hk : k ∉ l₁.map Prod.fst := fun hm => hn.2.2 k hm k (by simp) rfl
    rw [h2] at hsum
    simp only [List.map_append, List.map_cons, List.sum_append, List.sum_cons] at hsum
    refine ⟨by simp; omega, by simp, fun _ => .inr ⟨l₁.map Prod.fst, ⟨k, hk, ?_⟩, ?_, ?_, ?_⟩⟩
    · have hg : HMap.get? k b.children = some c := HMap.get?_of_mem hb.ok.nodup (by simp [h2])
      rw [FlameGraph.selfAt_cons, hg]; rfl
    · rw [FlameGraph.addAll_nodeSize, FlameGraph.addSelf_nodeSize]
    · intro k' p hm
      obtain ⟨⟨k'', c'⟩, hm', rfl⟩ := List.mem_map.1 hm
      have hg : HMap.get? k'' b.children = some c' := HMap.get?_of_mem hb.ok.nodup (by simp [h2, hm'])
      have hg1 : HMap.get? k'' l₁ = some c' := HMap.get?_of_mem hn1 hm'
      have hc : Ok (fun _ => True) c' := hb.ok.sub (k'', c') (by simp [h2, hm'])
      simp only
      rw [FlameGraph.selfAt_cons, FlameGraph.selfAt_cons, FlameGraph.selfAt_cons, FlameGraph.get?_addAll l₁ hn1, FlameGraph.addSelf_children,
        hg, hg1]
      cases h1 : HMap.get? k'' a.children with
      | none => simp
      | some e =>
        simp only [Option.bind]
        rw [FlameGraph.selfAt_add c' e hc]
        cases e.selfAt p <;> cases c'.selfAt p <;> simp [FlameGraph.optAdd]
    · intro k' p hm
      have hg1 : HMap.get? k' l₁ = none := HMap.get?_eq_none.2 hm
      rw [FlameGraph.selfAt_cons, FlameGraph.selfAt_cons, FlameGraph.get?_addAll l₁ hn1, FlameGraph.addSelf_children, hg1]
      cases HMap.get? k' a.children <;> rfl

/-! ### The two machine models agree -/

theorem Machine.upsertU_upsert {α : Type} {k : Key} {f : α → α × Ctl} {g : α → Except Panic α} {v : α}
    : ∀ {m : HMap α}, (∀ e, (k, e) ∈ m → ((∃ r, g e = .ok r ∧ f e = (r, .returned)) ∨ (∃ x r, g e = .error x ∧ f e = (r, .unwinding)))) →
      (∃ r, Machine.upsert k g v m = .ok r ∧ Machine.upsertU k f v m = (r, .returned)) ∨
      (∃ x r, Machine.upsert k g v m = .error x ∧ Machine.upsertU k f v m = (r, .unwinding))
  | [], _ => .inl ⟨_, rfl, rfl⟩
  | (k', v') :: rest, h => by
    simp only [Machine.upsert, Machine.upsertU]
    by_cases e : k' = k
    · subst e
      simp only [if_true]
      rcases h v' (by simp) with ⟨r, h1, h2⟩ | ⟨x, r, h1, h2⟩
      · exact .inl ⟨_, by rw [h1], by rw [h2]⟩
      · exact .inr ⟨_, _, by rw [h1], by rw [h2]⟩
    · simp only [if_neg e]
      rcases Machine.upsertU_upsert (k := k) (f := f) (g := g) (v := v) (m := rest) (fun e he => h e (by simp [he])) with ⟨r, h1, h2⟩ | ⟨x, r, h1, h2⟩
      · exact .inl ⟨_, by rw [h1], by rw [h2]⟩
      · exact .inr ⟨_, _, by rw [h1], by rw [h2]⟩

theorem Machine.addChildU_addChild [Target] {a b : FlameGraph} {k : Key}
    (ih : ∀ e, (∃ r, Machine.add .on e b = .ok r ∧ Machine.addU e b = (r, .returned)) ∨
      (∃ x r, Machine.add .on e b = .error x ∧ Machine.addU e b = (r, .unwinding))) :
    (∃ r, Machine.addChild .on a k b = .ok r ∧ Machine.addChildU a k b = (r, .returned)) ∨
      (∃ x r, Machine.addChild .on a k b = .error x ∧ Machine.addChildU a k b = (r, .unwinding)) := by
  simp only [Machine.addChild, Machine.addChildU]
  cases Machine.totalSize .on b with
  | error x => exact .inr ⟨_, _, rfl, rfl⟩
  | ok t =>
    simp only
    cases Machine.addUsize .on a.childrenSize t with
    | error x => exact .inr ⟨_, _, rfl, rfl⟩
    | ok cs =>
      simp only
      rcases Machine.upsertU_upsert (k := k) (f := fun e => Machine.addU e b) (g := fun e => Machine.add .on e b) (v := b) (m := a.children)
        (fun e _ => ih e) with ⟨r, h1, h2⟩ | ⟨x, r, h1, h2⟩
      · exact .inl ⟨_, by rw [h1], by rw [h2]⟩
      · exact .inr ⟨_, _, by rw [h1], by rw [h2]⟩

/-- C57. For all flame graphs: `add` returns here exactly if it returns in the model that drops the state of a panic, with the same result. -/
theorem C57_same_result [Target] (b a : FlameGraph) :
    (∃ r, Machine.add .on a b = .ok r ∧ Machine.addU a b = (r, .returned)) ∨
      (∃ x r, Machine.add .on a b = .error x ∧ Machine.addU a b = (r, .unwinding)) := by
  induction b using FlameGraph.induct generalizing a with
  | h ch cs n ih =>
    rw [Machine.add, Machine.addU]
    simp only [Machine.addSelf, Machine.addSelfU]
    cases Machine.addUsize .on a.nodeSize n with
    | error x => exact .inr ⟨_, _, rfl, rfl⟩
    | ok m =>
      simp only
      generalize FlameGraph.mk a.children a.childrenSize m = s
      have key : ∀ (l : List (Key × FlameGraph)), (∀ kc ∈ l, kc ∈ ch) → ∀ s : FlameGraph,
          (∃ r, Machine.addAll .on s l = .ok r ∧ Machine.addAllU s l = (r, .returned)) ∨
          (∃ x r, Machine.addAll .on s l = .error x ∧ Machine.addAllU s l = (r, .unwinding)) := by
        intro l
        induction l with
        | nil => intro _ s; rw [Machine.addAll, Machine.addAllU]; exact .inl ⟨_, rfl, rfl⟩
        | cons kc rest ihl =>
          obtain ⟨k, c⟩ := kc
          intro hl s
          rw [Machine.addAll_cons, Machine.addAllU_cons]
          rcases Machine.addChildU_addChild (a := s) (k := k) (fun e => ih (k, c) (hl _ (by simp)) e) with ⟨r, h1, h2⟩ | ⟨x, r, h1, h2⟩
          · rw [h1, h2]; exact ihl (fun x hx => hl x (by simp [hx])) r
          · rw [h1, h2]; exact .inr ⟨_, _, rfl, rfl⟩
      exact key ch (fun _ h => h) s

/-- `add_child` in the two models. -/
theorem Machine.addChildU_of_ok [Target] {a b r : FlameGraph} {k : Key} (h : Machine.addChild .on a k b = .ok r) :
    Machine.addChildU a k b = (r, .returned) := by
  rcases Machine.addChildU_addChild (a := a) (k := k) (C57_same_result b) with ⟨r', h1, h2⟩ | ⟨x, r', h1, _⟩
  · rw [h] at h1; cases h1; exact h2
  · rw [h] at h1; cases h1

theorem caught_foldlM [Target] {α : Type} {f : FlameGraph × Str → α → Except Panic (FlameGraph × Str)}
    (hf : ∀ acc x r, Caught acc.1 → f acc x = .ok r → Caught r.1) : ∀ (l : List α) (acc r : FlameGraph × Str), Caught acc.1 →
    l.foldlM f acc = .ok r → Caught r.1
  | [], acc, r, h, e => by
    have : acc = r := Except.ok.inj e
    exact this ▸ h
  | x :: l, acc, r, h, e => by
    rw [List.foldlM_cons] at e
    cases h1 : f acc x with
    | error y => rw [h1] at e; cases e
    | ok acc' =>
      rw [h1] at e
      exact caught_foldlM hf l acc' r (hf acc x acc' h h1) e

theorem Machine.writeFlameGraph_caught [Target] (ord : HashOrder TreeId) (trees : Trees) : ∀ (fuel id : Nat) (stack : List Str) (r : FlameGraph × Str),
    Machine.writeFlameGraph .on ord trees fuel id stack = .ok r → Caught r.1
  | 0, _, _, _, e => by cases e
  | fuel + 1, id, stack, r, e => by
    rw [Machine.writeFlameGraph] at e
    cases h1 : Trees.index trees id with
    | error x => simp only [h1] at e; cases e
    | ok tree =>
      simp only [h1] at e
      cases h2 : Machine.nodeWarning .on tree stack with
      | error x => simp only [h2] at e; cases e
      | ok w =>
        simp only [h2] at e
        refine caught_foldlM ?_ _ _ _ ?_ e
        · intro acc x r hacc hr
          cases h3 : Machine.writeFlameGraph .on ord trees fuel x.2 (stack ++ [x.1.deref]) with
          | error y => simp only [h3] at hr; cases hr
          | ok cw =>
            obtain ⟨child, cw⟩ := cw
            simp only [h3] at hr
            have hc := Machine.writeFlameGraph_caught ord trees fuel x.2 _ _ h3
            cases h4 : Machine.addChild .on acc.1 x.1 child with
            | error y => simp only [h4] at hr; cases hr
            | ok fg =>
              simp only [h4] at hr
              have : r = (fg, acc.2 ++ cw) := (Except.ok.inj hr).symm
              subst this
              exact .addChild x.1 hacc hc (Machine.addChildU_of_ok h4)
        · split
          · split
            · exact .default
            · refine .addSelf (g := .default) (n := Machine.asUsize tree.remSize) (ctl := .returned) .default ?_ ?_
              · have hlt : Machine.asUsize tree.remSize < Usize.modulus := by unfold Machine.asUsize; word_omega
                exact hlt
              · have hlt : Machine.asUsize tree.remSize < Usize.modulus := by unfold Machine.asUsize; word_omega
                have h0 : FlameGraph.default.nodeSize = 0 := rfl
                rw [Machine.addSelfU_eq, if_pos (by rw [h0]; omega)]
                simp only [FlameGraph.default, FlameGraph.addSelf, Nat.zero_add]
          · exact .default

/-- C57. What `finish` returns in a debug build is such a flame graph. -/
theorem C57_finish [Target] (hist : List (Prog × Fate)) (ord : HashOrder TreeId) (out : Builder.Output)
    (h : Machine.run .on ord hist = .ok out) : Caught out.flamegraph := by
  unfold Machine.run at h
  cases h1 : Machine.useRoots .on Builder.default hist with
  | error x => simp only [h1] at h; cases h
  | ok b =>
    simp only [h1, Machine.finish] at h
    split at h
    · cases h
    · split at h
      · cases h
      · split at h
        · cases h
        · cases h2 : Machine.updateSizes .on ord b.trees.length b.root b.trees with
          | error x => simp only [h2] at h; cases h
          | ok trees =>
            simp only [h2] at h
            cases h3 : Machine.writeFlameGraph .on ord trees trees.length b.root [] with
            | error x => simp only [h3] at h; cases h
            | ok r =>
              obtain ⟨fg, w⟩ := r
              simp only [h3] at h
              have := Machine.writeFlameGraph_caught ord trees _ _ _ _ h3
              cases h
              exact this

attribute [local instance] Target.x64 in
example : ∃ out, Machine.run .on (HashOrder.id _) Ex.hist1 = .ok out := ⟨_, rfl⟩

/-! A concrete case: `y` is merged, then `x` does not fit. -/

attribute [local instance] Target.x64 in
/-- `x` with almost all bytes. -/
def Ex.big : FlameGraph := (FlameGraph.default.addChild (Ex.k "x") (FlameGraph.default.addSelf (Usize.modulus - 6)))
/-- `y` and `x`, iterated in this order. -/
def Ex.twoMore : FlameGraph :=
  (FlameGraph.default.addChild (Ex.k "y") (FlameGraph.default.addSelf 3)).addChild (Ex.k "x") (FlameGraph.default.addSelf 5)

attribute [local instance] Target.x64 in
example : Caught Ex.big ∧ Caught Ex.twoMore ∧
    Machine.addU Ex.big Ex.twoMore = (Ex.big.addChild (Ex.k "y") (FlameGraph.default.addSelf 3), .unwinding) ∧
    Machine.addChildU Ex.big (Ex.k "x") Ex.big = (Ex.big, .unwinding) := by
  have h1 : Caught (FlameGraph.default.addSelf (Usize.modulus - 6)) := .addSelf (ctl := .returned) (n := Usize.modulus - 6) .default (by decide) rfl
  have h2 : Caught (FlameGraph.default.addSelf 3) := .addSelf (ctl := .returned) (n := 3) .default (by decide) rfl
  have h3 : Caught (FlameGraph.default.addSelf 5) := .addSelf (ctl := .returned) (n := 5) .default (by decide) rfl
  exact ⟨.addChild (ctl := .returned) (Ex.k "x") .default h1 rfl,
    .addChild (ctl := .returned) (Ex.k "x") (.addChild (ctl := .returned) (Ex.k "y") .default h2 rfl) h3 rfl, rfl, rfl⟩

/-! The theorems of this file with a concrete case of their hypotheses. -/

attribute [local instance] Target.x64 in
theorem Ex.big_caught : Caught Ex.big :=
  .addChild (ctl := .returned) (Ex.k "x") .default (.addSelf (ctl := .returned) (n := Usize.modulus - 6) .default (by decide) rfl) rfl
attribute [local instance] Target.x64 in
theorem Ex.twoMore_caught : Caught Ex.twoMore :=
  .addChild (ctl := .returned) (Ex.k "x") (.addChild (ctl := .returned) (Ex.k "y") .default (.addSelf (ctl := .returned) (n := 3) .default (by decide) rfl) rfl)
    (.addSelf (ctl := .returned) (n := 5) .default (by decide) rfl) rfl
attribute [local instance] Target.x64 in
/-- What is left of `big` when the panic of `big.add(twoMore)` is caught. -/
theorem Ex.left_caught : Caught (Ex.big.addChild (Ex.k "y") (FlameGraph.default.addSelf 3)) := .add (ctl := .unwinding) Ex.big_caught Ex.twoMore_caught rfl

attribute [local instance] Target.x64 in
example := C57_consistent _ Ex.left_caught
attribute [local instance] Target.x64 in
example := C57_add_self (FlameGraph.default.addSelf (Usize.modulus - 6)) _ 7 _ rfl
attribute [local instance] Target.x64 in
example := C57_add_child Ex.big Ex.big _ (Ex.k "x") .unwinding Ex.big_caught Ex.big_caught rfl
attribute [local instance] Target.x64 in
example := C57_add Ex.big Ex.twoMore _ .unwinding Ex.big_caught Ex.twoMore_caught rfl
attribute [local instance] Target.x64 in
example : ∃ out, Machine.run .on (HashOrder.id _) Ex.hist1 = .ok out ∧ Caught out.flamegraph := ⟨_, rfl, C57_finish Ex.hist1 (HashOrder.id _) _ rfl⟩

end Allocative
