import Verif.Spec.Stack
/-
Lemmas about `FlameGraph`: map operations, `add`, cached sizes, `write`.
-/
namespace Allocative

namespace HMap
variable {α : Type}

theorem get?_mem {k : Key} {v : α} : ∀ {m : HMap α}, get? k m = some v → (k, v) ∈ m
  | (k', v') :: rest, h => by
    simp only [get?] at h
    split at h
    · rename_i e; cases h; subst e; simp
    · exact List.mem_cons_of_mem _ (get?_mem h)

theorem get?_of_mem {k : Key} {v : α} : ∀ {m : HMap α}, (m.map Prod.fst).Nodup → (k, v) ∈ m → get? k m = some v
  | (k', v') :: rest, hn, h => by
    simp only [List.map_cons, List.nodup_cons, List.mem_map, not_exists, not_and] at hn
    simp only [get?]
    rcases List.mem_cons.1 h with e | h
    · cases e; simp
    · split
      · rename_i e; exact absurd e.symm (hn.1 _ h)
      · exact get?_of_mem hn.2 h

theorem get?_eq_none {k : Key} : ∀ {m : HMap α}, get? k m = none ↔ k ∉ m.map Prod.fst
  | [] => by simp [get?]
  | (k', v') :: rest => by
    simp only [get?, List.map_cons, List.mem_cons, not_or]
    split
    · rename_i e; simp [e]
    · rename_i e; rw [get?_eq_none]; simp [Ne.symm e]

theorem get?_upsert (k k' : Key) (f : α → α) (v : α) : ∀ (m : HMap α),
    get? k' (upsert k f v m) =
      if k = k' then some (match get? k m with | some e => f e | none => v) else get? k' m
  | [] => by simp only [upsert, get?]
  | (k₀, v₀) :: rest => by
    simp only [upsert]
    by_cases e : k₀ = k
    · subst e
      simp only [↓reduceIte, get?]
      split <;> simp_all
    · simp only [if_neg e, get?, get?_upsert k k' f v rest]
      by_cases e2 : k = k'
      · subst e2
        simp only [if_neg e, ↓reduceIte]
      · simp [if_neg e2]

theorem keys_upsert (k : Key) (f : α → α) (v : α) : ∀ (m : HMap α),
    (upsert k f v m).map Prod.fst = if k ∈ m.map Prod.fst then m.map Prod.fst else m.map Prod.fst ++ [k]
  | [] => by simp [upsert]
  | (k₀, v₀) :: rest => by
    simp only [upsert]
    by_cases e : k₀ = k
    · simp [e]
    · simp only [if_neg e, List.map_cons, keys_upsert k f v rest, List.mem_cons, Ne.symm e, false_or]
      split <;> simp

theorem nodup_upsert (k : Key) (f : α → α) (v : α) {m : HMap α} (hn : (m.map Prod.fst).Nodup) :
    ((upsert k f v m).map Prod.fst).Nodup := by
  rw [keys_upsert]
  split
  · exact hn
  · rename_i h
    rw [List.nodup_append]
    refine ⟨hn, by simp, ?_⟩
    intro a ha b hb e
    simp only [List.mem_singleton] at hb
    subst e; subst hb; exact h ha

theorem mem_upsert {k : Key} {f : α → α} {v : α} : ∀ {m : HMap α} {x : Key × α}, x ∈ upsert k f v m →
    x ∈ m ∨ x = (k, v) ∨ ∃ e, (k, e) ∈ m ∧ x = (k, f e)
  | [], x, h => by simp only [upsert, List.mem_singleton] at h; exact .inr (.inl h)
  | (k₀, v₀) :: rest, x, h => by
    simp only [upsert] at h
    split at h
    · rename_i e; subst e
      rcases List.mem_cons.1 h with h | h
      · exact .inr (.inr ⟨v₀, by simp, h⟩)
      · exact .inl (by simp [h])
    · rcases List.mem_cons.1 h with h | h
      · exact .inl (by simp [h])
      · rcases mem_upsert h with h | h | ⟨e, h, h'⟩
        · exact .inl (by simp [h])
        · exact .inr (.inl h)
        · exact .inr (.inr ⟨e, by simp [h], h'⟩)

/-- Sum over the values of a map after an upsert. -/
theorem sum_upsert (g : α → Nat) (k : Key) (f : α → α) (v : α) (hf : ∀ e, g (f e) = g e + g v) : ∀ (m : HMap α),
    ((upsert k f v m).map (fun x => g x.2)).sum = (m.map (fun x => g x.2)).sum + g v
  | [] => by simp [upsert]
  | (k₀, v₀) :: rest => by
    simp only [upsert]
    split
    · simp [hf]; omega
    · simp [sum_upsert g k f v hf rest]; omega

end HMap

namespace FlameGraph

/-- Induction over nested children lists. -/
theorem induct {P : FlameGraph → Prop} (h : ∀ ch cs n, (∀ kc ∈ ch, P kc.2) → P (.mk ch cs n)) : ∀ fg, P fg :=
  fun fg => FlameGraph.rec (motive_1 := P) (motive_2 := fun l => ∀ kc ∈ l, P kc.2) (motive_3 := fun kc => P kc.2)
    (fun ch cs n ih => h ch cs n ih) (by simp)
    (fun head tail hh ht kc hm => by
      rcases List.mem_cons.1 hm with rfl | hm
      · exact hh
      · exact ht kc hm)
    (fun _ _ ih => ih) fg

/-- Representation invariant: at every node the keys are distinct and satisfy `Q`, and the cached
children size is right. -/
inductive Ok (Q : Key → Prop) : FlameGraph → Prop
  | mk {ch cs n} : (ch.map Prod.fst).Nodup → (∀ kc ∈ ch, Q kc.1) → (∀ kc ∈ ch, Ok Q kc.2) →
      cs = (ch.map (fun kc => kc.2.totalSize)).sum → Ok Q (.mk ch cs n)

@[simp] theorem mk_children (ch cs n) : (mk ch cs n).children = ch := rfl
@[simp] theorem mk_childrenSize (ch cs n) : (mk ch cs n).childrenSize = cs := rfl
@[simp] theorem mk_nodeSize (ch cs n) : (mk ch cs n).nodeSize = n := rfl
@[simp] theorem addSelf_children (fg : FlameGraph) (n) : (fg.addSelf n).children = fg.children := by cases fg; rfl
@[simp] theorem addSelf_childrenSize (fg : FlameGraph) (n) : (fg.addSelf n).childrenSize = fg.childrenSize := by cases fg; rfl
@[simp] theorem addSelf_nodeSize (fg : FlameGraph) (n) : (fg.addSelf n).nodeSize = fg.nodeSize + n := by cases fg; rfl

theorem addAll_cons (self : FlameGraph) (k c rest) :
    addAll self ((k, c) :: rest) = addAll (self.addChild k c) rest := by rw [addAll]; rfl

theorem Ok.nodup {Q fg} (h : Ok Q fg) : (fg.children.map Prod.fst).Nodup := by cases h; assumption
theorem Ok.keys {Q fg} (h : Ok Q fg) : ∀ kc ∈ fg.children, Q kc.1 := by cases h; assumption
theorem Ok.sub {Q fg} (h : Ok Q fg) : ∀ kc ∈ fg.children, Ok Q kc.2 := by cases h; assumption
theorem Ok.sum {Q fg} (h : Ok Q fg) : fg.childrenSize = (fg.children.map (fun kc => kc.2.totalSize)).sum := by
  cases h; assumption

theorem Ok.default (Q) : Ok Q .default := .mk (by simp) (by simp) (by simp) (by simp)

theorem Ok.addSelf {Q fg} (h : Ok Q fg) (n : Nat) : Ok Q (fg.addSelf n) := by
  cases h with | mk a b c d => exact .mk a b c d

theorem addAll_nodeSize (self : FlameGraph) (l) : (addAll self l).nodeSize = self.nodeSize := by
  induction l generalizing self with
  | nil => rw [addAll]
  | cons kc rest ih => obtain ⟨k, c⟩ := kc; rw [addAll_cons, ih]; rfl

theorem addAll_childrenSize (self : FlameGraph) (l) :
    (addAll self l).childrenSize = self.childrenSize + (l.map (fun kc => kc.2.totalSize)).sum := by
  induction l generalizing self with
  | nil => rw [addAll]; simp
  | cons kc rest ih =>
    obtain ⟨k, c⟩ := kc
    rw [addAll_cons, ih]
    simp only [addChild, mk_childrenSize, List.map_cons, List.sum_cons]; omega

theorem add_nodeSize (a b : FlameGraph) : (add a b).nodeSize = a.nodeSize + b.nodeSize := by
  cases b; rw [add, addAll_nodeSize]; simp

theorem totalSize_add (a b : FlameGraph) (hb : b.childrenSize = (b.children.map (fun kc => kc.2.totalSize)).sum) :
    (add a b).totalSize = a.totalSize + b.totalSize := by
  cases b with
  | mk ch cs n =>
    simp only [mk_childrenSize, mk_children] at hb
    rw [add, totalSize, addAll_nodeSize, addAll_childrenSize]
    simp only [totalSize, addSelf_nodeSize, addSelf_childrenSize, mk_nodeSize, mk_childrenSize, hb]; omega

theorem Ok.addChild_aux {Q} {self c : FlameGraph} {k : Key} (hs : Ok Q self) (hc : Ok Q c) (hk : Q k)
    (hadd : ∀ e, Ok Q e → Ok Q (add e c)) : Ok Q (self.addChild k c) := by
  refine .mk (HMap.nodup_upsert _ _ _ hs.nodup) ?_ ?_ ?_
  · intro kc h
    rcases HMap.mem_upsert h with h | h | ⟨e, h, h'⟩
    · exact hs.keys _ h
    · subst h; exact hk
    · subst h'; exact hk
  · intro kc h
    rcases HMap.mem_upsert h with h | h | ⟨e, he, h'⟩
    · exact hs.sub _ h
    · subst h; exact hc
    · subst h'; exact hadd e (hs.sub (k, e) he)
  · rw [HMap.sum_upsert FlameGraph.totalSize _ _ _ (fun e => totalSize_add e c hc.sum), ← hs.sum]

theorem Ok.add {Q} {b : FlameGraph} : ∀ {a : FlameGraph}, Ok Q a → Ok Q b → Ok Q (add a b) := by
  induction b using FlameGraph.induct with
  | h ch cs n ih =>
    intro a ha hb
    rw [FlameGraph.add]
    have hk := hb.keys
    have hsub := hb.sub
    simp only [mk_children] at hk hsub
    have hs : Ok Q (a.addSelf n) := ha.addSelf n
    generalize a.addSelf n = s at hs
    clear hb ha
    induction ch generalizing s with
    | nil => rw [addAll]; exact hs
    | cons kc rest ihl =>
      obtain ⟨k, c⟩ := kc
      rw [addAll_cons]
      apply ihl (fun kc h => ih kc (by simp [h])) (fun kc h => hk kc (by simp [h])) (fun kc h => hsub kc (by simp [h]))
      have hc : Ok Q c := hsub (k, c) (by simp)
      exact Ok.addChild_aux hs hc (hk (k, c) (by simp)) (fun e he => ih (k, c) (by simp) he hc)

theorem Ok.addChild {Q} {self c : FlameGraph} {k : Key} (hs : Ok Q self) (hc : Ok Q c) (hk : Q k) :
    Ok Q (self.addChild k c) := Ok.addChild_aux hs hc hk (fun _ he => he.add hc)

theorem Built.ok {Q fg} (h : Built Q fg) : Ok Q fg := by
  induction h with
  | default => exact Ok.default Q
  | addSelf n _ ih => exact ih.addSelf n
  | addChild k hk _ _ ih1 ih2 => exact Ok.addChild ih1 ih2 hk
  | add _ _ ih1 ih2 => exact Ok.add ih1 ih2

theorem Ok.mono {Q Q' : Key → Prop} (hQ : ∀ k, Q k → Q' k) {fg} (h : Ok Q fg) : Ok Q' fg := by
  induction fg using FlameGraph.induct with
  | h ch cs n ih =>
    exact .mk h.nodup (fun kc hm => hQ _ (h.keys kc hm)) (fun kc hm => ih kc hm (h.sub kc hm)) h.sum

/-! ### Pointwise behaviour of `add` -/

theorem get?_addAll (ch : List (Key × FlameGraph)) (hn : (ch.map Prod.fst).Nodup) (s : FlameGraph) (k : Key) :
    HMap.get? k (addAll s ch).children =
      match HMap.get? k s.children, HMap.get? k ch with
      | some e, some c => some (add e c)
      | some e, none => some e
      | none, some c => some c
      | none, none => none := by
  induction ch generalizing s with
  | nil => rw [addAll]; simp only [HMap.get?]; cases HMap.get? k s.children <;> rfl
  | cons kc rest ih =>
    obtain ⟨k', c⟩ := kc
    simp only [List.map_cons, List.nodup_cons] at hn
    rw [addAll_cons, ih hn.2]
    simp only [addChild, mk_children, HMap.get?_upsert, HMap.get?]
    by_cases e : k' = k
    · subst e
      have : HMap.get? k' rest = none := HMap.get?_eq_none.2 hn.1
      simp only [↓reduceIte, this]
      cases HMap.get? k' s.children <;> rfl
    · simp only [if_neg e]

/-- Sum of two optional sizes: absent only if both are absent. -/
def optAdd : Option Nat → Option Nat → Option Nat
  | none, none => none
  | some a, none => some a
  | none, some b => some b
  | some a, some b => some (a + b)

theorem selfAt_nil (fg : FlameGraph) : fg.selfAt [] = some fg.nodeSize := rfl

theorem selfAt_cons (fg : FlameGraph) (k : Key) (p : Path) :
    fg.selfAt (k :: p) = (HMap.get? k fg.children).bind (fun c => c.selfAt p) := by
  simp only [selfAt, find?]
  cases HMap.get? k fg.children <;> rfl

theorem selfAt_add {Q} (b : FlameGraph) : ∀ (a : FlameGraph), Ok Q b → ∀ p, (add a b).selfAt p = optAdd (a.selfAt p) (b.selfAt p) := by
  induction b using FlameGraph.induct with
  | h ch cs n ih =>
    intro a hb p
    cases p with
    | nil => simp [selfAt_nil, add_nodeSize, optAdd]
    | cons k p =>
      rw [selfAt_cons, selfAt_cons, selfAt_cons, add, get?_addAll ch hb.nodup]
      simp only [addSelf_children, mk_children]
      cases h1 : HMap.get? k a.children with
      | none =>
        cases h2 : HMap.get? k ch with
        | none => rfl
        | some c => simp only [Option.bind]; cases c.selfAt p <;> rfl
      | some e =>
        cases h2 : HMap.get? k ch with
        | none => simp only [Option.bind]; cases e.selfAt p <;> rfl
        | some c => exact ih (k, c) (HMap.get?_mem h2) e (hb.sub (k, c) (HMap.get?_mem h2)) p

theorem selfAt_addChild {Q} {a c : FlameGraph} (hc : Ok Q c) (k : Key) (p : Path) :
    (a.addChild k c).selfAt p =
      match p with
      | [] => some a.nodeSize
      | k' :: p' => if k = k' then optAdd (a.selfAt p) (c.selfAt p') else a.selfAt p := by
  cases p with
  | nil => rfl
  | cons k' p' =>
    simp only [selfAt_cons, addChild, mk_children, HMap.get?_upsert]
    by_cases e : k = k'
    · subst e
      simp only [↓reduceIte]
      cases HMap.get? k a.children with
      | none => simp only [Option.bind]; cases c.selfAt p' <;> rfl
      | some e => exact selfAt_add c e hc p'
    · simp only [if_neg e]

/-! ### Sums -/

theorem sumNodesList_eq (l : List (Key × FlameGraph)) : sumNodesList l = (l.map (fun kc => kc.2.sumNodes)).sum := by
  induction l with
  | nil => rw [sumNodesList]; rfl
  | cons kc rest ih => obtain ⟨k, c⟩ := kc; rw [sumNodesList, ih]; simp

theorem Ok.totalSize_eq {Q} {fg : FlameGraph} (h : Ok Q fg) : fg.totalSize = fg.sumNodes := by
  induction fg using FlameGraph.induct with
  | h ch cs n ih =>
    rw [sumNodes, sumNodesList_eq, totalSize, h.sum]
    simp only [mk_nodeSize, mk_children]
    congr 2
    apply List.map_congr_left
    intro kc hm
    exact ih kc hm (h.sub kc hm)

/-! ### Text -/

mutual
/-- The printed (stack, size) pairs below a stack, in canonical order. -/
def entries : FlameGraph → Path → List (Path × Nat)
  | .mk ch _ n, stack =>
    (if n ≠ 0 then if stack ≠ [] then [(stack, n)] else [] else [])
      ++ (sortByKey (entriesChildren ch stack)).flatMap (fun ke => ke.2)
def entriesChildren : List (Key × FlameGraph) → Path → List (Key × List (Path × Nat))
  | [], _ => []
  | (key, child) :: rest, stack =>
    (key, entries child (stack ++ [key])) :: entriesChildren rest stack
end

theorem entriesChildren_eq (ch : List (Key × FlameGraph)) (stack : Path) :
    entriesChildren ch stack = ch.map (fun kc => (kc.1, entries kc.2 (stack ++ [kc.1]))) := by
  induction ch with
  | nil => rw [entriesChildren]; rfl
  | cons kc rest ih => obtain ⟨k, c⟩ := kc; rw [entriesChildren, ih]; rfl

theorem writeChildren_eq (ord) (ch : List (Key × FlameGraph)) (stack : List Str) :
    writeChildren ord ch stack = ch.map (fun kc => (kc.1, writeImpl ord kc.2 (stack ++ [kc.1.s]))) := by
  induction ch with
  | nil => rw [writeChildren]; rfl
  | cons kc rest ih => obtain ⟨k, c⟩ := kc; rw [writeChildren, ih]; rfl

theorem entries_mk (ch cs n) (stack : Path) : entries (.mk ch cs n) stack =
    (if n ≠ 0 then if stack ≠ [] then [(stack, n)] else [] else [])
      ++ (sortByKey ch).flatMap (fun kc => entries kc.2 (stack ++ [kc.1])) := by
  rw [entries, entriesChildren_eq, sortByKey_map (fun kc => entries kc.2 (stack ++ [kc.1])), List.flatMap_map]

theorem flatMap_perm_of {α β : Type} {f g : α → List β} {l : List α} (h : ∀ x ∈ l, (f x).Perm (g x)) :
    (l.flatMap f).Perm (l.flatMap g) := by
  induction l with
  | nil => exact .refl _
  | cons x rest ih =>
    simp only [List.flatMap_cons]
    exact (h x (by simp)).append (ih (fun y hy => h y (by simp [hy])))

/-- Without any assumption on keys or hash order, the text consists of the lines of the entries in
some order. -/
theorem writeImpl_perm (ord) (fg : FlameGraph) : ∀ (stack : Path), ∃ l : List (Path × Nat),
    l.Perm (entries fg stack) ∧ writeImpl ord fg stack.names = l.flatMap renderLine := by
  induction fg using FlameGraph.induct with
  | h ch cs n ih =>
    intro stack
    -- choose the orders of the children
    have hch : ∃ g : Key × FlameGraph → List (Path × Nat), ∀ kc ∈ ch, (g kc).Perm (entries kc.2 (stack ++ [kc.1])) ∧
        writeImpl ord kc.2 (stack.names ++ [kc.1.s]) = (g kc).flatMap renderLine := by
      have : ∀ kc : Key × FlameGraph, ∃ l : List (Path × Nat), kc ∈ ch → (l.Perm (entries kc.2 (stack ++ [kc.1])) ∧
        writeImpl ord kc.2 (stack.names ++ [kc.1.s]) = l.flatMap renderLine) := by
        intro kc
        by_cases hm : kc ∈ ch
        · obtain ⟨l, h1, h2⟩ := ih kc hm (stack ++ [kc.1])
          exact ⟨l, fun _ => ⟨h1, by simpa [Path.names] using h2⟩⟩
        · exact ⟨[], fun h => absurd h hm⟩
      exact ⟨fun kc => (this kc).choose, fun kc hm => (this kc).choose_spec hm⟩
    obtain ⟨g, hg⟩ := hch
    -- the order of the texts
    have hperm : (sortByKey (ord.run stack.names (writeChildren ord ch stack.names))).Perm
        (ch.map (fun kc => (kc.1, (g kc).flatMap renderLine))) := by
      refine (sortByKey_perm _).trans ((ord.perm _ _).trans ?_)
      rw [writeChildren_eq]
      apply List.Perm.of_eq
      apply List.map_congr_left
      intro kc hm
      rw [(hg kc hm).2]
    -- lift the order of the texts to the entries
    have lift : ∀ (lt : List (Key × Str)) (lc : List (Key × FlameGraph)),
        lt.Perm (lc.map (fun kc => (kc.1, (g kc).flatMap renderLine))) →
        ∃ lc' : List (Key × FlameGraph), lc'.Perm lc ∧ lt = lc'.map (fun kc => (kc.1, (g kc).flatMap renderLine)) := by
      intro lt lc h
      generalize hm : lc.map (fun kc => (kc.1, (g kc).flatMap renderLine)) = m at h
      induction h generalizing lc with
      | nil => exact ⟨lc, .refl _, hm.symm⟩
      | cons x _ ih =>
        cases lc with
        | nil => simp at hm
        | cons y ys =>
          simp only [List.map_cons, List.cons.injEq] at hm
          obtain ⟨lc', h1, h2⟩ := ih ys hm.2
          exact ⟨y :: lc', .cons y h1, by simp [hm.1, h2]⟩
      | swap x y l =>
        cases lc with
        | nil => simp at hm
        | cons a as =>
          cases as with
          | nil => simp at hm
          | cons b bs =>
            simp only [List.map_cons, List.cons.injEq] at hm
            exact ⟨b :: a :: bs, .swap .., by simp [hm]⟩
      | trans _ _ ih1 ih2 =>
        obtain ⟨lc', h1, h2⟩ := ih2 lc hm
        obtain ⟨lc'', h3, h4⟩ := ih1 lc' h2.symm
        exact ⟨lc'', h3.trans h1, h4⟩
    obtain ⟨lc', hp, he⟩ := lift _ _ hperm
    refine ⟨(if n ≠ 0 then if stack ≠ [] then [(stack, n)] else [] else []) ++ lc'.flatMap g, ?_, ?_⟩
    · rw [entries_mk]
      apply List.Perm.append_left
      refine (flatMap_perm_of fun x hx => (hg x (hp.mem_iff.1 hx)).1).trans ?_
      exact (hp.trans (sortByKey_perm ch).symm).flatMap_right _
    · rw [writeImpl, he, List.flatMap_append, List.flatMap_map]
      congr 1
      · have e : stack.names = [] ↔ stack = [] := by simp [Path.names]
        by_cases hn : n = 0
        · simp [hn]
        · by_cases hs : stack = []
          · simp [hn, hs, Path.names]
          · have := mt e.1 hs
            simp only [ne_eq, hn, not_false_eq_true, ↓reduceIte, this, hs]
            simp [renderLine]
      · rw [List.flatMap_assoc]

/-- Keys with distinct names: a sorted list is determined by its elements. -/
theorem sortByKey_eq_of_perm {α : Type} {l₁ l₂ : List (Key × α)} (hp : l₁.Perm l₂)
    (hd : (l₁.map (fun x => x.1.s)).Nodup) : sortByKey l₁ = sortByKey l₂ := by
  have strict : ∀ l : List (Key × α), (l.map (fun x => x.1.s)).Nodup →
      (sortByKey l).Pairwise (fun a b => Str.lt a.1.s b.1.s) := by
    intro l hl
    have h1 := sortByKey_sorted l
    have h2 : ((sortByKey l).map (fun x => x.1.s)).Nodup := ((sortByKey_perm l).map _).nodup_iff.2 hl
    have h3 : (sortByKey l).Pairwise (fun a b => a.1.s ≠ b.1.s) := List.pairwise_map.1 h2
    refine (List.Pairwise.and h1 h3).imp ?_
    intro a b ⟨h, h'⟩
    exact ((Key.le_iff' _ _).1 h).resolve_right h'
  refine pairwise_ext (r := fun a b => Str.lt a.1.s b.1.s) (fun a b h => Str.lt_asymm h) (strict l₁ hd)
    (strict l₂ ((hp.map _).nodup_iff.1 hd)) ?_
  intro x
  rw [(sortByKey_perm l₁).mem_iff, (sortByKey_perm l₂).mem_iff, hp.mem_iff]

theorem proper_inj {a b : Key} (ha : a.Proper) (hb : b.Proper) (h : a.s = b.s) : a = b := by
  rw [ha, hb, h]

theorem nodup_names {α : Type} {l : List (Key × α)} (hn : (l.map Prod.fst).Nodup) (hp : ∀ x ∈ l, x.1.Proper) :
    (l.map (fun x => x.1.s)).Nodup := by
  have : (l.map (fun x => x.1.s)) = (l.map Prod.fst).map Key.s := by simp
  rw [this]
  refine List.pairwise_map.2 ?_
  refine List.Pairwise.imp_of_mem ?_ hn
  intro a b ha hb hab e
  obtain ⟨x, hx, rfl⟩ := List.mem_map.1 ha
  obtain ⟨y, hy, rfl⟩ := List.mem_map.1 hb
  exact hab (proper_inj (hp x hx) (hp y hy) e)

/-- For proper keys the text is exactly the lines of `entries`, whatever the hash order. -/
theorem writeImpl_eq (ord) (fg : FlameGraph) (h : Ok Key.Proper fg) : ∀ (stack : Path),
    writeImpl ord fg stack.names = (entries fg stack).flatMap renderLine := by
  induction fg using FlameGraph.induct with
  | h ch cs n ih =>
    intro stack
    rw [writeImpl, entries_mk, List.flatMap_append]
    congr 1
    · have e : stack.names = [] ↔ stack = [] := by simp [Path.names]
      by_cases hn : n = 0
      · simp [hn]
      · by_cases hs : stack = []
        · simp [hn, hs, Path.names]
        · have := mt e.1 hs
          simp only [ne_eq, hn, not_false_eq_true, ↓reduceIte, this, hs]
          simp [renderLine]
    · have hwc : writeChildren ord ch stack.names =
          ch.map (fun kc => (kc.1, (entries kc.2 (stack ++ [kc.1])).flatMap renderLine)) := by
        rw [writeChildren_eq]
        apply List.map_congr_left
        intro kc hm
        have := ih kc hm (h.sub kc hm) (stack ++ [kc.1])
        simp only [Path.names, List.map_append, List.map_cons, List.map_nil] at this
        simp only [Path.names, this]
      have hd : ((writeChildren ord ch stack.names).map (fun x => x.1.s)).Nodup := by
        rw [hwc, List.map_map]
        exact nodup_names h.nodup h.keys
      rw [sortByKey_eq_of_perm ((ord.perm _ _)) ((((ord.perm _ _).map _).nodup_iff).2 hd), hwc,
        sortByKey_map (fun kc : Key × FlameGraph => (entries kc.2 (stack ++ [kc.1])).flatMap renderLine),
        List.flatMap_map, List.flatMap_assoc]

theorem write_eq (ord) (fg : FlameGraph) (h : Ok Key.Proper fg) :
    fg.write ord = (entries fg []).flatMap renderLine := writeImpl_eq ord fg h []

theorem mem_entries {Q} (fg : FlameGraph) (h : Ok Q fg) : ∀ (stack : Path) (p : Path) (n : Nat),
    (p, n) ∈ entries fg stack ↔ ∃ q, p = stack ++ q ∧ p ≠ [] ∧ n ≠ 0 ∧ fg.selfAt q = some n := by
  induction fg using FlameGraph.induct with
  | h ch cs m ih =>
    intro stack p n
    rw [entries_mk, List.mem_append, List.mem_flatMap]
    constructor
    · rintro (h1 | ⟨kc, hm, h1⟩)
      · by_cases hm : m = 0
        · simp [hm] at h1
        · by_cases hs : stack = []
          · simp [hs] at h1
          · simp [hm, hs] at h1
            exact ⟨[], by simp [h1, hs, hm, selfAt_nil]⟩
      · have hm := (sortByKey_perm ch).mem_iff.1 hm
        obtain ⟨q, e, e1, e2, e3⟩ := (ih kc hm (h.sub kc hm) _ _ _).1 h1
        refine ⟨kc.1 :: q, by simp [e], e1, e2, ?_⟩
        rw [selfAt_cons, HMap.get?_of_mem (v := kc.2) h.nodup hm]
        exact e3
    · rintro ⟨q, e, e1, e2, e3⟩
      cases q with
      | nil =>
        simp only [List.append_nil] at e; subst e
        simp only [selfAt_nil, mk_nodeSize, Option.some.injEq] at e3; subst e3
        exact .inl (by simp [e1, e2])
      | cons k q =>
        right
        rw [selfAt_cons] at e3
        cases hg : HMap.get? k ch with
        | none => simp [hg] at e3
        | some c =>
          have hm := HMap.get?_mem hg
          refine ⟨(k, c), (sortByKey_perm ch).mem_iff.2 hm, (ih _ hm (h.sub _ hm) _ _ _).2 ⟨q, by simp [e], e1, e2, ?_⟩⟩
          simpa [hg] using e3

/-- Every entry below a stack extends that stack. -/
theorem entries_prefix {Q} (fg : FlameGraph) (h : Ok Q fg) (stack : Path) {e : Path × Nat} (he : e ∈ entries fg stack) :
    ∃ q, e.1 = stack ++ q := by
  obtain ⟨q, h1, _⟩ := (mem_entries fg h stack e.1 e.2).1 he
  exact ⟨q, h1⟩

theorem flatMap_sorted {β γ : Type} (g : γ → Path) {l : List (Key × β)} (hl : SortedByKey l)
    (hd : (l.map (fun x => x.1.s)).Nodup) {stack : Path} {f : Key × β → List γ}
    (hpre : ∀ x ∈ l, ∀ e ∈ f x, ∃ q, g e = stack ++ x.1 :: q)
    (hs : ∀ x ∈ l, (f x).Pairwise (fun a b => pathLt (g a).names (g b).names)) :
    (l.flatMap f).Pairwise (fun a b => pathLt (g a).names (g b).names) := by
  induction l with
  | nil => simp
  | cons x rest ih =>
    have hl' := List.pairwise_cons.1 hl
    simp only [List.map_cons, List.nodup_cons] at hd
    rw [List.flatMap_cons, List.pairwise_append]
    refine ⟨hs x (by simp), ih hl'.2 hd.2 (fun y hy => hpre y (by simp [hy])) (fun y hy => hs y (by simp [hy])), ?_⟩
    intro a ha b hb
    obtain ⟨y, hy, hb⟩ := List.mem_flatMap.1 hb
    obtain ⟨q, hq⟩ := hpre x (by simp) a ha
    obtain ⟨q', hq'⟩ := hpre y (by simp [hy]) b hb
    have hlt : Str.lt x.1.s y.1.s := by
      refine ((Key.le_iff' _ _).1 (hl'.1 y hy)).resolve_right ?_
      intro e
      exact hd.1 (List.mem_map.2 ⟨y, hy, e.symm⟩)
    simp only [hq, hq', Path.names, List.map_append, List.map_cons]
    rw [pathLt_append_left]
    exact .inl hlt

theorem entries_sorted (fg : FlameGraph) (h : Ok Key.Proper fg) : ∀ stack : Path,
    (entries fg stack).Pairwise (fun a b => pathLt a.1.names b.1.names) := by
  induction fg using FlameGraph.induct with
  | h ch cs m ih =>
    intro stack
    have hmem : ∀ x ∈ sortByKey ch, x ∈ ch := fun x hx => (sortByKey_perm ch).mem_iff.1 hx
    have hpre : ∀ x ∈ sortByKey ch, ∀ e ∈ entries x.2 (stack ++ [x.1]), ∃ q, e.1 = stack ++ x.1 :: q := by
      intro x hx e he
      obtain ⟨q, hq⟩ := entries_prefix x.2 (h.sub x (hmem x hx)) _ he
      exact ⟨q, by simp [hq]⟩
    rw [entries_mk, List.pairwise_append]
    refine ⟨?_, ?_, ?_⟩
    · split
      · split <;> simp
      · simp
    · refine flatMap_sorted Prod.fst (stack := stack) (sortByKey_sorted ch) ?_ hpre (fun x hx => ih x (hmem x hx) (h.sub x (hmem x hx)) _)
      exact (((sortByKey_perm ch).map _).nodup_iff).2 (nodup_names h.nodup h.keys)
    · intro a ha b hb
      obtain ⟨y, hy, hb⟩ := List.mem_flatMap.1 hb
      obtain ⟨q, hq⟩ := hpre y hy b hb
      have ha : a.1 = stack := by
        split at ha
        · split at ha
          · simp at ha; rw [ha]
          · simp at ha
        · simp at ha
      rw [ha, hq]
      have := (pathLt_append_left stack.names (a := []) (b := (y.1 :: q).map Key.s)).2 trivial
      simpa [Path.names] using this

theorem entries_sum (fg : FlameGraph) : ∀ stack : Path,
    ((entries fg stack).map Prod.snd).sum = if stack = [] then fg.sumNodes - fg.nodeSize else fg.sumNodes := by
  induction fg using FlameGraph.induct with
  | h ch cs m ih =>
    intro stack
    rw [entries_mk, List.map_append, List.sum_append]
    have : (((sortByKey ch).flatMap fun kc => entries kc.2 (stack ++ [kc.1])).map Prod.snd).sum = sumNodesList ch := by
      rw [sumNodesList_eq]
      have hp := ((sortByKey_perm ch).flatMap_right (fun kc => entries kc.2 (stack ++ [kc.1]))).map Prod.snd
      rw [hp.sum_nat]
      clear hp
      induction ch with
      | nil => simp
      | cons x rest ihl =>
        simp only [List.flatMap_cons, List.map_append, List.sum_append, List.map_cons, List.sum_cons]
        rw [ihl (fun kc h => ih kc (by simp [h])), ih x (by simp)]
        simp
    rw [this, sumNodes]
    by_cases hs : stack = []
    · simp [hs]
    · by_cases hm : m = 0 <;> simp [hs, hm]

/-! ### Sums over all stacks -/

/-- All stacks of a flame graph (relative to the node). -/
def allPaths : FlameGraph → List Path
  | .mk ch _ _ => [] :: allPathsList ch
where
  allPathsList : List (Key × FlameGraph) → List Path
    | [] => []
    | (k, c) :: rest => (allPaths c).map (k :: ·) ++ allPathsList rest

theorem allPathsList_eq (ch : List (Key × FlameGraph)) :
    allPaths.allPathsList ch = ch.flatMap (fun kc => (allPaths kc.2).map (kc.1 :: ·)) := by
  induction ch with
  | nil => rw [allPaths.allPathsList]; rfl
  | cons kc rest ih => obtain ⟨k, c⟩ := kc; rw [allPaths.allPathsList, ih, List.flatMap_cons]

theorem mem_allPaths {Q} (fg : FlameGraph) (h : Ok Q fg) : ∀ p, p ∈ allPaths fg ↔ (fg.selfAt p).isSome := by
  induction fg using FlameGraph.induct with
  | h ch cs n ih =>
    intro p
    rw [allPaths, allPathsList_eq]
    cases p with
    | nil => simp [selfAt_nil]
    | cons k p =>
      rw [selfAt_cons]
      simp only [List.mem_cons, reduceCtorEq, false_or, List.mem_flatMap, List.mem_map, List.cons.injEq, mk_children]
      constructor
      · rintro ⟨kc, hm, q, hq, e1, e2⟩
        subst e1; subst e2
        have := HMap.get?_of_mem (v := kc.2) h.nodup hm
        simp only [mk_children] at this
        rw [this]
        exact (ih kc hm (h.sub kc hm) q).1 hq
      · intro hs
        cases hg : HMap.get? k ch with
        | none => simp [hg] at hs
        | some c =>
          have hm := HMap.get?_mem hg
          exact ⟨(k, c), hm, p, (ih (k, c) hm (h.sub _ hm) p).2 (by simpa [hg] using hs), rfl, rfl⟩

theorem nodup_allPaths {Q} (fg : FlameGraph) (h : Ok Q fg) : (allPaths fg).Nodup := by
  induction fg using FlameGraph.induct with
  | h ch cs n ih =>
    rw [allPaths, allPathsList_eq, List.nodup_cons]
    refine ⟨by simp, ?_⟩
    have hn := h.nodup
    simp only [mk_children] at hn
    have hsub : ∀ kc ∈ ch, (allPaths kc.2).Nodup := fun kc hm => ih kc hm (h.sub kc hm)
    clear ih h
    induction ch with
    | nil => simp
    | cons kc rest ihl =>
      simp only [List.map_cons, List.nodup_cons] at hn
      rw [List.flatMap_cons, List.nodup_append]
      refine ⟨?_, ihl hn.2 (fun x hx => hsub x (by simp [hx])), ?_⟩
      · have := hsub kc (by simp)
        exact List.Pairwise.map _ (fun a b hab e => hab (by simpa using e)) this
      · rintro a ha b hb rfl
        obtain ⟨q, _, e1⟩ := List.mem_map.1 ha
        obtain ⟨y, hy, hb⟩ := List.mem_flatMap.1 hb
        obtain ⟨q', _, e2⟩ := List.mem_map.1 hb
        rw [← e1] at e2
        simp only [List.cons.injEq] at e2
        exact hn.1 (List.mem_map.2 ⟨y, hy, e2.1⟩)

theorem sumNodes_allPaths {Q} (fg : FlameGraph) (h : Ok Q fg) :
    fg.sumNodes = ((allPaths fg).map (fun p => (fg.selfAt p).getD 0)).sum := by
  induction fg using FlameGraph.induct with
  | h ch cs n ih =>
    rw [sumNodes, sumNodesList_eq, allPaths, allPathsList_eq, List.map_cons, List.sum_cons]
    simp only [selfAt_nil, mk_nodeSize, Option.getD_some]
    congr 1
    have hn := h.nodup
    simp only [mk_children] at hn
    have key : ∀ l : List (Key × FlameGraph), (∀ x ∈ l, x ∈ ch) →
        (l.map fun kc => kc.2.sumNodes).sum =
          ((l.flatMap fun kc => (allPaths kc.2).map (kc.1 :: ·)).map fun p => ((mk ch cs n).selfAt p).getD 0).sum := by
      intro l
      induction l with
      | nil => intro _; rfl
      | cons kc rest ihl =>
        intro hl
        rw [List.flatMap_cons, List.map_append, List.sum_append, List.map_cons, List.sum_cons,
          ihl (fun x hx => hl x (by simp [hx]))]
        congr 1
        have hm := hl kc (by simp)
        rw [ih kc hm (h.sub kc hm), List.map_map]
        congr 1
        apply List.map_congr_left
        intro p _
        have := HMap.get?_of_mem (v := kc.2) hn hm
        simp only [Function.comp, selfAt_cons, mk_children, this, Option.bind_some]
    exact key ch (fun _ h => h)

theorem perm_of_nodup {α : Type} {l₁ l₂ : List α} (h₁ : l₁.Nodup) (h₂ : l₂.Nodup) (h : ∀ x, x ∈ l₁ ↔ x ∈ l₂) :
    l₁.Perm l₂ := by
  exact (List.perm_ext_iff_of_nodup h₁ h₂).2 h

theorem sum_filter_split {α : Type} (f : α → Nat) (q : α → Bool) (l : List α) :
    (l.map f).sum = ((l.filter q).map f).sum + ((l.filter (fun x => !q x)).map f).sum := by
  induction l with
  | nil => rfl
  | cons a l ih =>
    cases hq : q a <;> simp [hq, ih] <;> omega

theorem sum_eq_zero_of {α : Type} (f : α → Nat) (l : List α) (h : ∀ x ∈ l, f x = 0) : (l.map f).sum = 0 := by
  induction l with
  | nil => rfl
  | cons a l ih => simp [h a (by simp), ih (fun x hx => h x (by simp [hx]))]

/-- Sums over duplicate free lists agree if the function vanishes outside the smaller one. -/
theorem sum_eq_of_subset {α : Type} [DecidableEq α] (f : α → Nat) {A l : List α} (hA : A.Nodup) (hl : l.Nodup)
    (hsub : ∀ x ∈ A, x ∈ l) (hout : ∀ x, x ∉ A → f x = 0) : (A.map f).sum = (l.map f).sum := by
  rw [sum_filter_split f (fun x => decide (x ∈ A)) l,
    sum_eq_zero_of f (l.filter (fun x => !decide (x ∈ A))) (fun x hx => hout x (by simpa using (List.mem_filter.1 hx).2))]
  have : A.Perm (l.filter (fun x => decide (x ∈ A))) := by
    apply perm_of_nodup hA (hl.filter _)
    intro x
    simp only [List.mem_filter, decide_eq_true_eq]
    exact ⟨fun h => ⟨hsub x h, h⟩, fun h => h.2⟩
  rw [(this.map f).sum_nat, Nat.add_zero]

/-- The total size is the sum of the self sizes over any duplicate free list of all the stacks. -/
theorem Ok.totalSize_eq_sum {Q} {fg : FlameGraph} (h : Ok Q fg) {l : List Path} (hn : l.Nodup)
    (hl : ∀ p, (fg.selfAt p).isSome → p ∈ l) : fg.totalSize = (l.map (fun p => (fg.selfAt p).getD 0)).sum := by
  rw [h.totalSize_eq, sumNodes_allPaths fg h]
  apply sum_eq_of_subset _ (nodup_allPaths fg h) hn (fun p hp => hl p ((mem_allPaths fg h p).1 hp))
  intro p hp
  cases hs : fg.selfAt p with
  | none => rfl
  | some n => exact absurd ((mem_allPaths fg h p).2 (by simp [hs])) hp

theorem totalSize_congr {Q Q'} {a b : FlameGraph} (ha : Ok Q a) (hb : Ok Q' b) (h : ∀ p, a.selfAt p = b.selfAt p) :
    a.totalSize = b.totalSize := by
  rw [ha.totalSize_eq_sum (nodup_allPaths a ha) (fun p hp => (mem_allPaths a ha p).2 hp),
    hb.totalSize_eq_sum (nodup_allPaths a ha) (fun p hp => (mem_allPaths a ha p).2 (by rw [h]; exact hp))]
  simp only [h]

end FlameGraph
end Allocative
