import Verif.Model.Machine
import Verif.Lemmas.Leak
/-
machine arithmetic: when nothing overflows the machine model and the unbounded model coincide; with overflow checks an overflow
acts like a leaked visitor.
-/
set_option linter.unusedSimpArgs false
namespace Allocative.Machine
open FlameGraph (Ok)

theorem addUsize_fits [Target] {c a b} (h : a + b < Usize.modulus) : addUsize c a b = .ok (a + b) := by simp only [addUsize, if_pos h]

theorem addUsize_on [Target] {a b r} (h : addUsize .on a b = .ok r) : r = a + b := by
  simp only [addUsize] at h
  split at h
  · cases h; rfl
  · cases h

theorem asIsize_of [Target] {n} (h : n < Usize.half) : asIsize n = n := by simp only [asIsize, if_pos h]

theorem saturatingSub_of [Target] {a b : Nat} (ha : a < Usize.half) (hb : b < Usize.half) : saturatingSub a b = (a : Int) - b := by
  simp only [saturatingSub]; omega

/-! ### FlameGraph -/

theorem upsert_eq {α : Type} {k : Key} {f : α → Except Panic α} {g : α → α} {v : α} : ∀ {m : HMap α},
    (∀ e, (k, e) ∈ m → f e = .ok (g e)) → upsert k f v m = .ok (HMap.upsert k g v m)
  | [], _ => rfl
  | (k', v') :: rest, h => by
    simp only [upsert, HMap.upsert]
    split
    · rename_i e; subst e; rw [h v' (by simp)]
    · rw [upsert_eq (g := g) (m := rest) (fun e he => h e (by simp [he]))]

theorem upsert_sound {α : Type} {k : Key} {f : α → Except Panic α} {g : α → α} {v : α} (hf : ∀ e r, f e = .ok r → r = g e) :
    ∀ {m r : HMap α}, upsert k f v m = .ok r → r = HMap.upsert k g v m
  | [], r, h => by simp only [upsert] at h; cases h; rfl
  | (k', v') :: rest, r, h => by
    simp only [upsert] at h
    simp only [HMap.upsert]
    split at h
    · rename_i e
      cases hv : f v' with
      | error _ => simp [hv] at h
      | ok r' => simp only [hv] at h; cases h; rw [if_pos e, hf _ _ hv]
    · rename_i e
      cases hv : upsert k f v rest with
      | error _ => simp [hv] at h
      | ok r' => simp only [hv] at h; cases h; rw [if_neg e, upsert_sound hf hv]

theorem totalSize_addChild (a c : FlameGraph) (k : Key) : (a.addChild k c).totalSize = a.totalSize + c.totalSize := by
  simp only [FlameGraph.addChild, FlameGraph.totalSize, FlameGraph.mk_nodeSize, FlameGraph.mk_childrenSize]; omega

theorem le_sum_of_mem {α : Type} {l : List α} {f : α → Nat} {x : α} (h : x ∈ l) : f x ≤ (l.map f).sum := by
  induction l with
  | nil => cases h
  | cons y l ih =>
    simp only [List.map_cons, List.sum_cons]
    rcases List.mem_cons.1 h with rfl | h
    · omega
    · have := ih h; omega

theorem Ok.child_le {Q fg} (h : Ok Q fg) {kc : Key × FlameGraph} (hm : kc ∈ fg.children) : kc.2.totalSize ≤ fg.totalSize := by
  have := le_sum_of_mem (f := fun kc : Key × FlameGraph => kc.2.totalSize) hm
  have := h.sum
  simp only [FlameGraph.totalSize] at *; omega

theorem addSelf_fits [Target] {c fg n} (h : (fg.addSelf n).totalSize < Usize.modulus) : addSelf c fg n = .ok (fg.addSelf n) := by
  cases fg
  simp only [FlameGraph.addSelf, FlameGraph.totalSize, FlameGraph.mk_nodeSize, FlameGraph.mk_childrenSize] at h
  simp only [addSelf, FlameGraph.mk_nodeSize, FlameGraph.addSelf]
  rw [addUsize_fits (by omega)]; rfl

theorem addChild_fits_aux [Target] {Q c} {a b : FlameGraph} {k : Key} (ha : Ok Q a)
    (ih : ∀ e, Ok Q e → (e.add b).totalSize < Usize.modulus → add c e b = .ok (e.add b))
    (hb : Ok Q b) (h : (a.addChild k b).totalSize < Usize.modulus) : addChild c a k b = .ok (a.addChild k b) := by
  rw [totalSize_addChild] at h
  have h1 : totalSize c b = .ok b.totalSize := by
    simp only [totalSize, FlameGraph.totalSize] at *; exact addUsize_fits (by omega)
  have h2 : addUsize c a.childrenSize b.totalSize = .ok (a.childrenSize + b.totalSize) :=
    addUsize_fits (by simp only [FlameGraph.totalSize] at *; omega)
  simp only [addChild, h1, h2]
  rw [upsert_eq (g := fun e => e.add b)]
  · rfl
  · intro e he
    refine ih e (ha.sub _ he) ?_
    rw [FlameGraph.totalSize_add _ _ hb.sum]
    have := Ok.child_le ha he
    simp only at this; omega

theorem addAll_cons [Target] (c) (self : FlameGraph) (k b rest) : addAll c self ((k, b) :: rest) =
    match addChild c self k b with
    | .error e => .error e
    | .ok s => addAll c s rest := by
  rw [addAll]; simp only [addChild]
  cases totalSize c b with
  | error e => rfl
  | ok t =>
    simp only
    cases addUsize c self.childrenSize t with
    | error e => rfl
    | ok cs =>
      simp only
      cases upsert k (fun e => add c e b) b self.children <;> rfl

/-- Exact when the result's total fits. -/
theorem add_fits [Target] {Q c} (b : FlameGraph) : ∀ (a : FlameGraph), Ok Q a → Ok Q b → (a.add b).totalSize < Usize.modulus →
    add c a b = .ok (a.add b) := by
  induction b using FlameGraph.induct with
  | h ch cs n ih =>
    intro a ha hb h
    rw [FlameGraph.totalSize_add _ _ hb.sum] at h
    have hs := hb.sum
    simp only [FlameGraph.mk_childrenSize, FlameGraph.mk_children] at hs
    have hself : (a.addSelf n).totalSize + cs = a.totalSize + (FlameGraph.mk ch cs n).totalSize := by
      cases a
      simp only [FlameGraph.addSelf, FlameGraph.totalSize, FlameGraph.mk_nodeSize, FlameGraph.mk_childrenSize]
      omega
    rw [add, FlameGraph.add, addSelf_fits (by omega)]
    simp only
    have key : ∀ (l : List (Key × FlameGraph)), (∀ kc ∈ l, kc ∈ ch) → ∀ s : FlameGraph, Ok Q s →
        s.totalSize + (l.map (fun kc => kc.2.totalSize)).sum < Usize.modulus → addAll c s l = .ok (s.addAll l) := by
      intro l
      induction l with
      | nil => intro _ s _ _; rw [addAll, FlameGraph.addAll]
      | cons kc rest ihl =>
        obtain ⟨k, b⟩ := kc
        intro hl s hsok ht
        have hm : (k, b) ∈ ch := hl _ (by simp)
        simp only [List.map_cons, List.sum_cons] at ht
        have hbok : Ok Q b := hb.sub _ hm
        rw [addAll_cons, addChild_fits_aux hsok (fun e he h => ih _ hm e he hbok h) hbok (by simp only [totalSize_addChild]; omega),
          FlameGraph.addAll_cons]
        exact ihl (fun x hx => hl x (by simp [hx])) _ (hsok.addChild hbok (hb.keys _ hm)) (by simp only [totalSize_addChild]; omega)
    exact key ch (fun _ h => h) _ (ha.addSelf n) (by omega)

theorem addChild_fits [Target] {Q c} {a b : FlameGraph} {k : Key} (ha : Ok Q a) (hb : Ok Q b) (h : (a.addChild k b).totalSize < Usize.modulus) :
    addChild c a k b = .ok (a.addChild k b) := addChild_fits_aux ha (fun e he h => add_fits b e he hb h) hb h

theorem totalSize_sound [Target] {fg n} (h : totalSize .on fg = .ok n) : n = fg.totalSize := addUsize_on h

theorem addSelf_sound [Target] {fg n r} (h : addSelf .on fg n = .ok r) : r = fg.addSelf n := by
  cases fg
  simp only [addSelf, FlameGraph.mk_nodeSize] at h
  split at h
  · cases h
  · rename_i e; cases h; rw [addUsize_on e]; rfl

theorem addChild_sound_aux [Target] {a b : FlameGraph} {k : Key} (ih : ∀ e r, add .on e b = .ok r → r = e.add b) {r}
    (h : addChild .on a k b = .ok r) : r = a.addChild k b := by
  simp only [addChild] at h
  split at h
  · cases h
  · rename_i t ht
    split at h
    · cases h
    · rename_i cs hcs
      split at h
      · cases h
      · rename_i ch hch
        cases h
        rw [upsert_sound ih hch, addUsize_on hcs, totalSize_sound ht]; rfl

/-- With overflow checks, what is returned is exact. -/
theorem add_sound [Target] (b : FlameGraph) : ∀ (a r : FlameGraph), add .on a b = .ok r → r = a.add b := by
  induction b using FlameGraph.induct with
  | h ch cs n ih =>
    intro a r h
    rw [add] at h
    rw [FlameGraph.add]
    split at h
    · cases h
    · rename_i s hs
      rw [← addSelf_sound hs]
      have key : ∀ (l : List (Key × FlameGraph)), (∀ kc ∈ l, kc ∈ ch) → ∀ s r : FlameGraph, addAll .on s l = .ok r →
          r = s.addAll l := by
        intro l
        induction l with
        | nil => intro _ s r h; rw [addAll] at h; rw [FlameGraph.addAll]; cases h; rfl
        | cons kc rest ihl =>
          obtain ⟨k, b⟩ := kc
          intro hl s r h
          rw [addAll_cons] at h
          split at h
          · cases h
          · rename_i s' hs'
            rw [FlameGraph.addAll_cons, ← addChild_sound_aux (fun e r => ih (k, b) (hl _ (by simp)) e r) hs']
            exact ihl (fun x hx => hl x (by simp [hx])) _ _ h
      exact key ch (fun _ h => h) s r h

theorem addChild_sound [Target] {a b : FlameGraph} {k : Key} {r} (h : addChild .on a k b = .ok r) : r = a.addChild k b :=
  addChild_sound_aux (add_sound b) h

/-! ### The enter functions -/

theorem set_same {α : Type} {l : List α} {i : Nat} {a : α} (h : l[i]? = some a) : l.set i a = l := by
  apply List.ext_getElem?
  intro j
  rw [List.getElem?_set]
  split
  · rename_i e; subst e
    have := (List.getElem?_eq_some_iff.1 h).1
    have h' := (List.getElem?_eq_some_iff.1 h).2
    simp [this, h']
  · rfl

theorem downAndAdd_cases [Target] {b : Builder} {recs paths p} (h : Rep b.trees recs paths)
    (hst : StackAt paths b.current.stack b.current.tree p) (k : Key) (n : Nat) (f : TreeData → TreeData) :
    (sizeAt recs (p ++ [k]) + n < Usize.modulus → ∀ c, downAndAdd c b k n f =
      match b.downAndAdd k n f with
      | .error e => .error e
      | .ok b => .ok (b, .returned)) ∧
    (¬ sizeAt recs (p ++ [k]) + n < Usize.modulus → downAndAdd .on b k n f =
      match b.downAndAdd k 0 id with
      | .error e => .error e
      | .ok b => .ok (b, .unwinding)) := by
  obtain ⟨trees', t, paths', hd, hrep, _, ht, _⟩ := h.down hst k
  obtain ⟨d, hdd⟩ := hrep.get ht
  have hsz := hrep.size ht hdd
  simp only [downAndAdd, Builder.downAndAdd, hd, Trees.index, hdd, Trees.update, hsz]
  constructor
  · intro hlt c
    rw [addUsize_fits hlt, ← hsz]
  · intro hge
    have : addUsize .on (sizeAt recs (p ++ [k])) n = .error .arithOverflow := by simp only [addUsize, if_neg hge]
    rw [this]
    have : (id { d with size := sizeAt recs (p ++ [k]) + 0 } : TreeData) = d := by rw [← hsz]; rfl
    rw [this, set_same hdd]

/-- No size in the arena overflows. -/
def Fits [Target] (b : Builder) : Prop := ∀ d ∈ b.trees, d.size < Usize.modulus

theorem Fits.default [Target] : Fits Builder.default := by
  intro d hd
  simp only [Builder.default, Trees.newTree, List.nil_append, List.mem_singleton] at hd
  subst hd
  exact Usize.modulus_pos

theorem down_trees {trees st k trees' st'} (h : down trees st k = .ok (trees', st')) {P : Nat → Prop} (h0 : P 0)
    (hp : ∀ d ∈ trees, P d.size) : ∀ d ∈ trees', P d.size := by
  simp only [down, Trees.index, Trees.update] at h
  cases hd : trees[st.tree]? with
  | none => simp [hd] at h
  | some d =>
    simp only [hd] at h
    cases hg : HMap.get? k d.children with
    | some ch => simp only [hg] at h; cases h; exact hp
    | none =>
      simp only [hg] at h
      rw [if_pos (by simp [Trees.newTree])] at h
      cases h
      intro x hx
      rcases List.mem_append.1 hx with hx | hx
      · rcases List.mem_or_eq_of_mem_set hx with hx | rfl
        · exact hp x hx
        · exact hp d (List.mem_of_getElem? hd)
      · simp at hx; subst hx; exact h0

theorem downAndAdd_inv [Target] {b : Builder} {k n f b' ctl} (hf : ∀ d, (f d).size = d.size)
    (h : downAndAdd .on b k n f = .ok (b', ctl)) (hb : Fits b) : Fits b' := by
  simp only [downAndAdd] at h
  split at h
  · cases h
  · rename_i trees st hd
    have ht := down_trees hd (P := fun n => n < Usize.modulus) Usize.modulus_pos hb
    split at h
    · cases h
    · rename_i d hdd
      split at h
      · cases h; exact ht
      · rename_i s hs
        simp only [Trees.update] at h
        simp only [Trees.index] at hdd
        split at hdd
        · rename_i d' hd'
          cases hdd
          simp only [hd'] at h
          cases h
          intro x hx
          rcases List.mem_or_eq_of_mem_set hx with hx | rfl
          · exact ht x hx
          · rw [hf]
            simp only [addUsize] at hs
            split at hs
            · cases hs; assumption
            · cases hs
        · cases hdd

theorem exitImpl_trees {b b' : Builder} (h : b.exitImpl = .ok b') : b'.trees = b.trees := by
  simp only [Builder.exitImpl] at h
  split at h
  · cases h
  · split at h
    · cases h; rfl
    · split at h
      · split at h
        · cases h; rfl
        · cases h
      · cases h; rfl

theorem finishChild_trees {b b' : Builder} {kind f ctl} (h : Builder.visitorImpl.finishChild kind f ctl b = .ok b') : b'.trees = b.trees := by
  by_cases hf : f.leaks ctl = 0
  · rw [finishChild_closes _ _ hf, builder_exitImpl] at h; exact exitImpl_trees h
  · have : Builder.visitorImpl.finishChild kind f ctl b = .ok b := by
      cases f <;> cases ctl <;> first | rfl | (simp [Fate.leaks] at hf)
    rw [this] at h; cases h; rfl

theorem exec_inv [Target] (prog : Prog) : ∀ kind b b' ctl, exec .on prog kind b = .ok (b', ctl) → Fits b → Fits b' := by
  induction prog with
  | done => intro kind b b' ctl h hb; simp only [exec] at h; cases h; exact hb
  | panic => intro kind b b' ctl h hb; simp only [exec] at h; cases h; exact hb
  | enter k n f body rest ih1 ih2 =>
    intro kind b b' ctl h hb
    simp only [exec, enterInlineImpl] at h
    split at h
    · cases h
    · rename_i e; cases h; exact downAndAdd_inv (by simp) e hb
    · rename_i b1 e
      have h1 := downAndAdd_inv (by simp) e hb
      split at h
      · cases h
      · rename_i b2 c2 e2
        have h2 := ih1 _ _ _ _ e2 h1
        split at h
        · cases h
        · rename_i b3 e3
          have h3 : Fits b3 := by intro d hd; rw [finishChild_trees e3] at hd; exact h2 d hd
          split at h
          · cases h; exact h3
          · exact ih2 _ _ _ _ h h3
  | enterUnique k n f body rest ih1 ih2 =>
    intro kind b b' ctl h hb
    simp only [exec, enterUniqueImpl] at h
    split at h
    · cases h
    · rename_i e; cases h; exact downAndAdd_inv (by simp) e hb
    · rename_i b1 e
      have h1 := downAndAdd_inv (by simp) e hb
      split at h
      · cases h
      · rename_i b2 c2 e2
        have h2 := ih1 _ _ _ _ e2 h1
        split at h
        · cases h
        · rename_i b3 e3
          have h3 : Fits b3 := by intro d hd; rw [finishChild_trees e3] at hd; exact h2 d hd
          split at h
          · cases h; exact h3
          · exact ih2 _ _ _ _ h h3
  | enterShared k n ptr f body rs rn ih1 ih2 ih3 =>
    intro kind b b' ctl h hb
    simp only [exec, enterSharedImpl] at h
    cases e : downAndAdd .on b k n id with
    | error _ => simp [e] at h
    | ok r =>
      obtain ⟨b1, c1⟩ := r
      have h1 := downAndAdd_inv (by simp) e hb
      cases c1 with
      | unwinding => simp only [e] at h; cases h; exact h1
      | returned =>
        simp only [e] at h
        by_cases hv : ptr ∈ b1.visitedShared
        · simp only [if_pos hv] at h
          cases ex : b1.exitImpl with
          | error _ => simp [ex] at h
          | ok b2 =>
            simp only [ex] at h
            exact ih3 _ _ _ _ h (by intro d hd; rw [exitImpl_trees ex] at hd; exact h1 d hd)
        · simp only [if_neg hv] at h
          split at h
          · cases h
          · rename_i b2 c2 e2
            have h2 := ih1 _ _ _ _ e2 h1
            split at h
            · cases h
            · rename_i b3 e3
              have h3 : Fits b3 := by intro d hd; rw [finishChild_trees e3] at hd; exact h2 d hd
              split at h
              · cases h; exact h3
              · exact ih2 _ _ _ _ h h3
  | catchUnwind body rest ih1 ih2 =>
    intro kind b b' ctl h hb
    simp only [exec] at h
    split at h
    · cases h
    · rename_i b1 c1 e1
      exact ih2 _ _ _ _ h (ih1 _ _ _ _ e1 hb)

theorem useRoot_inv [Target] {b prog fate b' ctl} (h : useRoot .on b prog fate = .ok (b', ctl)) (hb : Fits b) : Fits b' := by
  simp only [useRoot] at h
  split at h
  · cases h
  · rename_i b1 e1
    have h1 : Fits b1 := by
      simp only [Builder.rootVisitor] at e1
      split at e1
      · cases e1
      · cases e1; exact hb
    split at h
    · cases h
    · rename_i b2 c2 e2
      have h2 := exec_inv _ _ _ _ _ e2 h1
      split at h
      · cases h
      · rename_i b3 e3
        cases h
        intro d hd; rw [finishChild_trees e3] at hd; exact h2 d hd

/-! ### Overflow acts as a leak -/

/-- With overflow checks, a visit does what the unbounded builder does, for the same program or for one that leaks a visitor. -/
theorem exec_on [Target] (prog : Prog) : ∀ (kind : NodeKind) (b : Builder) (n : Nat), Live b (n + 1) →
    ∃ prog', exec .on prog kind b = Allocative.exec Builder.visitorImpl prog' kind b ∧
      (prog' = prog ∨ ∀ cur, 0 < (prog'.trace cur b.visitedShared).leaked) := by
  have leaky : ∀ (k : Key) (m : Nat) (f : TreeData → TreeData) (kind : NodeKind) (b : Builder) (n : Nat) (recs paths p), Live b (n + 1) →
      Rep b.trees recs paths → StackAt paths b.current.stack b.current.tree p → ¬ sizeAt recs (p ++ [k]) + m < Usize.modulus →
      ∃ b1, downAndAdd .on b k m f = .ok (b1, .unwinding) ∧
        Allocative.exec Builder.visitorImpl (.enter k 0 .leak .panic .done) kind b = .ok (b1, .unwinding) := by
    intro k m f kind b n recs paths p h hrep hst hov
    obtain ⟨b1, e1, _⟩ := h.enter k 0 false id (by simp)
    refine ⟨b1, ?_, ?_⟩
    · rw [(downAndAdd_cases hrep hst k m f).2 hov, e1]
    · simp only [Allocative.exec, vi_inline, Builder.enterInlineImpl, e1, VisitorImpl.finishChild]
  induction prog with
  | done => intro kind b n h; exact ⟨.done, rfl, .inl rfl⟩
  | panic => intro kind b n h; exact ⟨.panic, rfl, .inl rfl⟩
  | enter k m f body rest ih1 ih2 =>
    intro kind b n h
    obtain ⟨recs, paths, hrep, ⟨p, hst⟩, _⟩ := h.wf
    by_cases hov : sizeAt recs (p ++ [k]) + m < Usize.modulus
    · obtain ⟨b1, e1, h1, v1, _⟩ := h.enter k m false id (by simp)
      obtain ⟨body', eb, hb⟩ := ih1 .inline b1 (n + 1) h1
      obtain ⟨b2, e2, h2, v2⟩ := exec_live body' .inline b1 (n + 1) [] h1
      generalize hL : (body'.trace [] b1.visitedShared).leaked = L at h2
      generalize hC : (body'.trace [] b1.visitedShared).ctl = C at e2
      have hany : ∀ cur, (body'.trace cur b1.visitedShared).ctl = C ∧ (body'.trace cur b1.visitedShared).visited = b2.visitedShared := by
        intro cur
        obtain ⟨b2', e2', _, v2'⟩ := exec_live body' .inline b1 (n + 1) cur h1
        rw [e2] at e2'
        have := Except.ok.inj e2'
        rw [Prod.mk.injEq] at this
        exact ⟨this.2.symm, by rw [← v2', this.1]⟩
      obtain ⟨b3, e3, h3, v3⟩ := Live.finishChild (n := n + L) (by rw [show n + L + 2 = n + 1 + 1 + L by omega]; exact h2) .inline f C
      have emach : downAndAdd .on b k m id = .ok (b1, .returned) := by
        rw [(downAndAdd_cases hrep hst k m id).1 hov, e1]
      have lead : ∀ prog'', (∀ cur, 0 < (body'.trace cur b1.visitedShared).leaked) →
          ∀ cur, 0 < ((Prog.enter k m f body' prog'').trace cur b.visitedShared).leaked := by
        intro prog'' hl cur
        have := hl (cur ++ [k])
        rw [v1] at this
        simp only [Prog.trace]
        split <;> simp only <;> omega
      cases C with
      | unwinding =>
        refine ⟨.enter k m f body' rest, ?_, ?_⟩
        · simp only [exec, enterInlineImpl, emach, eb, Allocative.exec, vi_inline, Builder.enterInlineImpl, e1, e2, e3]
        · rcases hb with rfl | hb
          · exact .inl rfl
          · exact .inr (lead _ hb)
      | returned =>
        obtain ⟨rest', er, hr⟩ := ih2 kind b3 (n + L + f.leaks .returned) (by
          rw [show n + L + f.leaks .returned + 1 = n + L + 1 + f.leaks .returned by omega]; exact h3)
        refine ⟨.enter k m f body' rest', ?_, ?_⟩
        · simp only [exec, enterInlineImpl, emach, eb, Allocative.exec, vi_inline, Builder.enterInlineImpl, e1, e2, e3, er]
        · rcases hb with rfl | hb
          · rcases hr with rfl | hr
            · exact .inl rfl
            · right
              intro cur
              have := hr cur
              rw [v3] at this
              obtain ⟨hc, hv⟩ := hany (cur ++ [k])
              rw [v1] at hc hv
              simp only [Prog.trace, hc, hv]
              omega
          · exact .inr (lead _ hb)
    · obtain ⟨b1, e1, e2⟩ := leaky k m id kind b n recs paths p h hrep hst hov
      exact ⟨_, by rw [e2]; simp only [exec, enterInlineImpl, e1], .inr (fun cur => by simp [Prog.trace, Fate.leaks])⟩
  | enterUnique k m f body rest ih1 ih2 =>
    intro kind b n h
    obtain ⟨recs, paths, hrep, ⟨p, hst⟩, _⟩ := h.wf
    by_cases hov : sizeAt recs (p ++ [k]) + m < Usize.modulus
    · obtain ⟨b1, e1, h1, v1, _⟩ := h.enter k m true (fun d => { d with unique := true }) (by simp)
      obtain ⟨body', eb, hb⟩ := ih1 .unique b1 (n + 1) h1
      obtain ⟨b2, e2, h2, v2⟩ := exec_live body' .unique b1 (n + 1) [] h1
      generalize hL : (body'.trace [] b1.visitedShared).leaked = L at h2
      generalize hC : (body'.trace [] b1.visitedShared).ctl = C at e2
      have hany : ∀ cur, (body'.trace cur b1.visitedShared).ctl = C ∧ (body'.trace cur b1.visitedShared).visited = b2.visitedShared := by
        intro cur
        obtain ⟨b2', e2', _, v2'⟩ := exec_live body' .unique b1 (n + 1) cur h1
        rw [e2] at e2'
        have := Except.ok.inj e2'
        rw [Prod.mk.injEq] at this
        exact ⟨this.2.symm, by rw [← v2', this.1]⟩
      obtain ⟨b3, e3, h3, v3⟩ := Live.finishChild (n := n + L) (by rw [show n + L + 2 = n + 1 + 1 + L by omega]; exact h2) .unique f C
      have emach : downAndAdd .on b k m (fun d => { d with unique := true }) = .ok (b1, .returned) := by
        rw [(downAndAdd_cases hrep hst k m _).1 hov, e1]
      have lead : ∀ prog'', (∀ cur, 0 < (body'.trace cur b1.visitedShared).leaked) →
          ∀ cur, 0 < ((Prog.enterUnique k m f body' prog'').trace cur b.visitedShared).leaked := by
        intro prog'' hl cur
        have := hl (cur ++ [k])
        rw [v1] at this
        simp only [Prog.trace]
        split <;> simp only <;> omega
      cases C with
      | unwinding =>
        refine ⟨.enterUnique k m f body' rest, ?_, ?_⟩
        · simp only [exec, enterUniqueImpl, emach, eb, Allocative.exec, vi_unique, Builder.enterUniqueImpl, e1, e2, e3]
        · rcases hb with rfl | hb
          · exact .inl rfl
          · exact .inr (lead _ hb)
      | returned =>
        obtain ⟨rest', er, hr⟩ := ih2 kind b3 (n + L + f.leaks .returned) (by
          rw [show n + L + f.leaks .returned + 1 = n + L + 1 + f.leaks .returned by omega]; exact h3)
        refine ⟨.enterUnique k m f body' rest', ?_, ?_⟩
        · simp only [exec, enterUniqueImpl, emach, eb, Allocative.exec, vi_unique, Builder.enterUniqueImpl, e1, e2, e3, er]
        · rcases hb with rfl | hb
          · rcases hr with rfl | hr
            · exact .inl rfl
            · right
              intro cur
              have := hr cur
              rw [v3] at this
              obtain ⟨hc, hv⟩ := hany (cur ++ [k])
              rw [v1] at hc hv
              simp only [Prog.trace, hc, hv]
              omega
          · exact .inr (lead _ hb)
    · obtain ⟨b1, e1, e2⟩ := leaky k m (fun d => { d with unique := true }) kind b n recs paths p h hrep hst hov
      exact ⟨_, by rw [e2]; simp only [exec, enterUniqueImpl, e1], .inr (fun cur => by simp [Prog.trace, Fate.leaks])⟩
  | enterShared k m ptr f body rs rn ih1 ih2 ih3 =>
    intro kind b n h
    obtain ⟨recs, paths, hrep, ⟨p, hst⟩, _⟩ := h.wf
    by_cases hov : sizeAt recs (p ++ [k]) + m < Usize.modulus
    · obtain ⟨b1, e1, h1, v1, hne1, hsh1⟩ := h.enter k m false id (by simp)
      have emach : downAndAdd .on b k m id = .ok (b1, .returned) := by
        rw [(downAndAdd_cases hrep hst k m id).1 hov, e1]
      by_cases hv : ptr ∈ b.visitedShared
      · obtain ⟨b2, e2, h2, v2⟩ := h1.exit
        obtain ⟨rn', er, hr⟩ := ih3 kind b2 n h2
        refine ⟨.enterShared k m ptr f body rs rn', ?_, ?_⟩
        · simp only [exec, enterSharedImpl, emach, v1, if_pos hv, e2, er, Allocative.exec, vi_shared, Builder.enterSharedImpl, e1]
        · rcases hr with rfl | hr
          · exact .inl rfl
          · right
            intro cur
            have := hr cur
            rw [v2, v1] at this
            simpa only [Prog.trace, if_pos hv] using this
      · have hlive : Live { b1 with
            visitedShared := ptr :: b.visitedShared
            shared := b1.current :: b1.shared
            current := { stack := [], tree := b1.root } } (n + 1 + 1) := by
          obtain ⟨⟨recs, paths, hrep, ⟨p, hst⟩, hsh⟩, hroot, hent, hdepth⟩ := h1
          refine ⟨⟨recs, paths, hrep, ⟨[], .nil (by rw [hroot]; exact hrep.root)⟩, ?_⟩, hroot, hent, ?_⟩
          · intro st hm
            rcases List.mem_cons.1 hm with rfl | hm
            · exact ⟨hne1, p, hst⟩
            · exact hsh st hm
          · simp only [Builder.depth, List.length_nil, List.map_cons, List.sum_cons] at hdepth ⊢; omega
        obtain ⟨body', eb, hb⟩ := ih1 .shared _ (n + 1) hlive
        obtain ⟨b2, e2, h2, v2⟩ := exec_live body' .shared _ (n + 1) [] hlive
        simp only at hb v2 h2 e2
        generalize hL : (body'.trace [] (ptr :: b.visitedShared)).leaked = L at h2
        generalize hC : (body'.trace [] (ptr :: b.visitedShared)).ctl = C at e2
        obtain ⟨b3, e3, h3, v3⟩ := Live.finishChild (n := n + L) (by rw [show n + L + 2 = n + 1 + 1 + L by omega]; exact h2) .shared f C
        have lead : ∀ prog'', (∀ cur, 0 < (body'.trace cur (ptr :: b.visitedShared)).leaked) →
            ∀ cur, 0 < ((Prog.enterShared k m ptr f body' prog'' rn).trace cur b.visitedShared).leaked := by
          intro prog'' hl cur
          have := hl []
          simp only [Prog.trace, if_neg hv]
          split <;> simp only <;> omega
        cases C with
        | unwinding =>
          refine ⟨.enterShared k m ptr f body' rs rn, ?_, ?_⟩
          · simp only [exec, enterSharedImpl, emach, v1, if_neg hv, eb, Allocative.exec, vi_shared, Builder.enterSharedImpl, e1, e2, e3]
          · rcases hb with rfl | hb
            · exact .inl rfl
            · exact .inr (lead _ hb)
        | returned =>
          obtain ⟨rs', er, hr⟩ := ih2 kind b3 (n + L + f.leaks .returned) (by
            rw [show n + L + f.leaks .returned + 1 = n + L + 1 + f.leaks .returned by omega]; exact h3)
          refine ⟨.enterShared k m ptr f body' rs' rn, ?_, ?_⟩
          · simp only [exec, enterSharedImpl, emach, v1, if_neg hv, eb, Allocative.exec, vi_shared, Builder.enterSharedImpl, e1, e2, e3, er]
          · rcases hb with rfl | hb
            · rcases hr with rfl | hr
              · exact .inl rfl
              · right
                intro cur
                have := hr cur
                rw [v3, v2] at this
                simp only [Prog.trace, if_neg hv, hC]
                omega
            · exact .inr (lead _ hb)
    · obtain ⟨b1, e1, e2⟩ := leaky k m id kind b n recs paths p h hrep hst hov
      exact ⟨_, by rw [e2]; simp only [exec, enterSharedImpl, e1], .inr (fun cur => by simp [Prog.trace, Fate.leaks])⟩
  | catchUnwind body rest ih1 ih2 =>
    intro kind b n h
    obtain ⟨body', eb, hb⟩ := ih1 kind b n h
    obtain ⟨b1, e1, h1, v1⟩ := exec_live body' kind b n [] h
    generalize hL : (body'.trace [] b.visitedShared).leaked = L at h1
    obtain ⟨rest', er, hr⟩ := ih2 kind b1 (n + L) (by rw [show n + L + 1 = n + 1 + L by omega]; exact h1)
    refine ⟨.catchUnwind body' rest', ?_, ?_⟩
    · simp only [exec, eb, Allocative.exec, e1, er]
    · rcases hb with rfl | hb
      · rcases hr with rfl | hr
        · exact .inl rfl
        · right
          intro cur
          have := hr cur
          obtain ⟨b1', e1', _, v1'⟩ := exec_live body' kind b n cur h
          rw [e1] at e1'
          have hbb := (Prod.mk.inj (Except.ok.inj e1')).1
          subst hbb
          rw [v1'] at this
          simp only [Prog.trace]; omega
      · right
        intro cur
        have := hb cur
        simp only [Prog.trace]; omega

/-- A builder inside a root visit is dead: no new root visitor, no result. -/
theorem Live.dead [Target] {b n} (h : Live b n) : b.rootVisitor = .error .assertRootNotEntered ∧
    (∀ c ord, finish c ord b = .error .assertFinish) ∧ ∀ ord, b.finish ord = .error .assertFinish := by
  refine ⟨by simp [Builder.rootVisitor, h.entered], fun c ord => ?_, fun ord => ?_⟩
  · simp only [finish, h.entered]
    split
    · rfl
    · split <;> rfl
  · simp only [Builder.finish, Builder.finishImpl, h.entered]
    split
    · rename_i e; split at e
      · cases e; rfl
      · split at e
        · cases e; rfl
        · cases e; rfl
    · rename_i e; split at e
      · cases e
      · split at e <;> cases e

theorem Idle.live {b recs paths} (h : Idle b recs paths) : Live { b with enteredRootVisitor := true } (0 + 1) := by
  refine ⟨⟨recs, paths, h.rep, ⟨[], ?_⟩, ?_⟩, h.root, rfl, ?_⟩
  · simp only [h.current]; exact .nil h.rep.root
  · simp [h.shared]
  · simp [Builder.depth, h.current, h.shared]

theorem useRoot_on [Target] {b recs paths} (h : Idle b recs paths) (prog : Prog) (fate : Fate) :
    ∃ prog', useRoot .on b prog fate = b.useRoot prog' fate ∧
      (prog' = prog ∨ 0 < (prog'.trace [] b.visitedShared).leaked) := by
  obtain ⟨prog', e, hp⟩ := exec_on prog .root _ 0 (Idle.live h)
  refine ⟨prog', ?_, hp.imp id (fun h => h [])⟩
  simp only [useRoot, Builder.useRoot, Builder.rootVisitor, h.notEntered, Bool.false_eq_true, ↓reduceIte, e]
  rfl

/-- With overflow checks a history is exactly that of the unbounded builder, or the builder is dead at its end. -/
theorem useRoots_on [Target] (hist : List (Prog × Fate)) : ∀ {b recs paths}, Idle b recs paths → Fits b →
    useRoots .on b hist = .error .assertRootNotEntered ∨
    (∃ b' n, useRoots .on b hist = .ok b' ∧ Live b' n) ∨
    (∃ b', useRoots .on b hist = .ok b' ∧ b.useRoots hist = .ok b' ∧ Fits b' ∧ (traceRoots hist b.visitedShared).leaked = 0) := by
  induction hist with
  | nil => intro b recs paths h hf; exact .inr (.inr ⟨b, rfl, rfl, hf, rfl⟩)
  | cons x rest ih =>
    obtain ⟨prog, fate⟩ := x
    intro b recs paths h hf
    obtain ⟨prog', e, hp⟩ := useRoot_on h prog fate
    by_cases hl : 0 < (prog'.trace [] b.visitedShared).leaked + fate.leaks (prog'.trace [] b.visitedShared).ctl
    · obtain ⟨b1, c1, e1, h1⟩ := h.useRoot_leak prog' fate hl
      rw [e1] at e
      cases rest with
      | nil => exact .inr (.inl ⟨b1, _, by simp only [useRoots, e], h1⟩)
      | cons y rest =>
        left
        obtain ⟨p2, f2⟩ := y
        have : useRoot .on b1 p2 f2 = .error .assertRootNotEntered := by simp only [useRoot, (Live.dead h1).1]
        simp only [useRoots, e, this]
    · rcases hp with rfl | hp
      · obtain ⟨b1, paths1, e1, h1, hv1⟩ := h.useRoot (prog := prog') (fate := fate) (by omega) (by omega)
        rw [e1] at e
        have hf1 := useRoot_inv e hf
        rcases ih h1 hf1 with hr | ⟨b', n, hr, hl'⟩ | ⟨b', hr, hr', hf', hl'⟩
        · exact .inl (by simp only [useRoots, e, hr])
        · exact .inr (.inl ⟨b', n, by simp only [useRoots, e, hr], hl'⟩)
        · refine .inr (.inr ⟨b', by simp only [useRoots, e, hr], by simp only [Builder.useRoots, e1, hr'], hf', ?_⟩)
          rw [hv1] at hl'
          simp only [traceRoots]; omega
      · omega

/-! ### Executions in which nothing overflows -/

theorem sizeAt_cons (r : Rec) (l : List Rec) (q : Path) : sizeAt (r :: l) q = (if r.path = q then r.size else 0) + sizeAt l q := by
  simp [sizeAt]
theorem sizeAt_nil (q : Path) : sizeAt [] q = 0 := rfl

theorem exec_fits [Target] (c : Checks) (prog : Prog) : ∀ (kind : NodeKind) (b : Builder) (recs : List Rec) (paths : List Path) (cur : Path),
    (prog.trace cur b.visitedShared).leaked = 0 → At b recs paths cur →
    (∀ q, sizeAt (recs ++ (prog.trace cur b.visitedShared).recs) q < Usize.modulus) →
    exec c prog kind b = Allocative.exec Builder.visitorImpl prog kind b := by
  induction prog with
  | done => intros; rfl
  | panic => intros; rfl
  | enter k n f body rest ih1 ih2 =>
    intro kind b recs paths cur hl h hs
    simp only [Prog.trace] at hl hs
    have hl1 : (body.trace (cur ++ [k]) b.visitedShared).leaked = 0 := by split at hl <;> simp only at hl <;> omega
    have hf : f.leaks (body.trace (cur ++ [k]) b.visitedShared).ctl = 0 := by
      split at hl <;> (rename_i hc; rw [hc]; simp only at hl; omega)
    obtain ⟨trees1, t1, paths1, e1, hrep1, hpre1, hst1⟩ := h.rep.downAndAdd h.st k n false id (by simp)
    obtain ⟨b1, b2, b3, e1', e2, e3, paths3, hat, hsame, hvis, hpre⟩ :=
      Ran.child h k n false id (by simp) (t := body.trace (cur ++ [k]) b.visitedShared)
        (body := Allocative.exec Builder.visitorImpl body .inline)
        (fun b1 recs1 paths1 h1 hv => hv ▸ exec_trace body .inline b1 recs1 paths1 _ (hv ▸ hl1) h1)
    rw [e1'] at e1
    have eb1 := Except.ok.inj e1
    have hat1 : At b1 (recs ++ [⟨cur ++ [k], n, false⟩]) paths1 (cur ++ [k]) := by
      rw [eb1]; exact ⟨hrep1, hst1, h.root, h.entered⟩
    have hv1 : b1.visitedShared = b.visitedShared := by rw [eb1]
    have hs1 : ∀ q, sizeAt (recs ++ [⟨cur ++ [k], n, false⟩] ++ (body.trace (cur ++ [k]) b.visitedShared).recs) q < Usize.modulus := by
      intro q
      have := hs q
      split at this <;> simp only [sizeAt_append, sizeAt_cons, sizeAt_nil, List.cons_append] at * <;> omega
    have hs0 : sizeAt recs (cur ++ [k]) + n < Usize.modulus := by
      have := hs1 (cur ++ [k])
      simp only [sizeAt_append, sizeAt_cons, sizeAt_nil, if_true] at this; omega
    have ebody := ih1 .inline b1 _ paths1 (cur ++ [k]) (by rw [hv1]; exact hl1) hat1 (by rw [hv1]; exact hs1)
    have emach := (downAndAdd_cases h.rep h.st k n id).1 hs0 c
    rw [e1'] at emach
    simp only [exec, enterInlineImpl, emach, ebody, e2, Allocative.exec, vi_inline, Builder.enterInlineImpl, e1',
      finishChild_closes _ _ hf, builder_exitImpl, e3]
    cases hc : (body.trace (cur ++ [k]) b.visitedShared).ctl with
    | unwinding => rfl
    | returned =>
      simp only [hc] at hl hs
      refine ih2 kind b3 _ paths3 cur (by rw [hvis]; omega) hat ?_
      rw [hvis]
      intro q
      have := hs q
      simp only [sizeAt_append, sizeAt_cons, sizeAt_nil, List.cons_append] at *; omega
  | enterUnique k n f body rest ih1 ih2 =>
    intro kind b recs paths cur hl h hs
    simp only [Prog.trace] at hl hs
    have hl1 : (body.trace (cur ++ [k]) b.visitedShared).leaked = 0 := by split at hl <;> simp only at hl <;> omega
    have hf : f.leaks (body.trace (cur ++ [k]) b.visitedShared).ctl = 0 := by
      split at hl <;> (rename_i hc; rw [hc]; simp only at hl; omega)
    obtain ⟨trees1, t1, paths1, e1, hrep1, hpre1, hst1⟩ := h.rep.downAndAdd h.st k n true (fun d => { d with unique := true }) (by simp)
    obtain ⟨b1, b2, b3, e1', e2, e3, paths3, hat, hsame, hvis, hpre⟩ :=
      Ran.child h k n true (fun d => { d with unique := true }) (by simp) (t := body.trace (cur ++ [k]) b.visitedShared)
        (body := Allocative.exec Builder.visitorImpl body .unique)
        (fun b1 recs1 paths1 h1 hv => hv ▸ exec_trace body .unique b1 recs1 paths1 _ (hv ▸ hl1) h1)
    rw [e1'] at e1
    have eb1 := Except.ok.inj e1
    have hat1 : At b1 (recs ++ [⟨cur ++ [k], n, true⟩]) paths1 (cur ++ [k]) := by
      rw [eb1]; exact ⟨hrep1, hst1, h.root, h.entered⟩
    have hv1 : b1.visitedShared = b.visitedShared := by rw [eb1]
    have hs1 : ∀ q, sizeAt (recs ++ [⟨cur ++ [k], n, true⟩] ++ (body.trace (cur ++ [k]) b.visitedShared).recs) q < Usize.modulus := by
      intro q
      have := hs q
      split at this <;> simp only [sizeAt_append, sizeAt_cons, sizeAt_nil, List.cons_append] at * <;> omega
    have hs0 : sizeAt recs (cur ++ [k]) + n < Usize.modulus := by
      have := hs1 (cur ++ [k])
      simp only [sizeAt_append, sizeAt_cons, sizeAt_nil, if_true] at this; omega
    have ebody := ih1 .unique b1 _ paths1 (cur ++ [k]) (by rw [hv1]; exact hl1) hat1 (by rw [hv1]; exact hs1)
    have emach := (downAndAdd_cases h.rep h.st k n (fun d => { d with unique := true })).1 hs0 c
    rw [e1'] at emach
    simp only [exec, enterUniqueImpl, emach, ebody, e2, Allocative.exec, vi_unique, Builder.enterUniqueImpl, e1',
      finishChild_closes _ _ hf, builder_exitImpl, e3]
    cases hc : (body.trace (cur ++ [k]) b.visitedShared).ctl with
    | unwinding => rfl
    | returned =>
      simp only [hc] at hl hs
      refine ih2 kind b3 _ paths3 cur (by rw [hvis]; omega) hat ?_
      rw [hvis]
      intro q
      have := hs q
      simp only [sizeAt_append, sizeAt_cons, sizeAt_nil, List.cons_append] at *; omega
  | enterShared k n ptr f body rs rn ih1 ih2 ih3 =>
    intro kind b recs paths cur hl h hs
    simp only [Prog.trace] at hl hs
    obtain ⟨trees1, t1, paths1, he, hrep1, hpre1, hst1⟩ := h.rep.downAndAdd h.st k n false id (by simp)
    have hs0 : sizeAt recs (cur ++ [k]) + n < Usize.modulus := by
      have := hs (cur ++ [k])
      split at this
      · simp only [sizeAt_append, sizeAt_cons, sizeAt_nil, if_true] at this; omega
      · split at this <;> simp only [sizeAt_append, sizeAt_cons, sizeAt_nil, if_true, List.cons_append] at this <;> omega
    have emach := (downAndAdd_cases h.rep h.st k n id).1 hs0 c
    rw [he] at emach
    simp only [exec, Allocative.exec, vi_shared, Builder.enterSharedImpl, enterSharedImpl, he, emach]
    by_cases hv : ptr ∈ b.visitedShared
    · simp only [if_pos hv] at hl hs ⊢
      have hx := exit_pop (b := { b with trees := trees1, current := ⟨b.current.tree :: b.current.stack, t1⟩ })
        (t := b.current.tree) (s := b.current.stack) h.entered rfl
      rw [hx]
      exact ih3 kind { b with trees := trees1 } _ paths1 cur hl ⟨hrep1, h.st.mono hpre1, h.root, h.entered⟩
        (by intro q; have := hs q; simp only [sizeAt_append, sizeAt_cons, sizeAt_nil] at *; omega)
    · simp only [if_neg hv] at hl hs ⊢
      have hl1 : (body.trace [] (ptr :: b.visitedShared)).leaked = 0 := by split at hl <;> simp only at hl <;> omega
      have hf : f.leaks (body.trace [] (ptr :: b.visitedShared)).ctl = 0 := by
        split at hl <;> (rename_i hc; rw [hc]; simp only at hl; omega)
      have hat1 : At { b with
          trees := trees1
          visitedShared := ptr :: b.visitedShared
          shared := ⟨b.current.tree :: b.current.stack, t1⟩ :: b.shared
          current := ⟨[], b.root⟩ } (recs ++ [⟨cur ++ [k], n, false⟩]) paths1 [] :=
        ⟨hrep1, .nil (by rw [h.root]; exact hrep1.root), h.root, h.entered⟩
      have hs1 : ∀ q, sizeAt (recs ++ [⟨cur ++ [k], n, false⟩] ++ (body.trace [] (ptr :: b.visitedShared)).recs) q < Usize.modulus := by
        intro q
        have := hs q
        split at this <;> simp only [sizeAt_append, sizeAt_cons, sizeAt_nil, List.cons_append] at * <;> omega
      obtain ⟨b2, paths2, e2, hat2, hsame2, hvis2, hpre2⟩ := exec_trace body .shared _ _ paths1 [] hl1 hat1
      rw [ih1 .shared _ _ paths1 [] hl1 hat1 hs1, e2]
      simp only [finishChild_closes _ _ hf, builder_exitImpl]
      rw [exit_shared hat2.entered (by rw [hsame2.current]) (hsame2.shared) (by rfl)]
      have hat3 : At { b2 with current := b.current, shared := b.shared }
          (recs ++ ⟨cur ++ [k], n, false⟩ :: (body.trace [] (ptr :: b.visitedShared)).recs) paths2 cur :=
        ⟨by simpa using hat2.rep, h.st.mono (hpre1.trans hpre2), hat2.root, hat2.entered⟩
      have hv2 : b2.visitedShared = (body.trace [] (ptr :: b.visitedShared)).visited := hvis2
      cases hc : (body.trace [] (ptr :: b.visitedShared)).ctl with
      | unwinding => rfl
      | returned =>
        simp only [hc] at hl hs
        refine ih2 kind { b2 with current := b.current, shared := b.shared } _ paths2 cur (by simp only [hv2]; omega) hat3 ?_
        simp only [hv2]
        intro q
        have := hs q
        simp only [sizeAt_append, sizeAt_cons, sizeAt_nil, List.cons_append] at *; omega
  | catchUnwind body rest ih1 ih2 =>
    intro kind b recs paths cur hl h hs
    simp only [Prog.trace] at hl hs
    obtain ⟨b1, paths1, e1, hat1, hsame1, hvis1, hpre1⟩ := exec_trace body kind b recs paths cur (by omega) h
    have h1 := ih1 kind b recs paths cur (by omega) h (by intro q; have := hs q; simp only [sizeAt_append] at *; omega)
    have h2 := ih2 kind b1 _ paths1 cur (by rw [hvis1]; omega) hat1 (by
      intro q; have := hs q; rw [hvis1]; simp only [sizeAt_append] at *; omega)
    simp only [exec, Allocative.exec, h1, e1, h2]

theorem useRoot_fits [Target] {b recs paths} (c : Checks) (h : Idle b recs paths) {prog : Prog} {fate : Fate}
    (hp : (prog.trace [] b.visitedShared).leaked = 0)
    (hs : ∀ q, sizeAt (recs ++ (prog.trace [] b.visitedShared).recs) q < Usize.modulus) :
    useRoot c b prog fate = b.useRoot prog fate := by
  have := exec_fits c prog .root { b with enteredRootVisitor := true } recs paths [] hp
    ⟨h.rep, by rw [h.current]; exact .nil h.rep.root, h.root, rfl⟩ hs
  simp only [useRoot, Builder.useRoot, Builder.rootVisitor, h.notEntered, Bool.false_eq_true, ↓reduceIte, this]
  rfl

theorem useRoots_fits [Target] (c : Checks) {hist : List (Prog × Fate)} : ∀ {b recs paths}, Idle b recs paths →
    (traceRoots hist b.visitedShared).leaked = 0 →
    (∀ q, sizeAt (recs ++ (traceRoots hist b.visitedShared).recs) q < Usize.modulus) →
    useRoots c b hist = b.useRoots hist := by
  induction hist with
  | nil => intros; rfl
  | cons x rest ih =>
    intro b recs paths h hl hs
    obtain ⟨prog, fate⟩ := x
    simp only [traceRoots] at hl hs
    obtain ⟨b1, paths1, e1, h1, hv1⟩ := h.useRoot (prog := prog) (fate := fate) (by omega) (by omega)
    have e := useRoot_fits c h (prog := prog) (fate := fate) (by omega)
      (by intro q; have := hs q; simp only [sizeAt_append] at *; omega)
    simp only [useRoots, Builder.useRoots, e, e1]
    exact ih h1 (by rw [hv1]; omega) (by intro q; have := hs q; rw [hv1]; simp only [sizeAt_append] at *; omega)

/-! ### finish -/

theorem sumSizes_fits [Target] (c : Checks) {trees : Trees} : ∀ {l : List TreeId} {S acc : Nat}, Builder.sumSizes trees l = .ok S → acc + S < Usize.modulus →
    sumSizes c trees acc l = .ok (acc + S)
  | [], S, acc, h, _ => by simp only [Builder.sumSizes] at h; cases h; rfl
  | t :: rest, S, acc, h, hs => by
    simp only [Builder.sumSizes] at h
    simp only [sumSizes]
    cases hd : trees.index t with
    | error e => simp [hd] at h
    | ok d =>
      simp only [hd] at h ⊢
      cases hr : Builder.sumSizes trees rest with
      | error e => simp [hr] at h
      | ok n =>
        simp only [hr] at h
        cases h
        rw [addUsize_fits (by omega)]
        simp only
        rw [sumSizes_fits c hr (by omega), Nat.add_assoc]

/-- All declared sums are representable as `isize`. -/
def Bounded [Target] (recs : List Rec) : Prop := ∀ p, sizeAt recs p < Usize.half ∧ childrenAt recs p < Usize.half

theorem updateSizes_fits [Target] {recs paths} (hbd : Bounded recs) (c : Checks) (ord : HashOrder TreeId) : ∀ (fuel : Nat) (trees : Trees) (i : Nat) (p : Path),
    Rep trees recs paths → paths[i]? = some p → trees.length - i ≤ fuel →
    updateSizes c ord fuel i trees = Builder.updateSizes ord fuel i trees := by
  intro fuel
  induction fuel with
  | zero => intros; rfl
  | succ fuel ih =>
    intro trees i p h hp hf
    obtain ⟨d, hd⟩ := h.get hp
    have hil := (List.getElem?_eq_some_iff.1 hp).1
    have loop : ∀ (l : List TreeId) (tr : Trees), Rep tr recs paths → (∀ c ∈ l, i < c ∧ ∃ k, paths[c]? = some (p ++ [k])) →
        l.foldlM (fun trees child => updateSizes c ord fuel child trees) tr =
          l.foldlM (fun trees child => Builder.updateSizes ord fuel child trees) tr ∧
        ∃ tr', l.foldlM (fun trees child => Builder.updateSizes ord fuel child trees) tr = .ok tr' ∧ Rep tr' recs paths := by
      intro l
      induction l with
      | nil => intro tr htr _; exact ⟨rfl, tr, rfl, htr⟩
      | cons a rest ihl =>
        intro tr htr hl
        obtain ⟨hic, k, hk⟩ := hl a (by simp)
        have hlen : tr.length - a ≤ fuel := by rw [← htr.len]; rw [← h.len] at hf; omega
        obtain ⟨tr1, e1, h1, _⟩ := Rep.updateSizes ord fuel tr a (p ++ [k]) htr hk hlen
        obtain ⟨e2, tr2, e2', h2⟩ := ihl tr1 h1 (fun c' hc' => hl c' (by simp [hc']))
        simp only [List.foldlM_cons, ih tr a _ htr hk hlen, e1]
        exact ⟨e2, tr2, e2', h2⟩
    have hch : ∀ c ∈ ord.run i (d.children.map Prod.snd), i < c ∧ ∃ k, paths[c]? = some (p ++ [k]) := by
      intro c hc
      obtain ⟨⟨k, c'⟩, hm, rfl⟩ := List.mem_map.1 ((ord.perm _ _).mem_iff.1 hc)
      exact ⟨h.lt hd hm, k, (h.child hp hd).1 hm⟩
    obtain ⟨el, tr, e, hrep⟩ := loop _ trees h hch
    obtain ⟨d', hd'⟩ := hrep.get hp
    have hsum : Builder.sumSizes tr (ord.run i (d'.children.map Prod.snd)) = .ok (childrenAt recs p) := by
      rw [hrep.sumSizes, (((ord.perm _ _).map _).sum_nat), hrep.childrenSum hp hd']
      intro c hc
      obtain ⟨⟨k, c'⟩, hm, rfl⟩ := List.mem_map.1 ((ord.perm _ _).mem_iff.1 hc)
      have := (List.getElem?_eq_some_iff.1 ((hrep.child hp hd').1 hm)).1
      rw [hrep.len] at this; exact this
    obtain ⟨hb1, hb2⟩ := hbd p
    have hsum' := sumSizes_fits c (acc := 0) hsum (by rw [Usize.modulus_eq]; omega)
    rw [Nat.zero_add] at hsum'
    have hsz := hrep.size hp hd'
    simp only [updateSizes, Builder.updateSizes, Trees.index, hd, el, e, hd', hsum, hsum']
    cases d'.unique with
    | true =>
      simp only [if_true, Trees.update, hd', hsz]
      rw [asIsize_of hb1, asIsize_of (n := 0) Usize.half_pos, saturatingSub_of hb1 Usize.half_pos]
    | false =>
      simp only [Bool.false_eq_true, if_false, Trees.update, hd', hsz]
      rw [asIsize_of hb1, asIsize_of hb2, saturatingSub_of hb1 hb2]

/-- Nodes as `update_sizes` leaves them. -/
def Sane [Target] (trees : Trees) : Prop := ∀ d ∈ trees, d.size < Usize.half ∧ d.remSize ≤ d.size ∧ (d.size : Int) - d.remSize < Usize.half

theorem asUsize_of [Target] {x : Int} (h : 0 < x) (h' : x < Usize.modulus) : asUsize x = x.toNat := by
  simp only [asUsize]; rw [Int.emod_eq_of_lt (by omega) h']

theorem index_mem {trees : Trees} {i d} (h : trees.index i = .ok d) : d ∈ trees := by
  simp only [Trees.index] at h
  split at h
  · cases h; exact List.mem_of_getElem? ‹_›
  · cases h

/-- `write_flame_graph` of the machine and of the unbounded model. -/
theorem writeFlameGraph_both [Target] {trees : Trees} (hs : Sane trees) (c : Checks) (ord : HashOrder TreeId) : ∀ (fuel : Nat) (i : TreeId) (stack : List Str),
    (∀ fg w, Builder.writeFlameGraph ord trees fuel i stack = .ok (fg, w) → Ok (fun _ => True) fg ∧
      (fg.totalSize < Usize.modulus → writeFlameGraph c ord trees fuel i stack = .ok (fg, w))) ∧
    (∀ r, writeFlameGraph .on ord trees fuel i stack = .ok r → Builder.writeFlameGraph ord trees fuel i stack = .ok r) := by
  intro fuel
  induction fuel with
  | zero =>
    intro i stack
    refine ⟨fun fg w h => ?_, fun r h => ?_⟩
    · simp only [Builder.writeFlameGraph] at h; cases h
    · simp only [writeFlameGraph] at h; cases h
  | succ fuel ih =>
    intro i stack
    cases hd : trees.index i with
    | error e =>
      refine ⟨fun fg w h => ?_, fun r h => ?_⟩
      · simp only [Builder.writeFlameGraph, hd] at h; cases h
      · simp only [writeFlameGraph, hd] at h; cases h
    | ok d =>
      obtain ⟨hs1, hs2, hs3⟩ := hs d (index_mem hd)
      have hw : ∀ c, nodeWarning c d stack =
          .ok (if d.remSize > 0 then []
            else if d.remSize < 0 ∧ stack ≠ [] then Builder.warningLine stack d.size d.inlineChildrenSize
            else []) := by
        intro c
        have : subIsize c (asIsize d.size) d.remSize = .ok d.inlineChildrenSize := by
          rw [asIsize_of hs1]
          simp only [subIsize, TreeData.inlineChildrenSize]
          rw [if_pos (by omega)]
        simp only [nodeWarning, this]
        split
        · rfl
        · split <;> rfl
      have hfg : (if d.remSize > 0 then if stack = [] then FlameGraph.default else .mk [] 0 (asUsize d.remSize) else .default) =
          (if d.remSize > 0 then if stack = [] then FlameGraph.default else .mk [] 0 d.remSize.toNat else .default) := by
        by_cases h0 : d.remSize > 0
        · rw [asUsize_of h0 (by rw [Usize.modulus_eq]; omega)]
        · simp only [if_neg h0]
      simp only [writeFlameGraph, Builder.writeFlameGraph, hd, hw, hfg]
      generalize (if d.remSize > 0 then [] else if d.remSize < 0 ∧ stack ≠ [] then Builder.warningLine stack d.size d.inlineChildrenSize
            else []) = w0
      have hok0 : Ok (fun _ => True) (if d.remSize > 0 then if stack = [] then FlameGraph.default else .mk [] 0 d.remSize.toNat else .default) := by
        split
        · split
          · exact Ok.default _
          · exact .mk (by simp) (by simp) (by simp) (by simp)
        · exact Ok.default _
      generalize (if d.remSize > 0 then if stack = [] then FlameGraph.default else .mk [] 0 d.remSize.toNat else .default) = fg0 at hok0
      generalize sortByKey (ord.run i d.children) = l
      constructor
      · induction l generalizing fg0 w0 with
        | nil =>
          intro fg w h
          simp only [List.foldlM_nil] at h ⊢
          cases h
          exact ⟨hok0, fun _ => rfl⟩
        | cons kc rest ihl =>
          intro fg w h
          simp only [List.foldlM_cons] at h ⊢
          cases hc : Builder.writeFlameGraph ord trees fuel kc.2 (stack ++ [kc.1.deref]) with
          | error e => simp only [hc] at h; cases h
          | ok r =>
            obtain ⟨child, w1⟩ := r
            simp only [hc] at h
            obtain ⟨hcok, hcm⟩ := (ih kc.2 (stack ++ [kc.1.deref])).1 child w1 hc
            obtain ⟨hr1, hr2⟩ := ihl (w0 ++ w1) (fg0.addChild kc.1 child) (hok0.addChild hcok trivial) fg w h
            refine ⟨hr1, fun ht => ?_⟩
            have hmono : ∀ (l : List (Key × TreeId)) (a : FlameGraph) (w : Str) r, l.foldlM (fun (acc : FlameGraph × Str) (kc : Key × TreeId) =>
                match Builder.writeFlameGraph ord trees fuel kc.2 (stack ++ [kc.1.deref]) with
                | .error e => .error e
                | .ok (child, w) => .ok (acc.1.addChild kc.1 child, acc.2 ++ w)) (a, w) = Except.ok r → a.totalSize ≤ r.1.totalSize := by
              intro l
              induction l with
              | nil => intro a w r h; simp only [List.foldlM_nil] at h; cases h; exact Nat.le_refl _
              | cons x l ihm =>
                intro a w r h
                simp only [List.foldlM_cons] at h
                cases hx : Builder.writeFlameGraph ord trees fuel x.2 (stack ++ [x.1.deref]) with
                | error e => simp only [hx] at h; cases h
                | ok y =>
                  obtain ⟨cx, wx⟩ := y
                  simp only [hx] at h
                  have := ihm _ _ _ h
                  rw [totalSize_addChild] at this; omega
            have hm := hmono rest _ _ _ h
            simp only at hm
            rw [hcm (by rw [totalSize_addChild] at hm; omega)]
            simp only
            rw [addChild_fits hok0 hcok (by omega)]
            exact hr2 ht
      · induction l generalizing fg0 w0 with
        | nil => intro r h; exact h
        | cons kc rest ihl =>
          intro r h
          simp only [List.foldlM_cons] at h ⊢
          cases hc : writeFlameGraph .on ord trees fuel kc.2 (stack ++ [kc.1.deref]) with
          | error e => simp only [hc] at h; cases h
          | ok x =>
            obtain ⟨child, w1⟩ := x
            have hcm := (ih kc.2 (stack ++ [kc.1.deref])).2 _ hc
            have hcok := ((ih kc.2 (stack ++ [kc.1.deref])).1 child w1 hcm).1
            simp only [hc] at h
            cases ha : addChild .on fg0 kc.1 child with
            | error e => simp only [ha] at h; cases h
            | ok fg1 =>
              simp only [ha] at h
              rw [hcm]
              have := addChild_sound ha
              subst this
              exact ihl _ _ (hok0.addChild hcok trivial) _ h

theorem finish_both [Target] {b recs paths} (h : Idle b recs paths) (hbd : Bounded recs) (c : Checks) (ord : HashOrder TreeId) :
    (∀ out, b.finish ord = .ok out → out.flamegraph.totalSize < Usize.modulus → finish c ord b = .ok out) ∧
    (∀ out, finish .on ord b = .ok out → b.finish ord = .ok out) := by
  have hlen := h.rep.root
  obtain ⟨trees, e, hrep, _, hgood⟩ := Rep.updateSizes (recs := recs) (paths := paths) ord b.trees.length b.trees 0 [] h.rep hlen (by omega)
  have hu : ∀ c, updateSizes c ord b.trees.length b.root b.trees = .ok trees := fun c => by
    rw [h.root, updateSizes_fits hbd c ord b.trees.length b.trees 0 [] h.rep hlen (by omega), e]
  have hsane : Sane trees := by
    intro d hd
    obtain ⟨i, hi⟩ := List.mem_iff_getElem?.1 hd
    have hlt := (List.getElem?_eq_some_iff.1 hi).1
    rw [← hrep.len] at hlt
    have hp : paths[i]? = some paths[i] := by simp [hlt]
    have hsz := hrep.size hp hi
    have hrem := hgood i paths[i] (by simp [hp]) d paths[i] hi hp
    obtain ⟨h1, h2⟩ := hbd paths[i]
    rw [hsz, hrem]
    refine ⟨h1, ?_, ?_⟩ <;> unfold remAt <;> split <;> omega
  have key := writeFlameGraph_both hsane c ord trees.length 0 []
  have hu' : Builder.updateSizes ord b.trees.length 0 b.trees = .ok trees := e
  have n1 : ¬ (b.shared ≠ []) := by simp [h.shared]
  have n2 : ¬ (b.current.stack ≠ []) := by simp [h.current]
  constructor
  · intro out ho ht
    simp only [Builder.finish, Builder.finishImpl, if_neg n1, if_neg n2, h.notEntered, Bool.false_eq_true, if_false, h.root, hu'] at ho
    simp only [finish, if_neg n1, if_neg n2, h.notEntered, Bool.false_eq_true, if_false, hu]
    rw [h.root]
    cases hw : Builder.writeFlameGraph ord trees trees.length 0 [] with
    | error e => simp [hw] at ho
    | ok r =>
      obtain ⟨fg, w⟩ := r
      simp only [hw] at ho
      cases ho
      rw [(key.1 fg w hw).2 ht]
  · intro out ho
    simp only [finish, if_neg n1, if_neg n2, h.notEntered, Bool.false_eq_true, if_false, hu] at ho
    simp only [Builder.finish, Builder.finishImpl, if_neg n1, if_neg n2, h.notEntered, Bool.false_eq_true, if_false, h.root, hu']
    rw [h.root] at ho
    cases hw : writeFlameGraph .on ord trees trees.length 0 [] with
    | error e => simp [hw] at ho
    | ok r =>
      simp only [hw] at ho
      cases ho
      rw [key.2 r hw]

end Allocative.Machine
