import Verif.Model.MachineLocks
import Verif.Lemmas.Wrap
import Verif.Lemmas.Locks
set_option linter.unusedSimpArgs false
/-
Visits beside other threads with machine arithmetic: the relation to unbounded numbers.
-/
namespace Allocative

/-- The result with another builder. -/
def LResult.mapS {σ τ : Type} (f : σ → τ) : LResult σ → LResult τ
  | .failed e => .failed e
  | .stuck a => .stuck a
  | .ended s st n ctl => .ended (f s) st n ctl

namespace Machine

/-! ### Without overflow checks -/

theorem thenFinish_off [Target] (kind : NodeKind) (fate : Fate) (r : LResult Builder) (k k' : Builder → Store → Nat → LResult Builder)
    (h : ∀ b st n, k' (wrapB b) st n = (k b st n).mapS wrapB) :
    (r.mapS wrapB).thenFinish Builder.visitorImpl kind fate k' = (r.thenFinish Builder.visitorImpl kind fate k).mapS wrapB := by
  cases r with
  | failed e => rfl
  | stuck a => rfl
  | ended s st n ctl =>
    simp only [LResult.mapS, LResult.thenFinish, finishChild_wrap]
    cases VisitorImpl.finishChild _ kind fate ctl s with
    | error e => rfl
    | ok s' => cases ctl with
      | unwinding => rfl
      | returned => exact h s' st n

theorem thenRelease_off [Target] (r : LResult Builder) (f : Nat → Store → Ctl → Store) (k k' : Builder → Store → Nat → LResult Builder)
    (h : ∀ b st n, k' (wrapB b) st n = (k b st n).mapS wrapB) :
    (r.mapS wrapB).thenRelease f k' = (r.thenRelease f k).mapS wrapB := by
  cases r with
  | failed e => rfl
  | stuck a => rfl
  | ended s st n ctl => cases ctl with
    | unwinding => rfl
    | returned => exact h s _ _

theorem enterShared_off [Target] (b : Builder) (k : Key) (n : Nat) (ptr : Ptr) (kind : NodeKind) :
    enterSharedImpl .off (wrapB b) k n ptr = mapOk (fun r => (r.1, wrapB r.2, .returned)) (b.enterSharedImpl k n ptr kind) := by
  simp only [enterSharedImpl, Builder.enterSharedImpl]
  rw [downAndAdd_off (fun _ _ => rfl)]
  cases b.downAndAdd k n id with
  | error e => rfl
  | ok b1 =>
    simp only [mapOk]
    have : (wrapB b1).visitedShared = b1.visitedShared := rfl
    rw [this, exitImpl_wrap]
    split
    · cases b1.exitImpl <;> rfl
    · rfl

theorem execL_off [Target] (env : Env) (prog : LProg) : ∀ (kind : NodeKind) (b : Builder) (st : Store) (n : Nat),
    execL .off env prog kind (wrapB b) st n = (Allocative.execL Builder.visitorImpl env prog kind b st n).mapS wrapB := by
  induction prog with
  | done => intro kind b st n; rfl
  | panic => intro kind b st n; rfl
  | enter k z f body rest ih1 ih2 =>
    intro kind b st n
    have hi : Builder.visitorImpl.enterInlineImpl b k z kind = b.downAndAdd k z id := rfl
    simp only [execL, Allocative.execL, enterInlineImpl, hi]
    rw [downAndAdd_off (fun _ _ => rfl)]
    cases b.downAndAdd k z id with
    | error e => rfl
    | ok b1 =>
      simp only [mapOk]
      rw [ih1]
      exact thenFinish_off _ _ _ _ _ (ih2 kind)
  | enterUnique k z f body rest ih1 ih2 =>
    intro kind b st n
    have hi : Builder.visitorImpl.enterUniqueImpl b k z kind = b.downAndAdd k z (fun d => { d with unique := true }) := rfl
    simp only [execL, Allocative.execL, enterUniqueImpl, hi]
    rw [downAndAdd_off (fun _ _ => rfl)]
    cases b.downAndAdd k z _ with
    | error e => rfl
    | ok b1 =>
      simp only [mapOk]
      rw [ih1]
      exact thenFinish_off _ _ _ _ _ (ih2 kind)
  | enterShared k z ptr f body rs rn ih1 ih2 ih3 =>
    intro kind b st n
    have hi : Builder.visitorImpl.enterSharedImpl b k z ptr kind = b.enterSharedImpl k z ptr kind := rfl
    simp only [execL, Allocative.execL, enterShared_off b k z ptr kind, hi]
    cases b.enterSharedImpl k z ptr kind with
    | error e => rfl
    | ok r =>
      obtain ⟨some, b1⟩ := r
      cases some with
      | false => exact ih3 kind b1 st n
      | true =>
        simp only [mapOk]
        rw [ih1]
        exact thenFinish_off _ _ _ _ _ (ih2 kind)
  | catchUnwind body rest ih1 ih2 =>
    intro kind b st n
    simp only [execL, Allocative.execL, ih1]
    cases Allocative.execL Builder.visitorImpl env body kind b st n with
    | failed e => rfl
    | stuck a => rfl
    | ended b1 st1 n1 ctl => exact ih2 kind b1 st1 n1
  | access how a inside rest ih1 ih2 =>
    intro kind b st n
    simp only [execL, Allocative.execL]
    cases how.call env a n st with
    | none => rfl
    | some r =>
      simp only
      split
      · rw [ih1]
        exact thenRelease_off _ _ _ _ (ih2 kind)
      · exact ih2 kind b _ _
  | upgrade p inside rest ih1 ih2 =>
    intro kind b st n
    simp only [execL, Allocative.execL]
    split
    · rw [ih1]
      exact thenRelease_off _ _ _ _ (ih2 kind)
    · exact ih2 kind b _ _
  | load a next ih =>
    intro kind b st n
    exact ih _ kind b _ _

theorem useRootsL_off [Target] (env : Env) (hist : List (LProg × Fate)) : ∀ (b : Builder) (st : Store) (n : Nat),
    useRootsL .off env (wrapB b) hist st n = (b.useRootsL env hist st n).mapS wrapB := by
  induction hist with
  | nil => intro b st n; rfl
  | cons x rest ih =>
    intro b st n
    obtain ⟨prog, fate⟩ := x
    have : useRootL .off env (wrapB b) prog fate st n = (b.useRootL env prog fate st n).mapS wrapB := by
      have hr : (wrapB b).rootVisitor = mapOk wrapB b.rootVisitor := by
        obtain ⟨v, T, c, sh, r, e⟩ := b
        cases e <;> rfl
      simp only [useRootL, Builder.useRootL, hr]
      cases b.rootVisitor with
      | error e => rfl
      | ok b1 =>
        simp only [mapOk, execL_off]
        cases Allocative.execL Builder.visitorImpl env prog .root b1 st n with
        | failed e => rfl
        | stuck a => rfl
        | ended b2 st2 n2 ctl =>
          simp only [LResult.mapS, finishChild_wrap]
          cases VisitorImpl.finishChild _ .root fate ctl b2 <;> rfl
    simp only [useRootsL, Builder.useRootsL, this]
    cases b.useRootL env prog fate st n with
    | failed e => rfl
    | stuck a => rfl
    | ended b1 st1 n1 ctl => exact ih b1 st1 n1

/-! ### With overflow checks: sizes of nodes only grow -/

/-- Every node of `b` is one of `b'`, with at least the same size. -/
def Grows (b b' : Builder) : Prop := ∀ (i : Nat) (d : TreeData), b.trees[i]? = some d → ∃ d' : TreeData, b'.trees[i]? = some d' ∧ d.size ≤ d'.size

theorem Grows.refl (b : Builder) : Grows b b := fun _ d h => ⟨d, h, Nat.le_refl _⟩

theorem Grows.of_trees {b b' : Builder} (h : b'.trees = b.trees) : Grows b b' := fun _ d hd => ⟨d, by rw [h]; exact hd, Nat.le_refl _⟩

theorem Grows.trans {a b c : Builder} (h : Grows a b) (h' : Grows b c) : Grows a c := by
  intro i d hd
  obtain ⟨d1, h1, l1⟩ := h i d hd
  obtain ⟨d2, h2, l2⟩ := h' i d1 h1
  exact ⟨d2, h2, Nat.le_trans l1 l2⟩

theorem Fits.of_grows [Target] {b b' : Builder} (h : Grows b b') (hf : Fits b') : Fits b := by
  intro d hd
  obtain ⟨i, hi⟩ := List.getElem?_of_mem hd
  obtain ⟨d', h', l⟩ := h i d hi
  exact Nat.lt_of_le_of_lt l (hf d' (List.mem_of_getElem? h'))

theorem down_grows {trees st k trees' st'} (h : down trees st k = .ok (trees', st')) :
    ∀ (i : Nat) (d : TreeData), trees[i]? = some d → ∃ d' : TreeData, trees'[i]? = some d' ∧ d.size ≤ d'.size := by
  simp only [down, Trees.index, Trees.update] at h
  cases hd : trees[st.tree]? with
  | none => simp [hd] at h
  | some d0 =>
    simp only [hd] at h
    cases hg : HMap.get? k d0.children with
    | some ch => simp only [hg] at h; cases h; exact fun i d hi => ⟨d, hi, Nat.le_refl _⟩
    | none =>
      simp only [hg] at h
      rw [if_pos (by simp [Trees.newTree])] at h
      cases h
      intro i d hi
      have hlt := (List.getElem?_eq_some_iff.1 hi).1
      by_cases e : i = st.tree
      · subst e
        rw [hd] at hi; cases hi
        refine ⟨{ d0 with children := d0.children ++ [(k, List.length trees)] }, by rw [Trees.newTree, List.getElem?_append_left (by simpa using hlt), List.getElem?_set_self hlt], Nat.le_refl _⟩
      · refine ⟨d, by rw [Trees.newTree, List.getElem?_append_left (by simpa using hlt), List.getElem?_set_ne (fun h => e h.symm)]; exact hi, Nat.le_refl _⟩

theorem downAndAdd_grows {b b' : Builder} {k n f} (hf : ∀ d, (f d).size = d.size) (h : b.downAndAdd k n f = .ok b') : Grows b b' := by
  simp only [Builder.downAndAdd] at h
  split at h
  · cases h
  · rename_i trees st hd
    have hg := down_grows hd
    simp only [Trees.update] at h
    split at h
    · cases h
    · rename_i trees' ht
      split at ht
      · rename_i d0 hd0
        cases ht
        cases h
        intro i d hi
        obtain ⟨d1, h1, l1⟩ := hg i d hi
        have hlt := (List.getElem?_eq_some_iff.1 h1).1
        by_cases e : i = st.tree
        · subst e
          rw [hd0] at h1; cases h1
          refine ⟨_, List.getElem?_set_self hlt, ?_⟩
          rw [hf]
          exact Nat.le_trans l1 (Nat.le_add_right _ _)
        · exact ⟨d1, by rw [List.getElem?_set_ne (fun h => e h.symm)]; exact h1, l1⟩
      · cases ht

theorem downAndAdd_fits [Target] {b b' : Builder} {k n f} (hf : ∀ d, (f d).size = d.size) (h : b.downAndAdd k n f = .ok b') (hb : Fits b') (c : Checks) :
    downAndAdd c b k n f = .ok (b', .returned) := by
  simp only [Builder.downAndAdd] at h
  simp only [downAndAdd]
  split at h
  · cases h
  · rename_i trees st hd
    simp only [hd]
    simp only [Trees.update, Trees.index] at *
    cases hd0 : trees[st.tree]? with
    | none => simp [hd0] at h
    | some d0 =>
      simp only [hd0] at h ⊢
      cases h
      have hlt := (List.getElem?_eq_some_iff.1 hd0).1
      have := hb (f { d0 with size := d0.size + n }) (List.mem_of_getElem? (List.getElem?_set_self hlt))
      rw [hf] at this
      rw [addUsize_fits this]

theorem enterShared_grows {b b' : Builder} {k n ptr kind some} (h : b.enterSharedImpl k n ptr kind = .ok (some, b')) : Grows b b' := by
  simp only [Builder.enterSharedImpl] at h
  split at h
  · cases h
  · rename_i b1 h1
    have hg := downAndAdd_grows (fun _ => rfl) h1
    split at h
    · split at h
      · cases h
      · rename_i b2 h2
        cases h
        exact hg.trans (Grows.of_trees (exitImpl_trees h2))
    · cases h
      exact hg.trans (Grows.of_trees rfl)

theorem enterShared_fits [Target] {b b' : Builder} {k n ptr kind some} (h : b.enterSharedImpl k n ptr kind = .ok (some, b')) (hb : Fits b') (c : Checks) :
    enterSharedImpl c b k n ptr = .ok (some, b', .returned) := by
  simp only [Builder.enterSharedImpl] at h
  simp only [enterSharedImpl]
  split at h
  · cases h
  · rename_i b1 h1
    have hb1 : Fits b1 := by
      split at h
      · split at h
        · cases h
        · rename_i b2 h2
          cases h
          exact Fits.of_grows (Grows.of_trees (exitImpl_trees h2)) hb
      · cases h
        exact Fits.of_grows (Grows.of_trees rfl) hb
    rw [downAndAdd_fits (f := id) (fun _ => rfl) h1 hb1 c]
    simp only
    split at h
    · rename_i hm
      rw [if_pos hm]
      split at h
      · cases h
      · rename_i b2 h2
        cases h
        rw [h2]
    · rename_i hm
      rw [if_neg hm]
      cases h
      rfl

/-- A statement about results: `r'` is what becomes of `r` with machine arithmetic. -/
def Follows [Target] (b : Builder) (r r' : LResult Builder) : Prop := ∀ b' st' n' ctl, r = .ended b' st' n' ctl → Grows b b' ∧ (Fits b' → r' = r)

theorem thenFinish_follows [Target] {kind fate} {b : Builder} {r r' : LResult Builder} {k k' : Builder → Store → Nat → LResult Builder} (h : Follows b r r')
    (hk : ∀ b st n, Follows b (k b st n) (k' b st n)) :
    Follows b (r.thenFinish Builder.visitorImpl kind fate k) (r'.thenFinish Builder.visitorImpl kind fate k') := by
  intro b' st' n' ctl e
  cases r with
  | failed e' => cases e
  | stuck a => cases e
  | ended s st n ctl1 =>
    obtain ⟨hg, hr⟩ := h s st n ctl1 rfl
    simp only [LResult.thenFinish] at e
    cases hfin : VisitorImpl.finishChild Builder.visitorImpl kind fate ctl1 s with
    | error e' => rw [hfin] at e; cases e
    | ok s' =>
      rw [hfin] at e
      have hg' := hg.trans (Grows.of_trees (finishChild_trees hfin))
      cases ctl1 with
      | unwinding =>
        cases e
        refine ⟨hg', fun hf => ?_⟩
        rw [hr (Fits.of_grows (Grows.of_trees (finishChild_trees hfin)) hf)]
        simp only [LResult.thenFinish, hfin]
      | returned =>
        obtain ⟨hg2, hr2⟩ := hk s' st n b' st' n' ctl e
        refine ⟨hg'.trans hg2, fun hf => ?_⟩
        rw [hr (Fits.of_grows ((Grows.of_trees (finishChild_trees hfin)).trans hg2) hf)]
        simp only [LResult.thenFinish, hfin]
        exact hr2 hf

theorem thenRelease_follows [Target] {b : Builder} {r r' : LResult Builder} {f : Nat → Store → Ctl → Store} {k k' : Builder → Store → Nat → LResult Builder} (h : Follows b r r')
    (hk : ∀ b st n, Follows b (k b st n) (k' b st n)) : Follows b (r.thenRelease f k) (r'.thenRelease f k') := by
  intro b' st' n' ctl e
  cases r with
  | failed e' => cases e
  | stuck a => cases e
  | ended s st n ctl1 =>
    obtain ⟨hg, hr⟩ := h s st n ctl1 rfl
    cases ctl1 with
    | unwinding =>
      cases e
      exact ⟨hg, fun hf => by rw [hr hf]; rfl⟩
    | returned =>
      obtain ⟨hg2, hr2⟩ := hk s _ _ b' st' n' ctl e
      refine ⟨hg.trans hg2, fun hf => ?_⟩
      rw [hr (Fits.of_grows hg2 hf)]
      exact hr2 hf

theorem Follows.after [Target] {a b : Builder} {r r' r'' : LResult Builder} (hg : Grows a b) (h : Follows b r r') (hr : ∀ b' st' n' ctl, r = .ended b' st' n' ctl → Fits b → r'' = r') :
    Follows a r r'' := by
  intro b' st' n' ctl e
  obtain ⟨h1, h2⟩ := h b' st' n' ctl e
  exact ⟨hg.trans h1, fun hf => (hr b' st' n' ctl e (Fits.of_grows h1 hf)).trans (h2 hf)⟩

theorem execL_follows [Target] (c : Checks) (env : Env) (prog : LProg) : ∀ (kind : NodeKind) (b : Builder) (st : Store) (n : Nat),
    Follows b (Allocative.execL Builder.visitorImpl env prog kind b st n) (execL c env prog kind b st n) := by
  induction prog with
  | done => intro kind b st n b' st' n' ctl e; cases e; exact ⟨Grows.refl _, fun _ => rfl⟩
  | panic => intro kind b st n b' st' n' ctl e; cases e; exact ⟨Grows.refl _, fun _ => rfl⟩
  | enter k z f body rest ih1 ih2 =>
    intro kind b st n
    have hi : Builder.visitorImpl.enterInlineImpl b k z kind = b.downAndAdd k z id := rfl
    simp only [execL, Allocative.execL, enterInlineImpl, hi]
    cases h1 : b.downAndAdd k z id with
    | error e => intro b' st' n' ctl e; cases e
    | ok b1 =>
      exact Follows.after (downAndAdd_grows (f := id) (fun _ => rfl) h1) (thenFinish_follows (ih1 .inline b1 st n) (ih2 kind))
        fun _ _ _ _ _ hf => by rw [downAndAdd_fits (f := id) (fun _ => rfl) h1 hf c]
  | enterUnique k z f body rest ih1 ih2 =>
    intro kind b st n
    have hi : Builder.visitorImpl.enterUniqueImpl b k z kind = b.downAndAdd k z (fun d => { d with unique := true }) := rfl
    simp only [execL, Allocative.execL, enterUniqueImpl, hi]
    cases h1 : b.downAndAdd k z (fun d => { d with unique := true }) with
    | error e => intro b' st' n' ctl e; cases e
    | ok b1 =>
      exact Follows.after (downAndAdd_grows (f := fun d => { d with unique := true }) (fun _ => rfl) h1) (thenFinish_follows (ih1 .unique b1 st n) (ih2 kind))
        fun _ _ _ _ _ hf => by rw [downAndAdd_fits (f := fun d => { d with unique := true }) (fun _ => rfl) h1 hf c]
  | enterShared k z ptr f body rs rn ih1 ih2 ih3 =>
    intro kind b st n
    have hi : Builder.visitorImpl.enterSharedImpl b k z ptr kind = b.enterSharedImpl k z ptr kind := rfl
    simp only [execL, Allocative.execL, hi]
    cases h1 : b.enterSharedImpl k z ptr kind with
    | error e => intro b' st' n' ctl e; cases e
    | ok r =>
      obtain ⟨some, b1⟩ := r
      cases some with
      | false =>
        exact Follows.after (enterShared_grows h1) (ih3 kind b1 st n) fun _ _ _ _ _ hf => by rw [enterShared_fits h1 hf c]
      | true =>
        exact Follows.after (enterShared_grows h1) (thenFinish_follows (ih1 .shared b1 st n) (ih2 kind))
          fun _ _ _ _ _ hf => by rw [enterShared_fits h1 hf c]
  | catchUnwind body rest ih1 ih2 =>
    intro kind b st n b' st' n' ctl e
    simp only [execL, Allocative.execL] at e ⊢
    have hb := ih1 kind b st n
    cases hr : Allocative.execL Builder.visitorImpl env body kind b st n with
    | failed e' => rw [hr] at e; cases e
    | stuck a => rw [hr] at e; cases e
    | ended b1 st1 n1 ctl1 =>
      rw [hr] at e hb
      obtain ⟨hg, hq⟩ := hb b1 st1 n1 ctl1 rfl
      obtain ⟨hg2, hq2⟩ := ih2 kind b1 st1 n1 b' st' n' ctl e
      refine ⟨hg.trans hg2, fun hf => ?_⟩
      rw [hq (Fits.of_grows hg2 hf)]
      exact hq2 hf
  | access how a inside rest ih1 ih2 =>
    intro kind b st n
    simp only [execL, Allocative.execL]
    cases how.call env a n st with
    | none => intro b' st' n' ctl e; cases e
    | some r =>
      simp only
      split
      · exact thenRelease_follows (ih1 kind b _ _) (ih2 kind)
      · exact ih2 kind b _ _
  | upgrade p inside rest ih1 ih2 =>
    intro kind b st n
    simp only [execL, Allocative.execL]
    split
    · exact thenRelease_follows (ih1 kind b _ _) (ih2 kind)
    · exact ih2 kind b _ _
  | load a next ih =>
    intro kind b st n
    exact ih _ kind b _ _

theorem useRootL_follows [Target] (c : Checks) (env : Env) (b : Builder) (prog : LProg) (fate : Fate) (st : Store) (n : Nat) :
    Follows b (b.useRootL env prog fate st n) (useRootL c env b prog fate st n) := by
  intro b1 st1 n1 ctl1 e1
  simp only [useRootL, Builder.useRootL] at e1 ⊢
  cases hrv : b.rootVisitor with
  | error e' => rw [hrv] at e1; cases e1
  | ok b0 =>
    rw [hrv] at e1
    simp only at e1 ⊢
    have hb0 : b0.trees = b.trees := by
      simp only [Builder.rootVisitor] at hrv
      split at hrv
      · cases hrv
      · cases hrv; rfl
    have hx := execL_follows c env prog .root b0 st n
    cases hr : Allocative.execL Builder.visitorImpl env prog .root b0 st n with
    | failed e' => rw [hr] at e1; cases e1
    | stuck a => rw [hr] at e1; cases e1
    | ended b2 st2 n2 ctl2 =>
      rw [hr] at e1 hx
      simp only at e1
      obtain ⟨hg, hq⟩ := hx b2 st2 n2 ctl2 rfl
      cases hfin : VisitorImpl.finishChild Builder.visitorImpl .root fate ctl2 b2 with
      | error e' => rw [hfin] at e1; cases e1
      | ok b3 =>
        rw [hfin] at e1
        cases e1
        have hg3 := Grows.of_trees (finishChild_trees hfin)
        refine ⟨(Grows.of_trees hb0).trans (hg.trans hg3), fun hf => ?_⟩
        rw [hq (Fits.of_grows hg3 hf)]
        rfl

theorem useRootsL_follows [Target] (c : Checks) (env : Env) (hist : List (LProg × Fate)) : ∀ (b : Builder) (st : Store) (n : Nat),
    Follows b (b.useRootsL env hist st n) (useRootsL c env b hist st n) := by
  induction hist with
  | nil => intro b st n b' st' n' ctl e; cases e; exact ⟨Grows.refl _, fun _ => rfl⟩
  | cons x rest ih =>
    intro b st n b' st' n' ctl e
    obtain ⟨prog, fate⟩ := x
    have key := useRootL_follows c env b prog fate st n
    simp only [useRootsL, Builder.useRootsL] at e ⊢
    cases hr : b.useRootL env prog fate st n with
    | failed e' => rw [hr] at e; cases e
    | stuck a => rw [hr] at e; cases e
    | ended b1 st1 n1 ctl1 =>
      rw [hr] at e key
      obtain ⟨hg, hq⟩ := key b1 st1 n1 ctl1 rfl
      obtain ⟨hg2, hq2⟩ := ih b1 st1 n1 b' st' n' ctl e
      refine ⟨hg.trans hg2, fun hf => ?_⟩
      rw [hq (Fits.of_grows hg2 hf)]
      exact hq2 hf

/-! ### Everything is given back -/

/-- Whatever the visit has taken since `st`, it has given back at the end. -/
def GivesBack {σ : Type} (st : Store) (r : LResult σ) : Prop := ∀ s st' n' ctl, r = .ended s st' n' ctl → st.SameHeld st'

theorem thenFinish_givesBack {σ : Type} {impl : VisitorImpl σ} {kind fate} {st : Store} {r : LResult σ} {k : σ → Store → Nat → LResult σ} (h : GivesBack st r) (hk : ∀ s st n, GivesBack st (k s st n)) :
    GivesBack st (r.thenFinish impl kind fate k) := by
  intro s' st' n' ctl e
  cases r with
  | failed e' => cases e
  | stuck a => cases e
  | ended s st1 n1 ctl1 =>
    have h1 := h s st1 n1 ctl1 rfl
    simp only [LResult.thenFinish] at e
    cases hfin : VisitorImpl.finishChild impl kind fate ctl1 s with
    | error e' => rw [hfin] at e; cases e
    | ok s2 =>
      rw [hfin] at e
      cases ctl1 with
      | unwinding => cases e; exact h1
      | returned => exact h1.trans (hk s2 st1 n1 s' st' n' ctl e)

theorem thenRelease_givesBack {σ : Type} {st st0 : Store} {r : LResult σ} {f : Nat → Store → Ctl → Store} {k : σ → Store → Nat → LResult σ} (h : GivesBack st0 r)
    (hf : ∀ n st' ctl, st0.SameHeld st' → st.SameHeld (f n st' ctl)) (hk : ∀ s st n, GivesBack st (k s st n)) : GivesBack st (r.thenRelease f k) := by
  intro s' st' n' ctl e
  cases r with
  | failed e' => cases e
  | stuck a => cases e
  | ended s st1 n1 ctl1 =>
    have h1 := h s st1 n1 ctl1 rfl
    cases ctl1 with
    | unwinding => cases e; exact hf _ _ _ h1
    | returned => exact (hf n1 st1 .returned h1).trans (hk s _ _ s' st' n' ctl e)

theorem call_sameHeld {env : Env} (he : env.Respectful) {how : Access} {a : Ptr} {n : Nat} {st st' : Store} {n' : Nat} (h : how.call env a n st = some (st', n')) : st.SameHeld st' := by
  obtain ⟨k, rfl, -⟩ := call_returns h
  exact he.sameHeld_again n st k

theorem GivesBack.from {σ : Type} {st st1 : Store} {r : LResult σ} (h : GivesBack st1 r) (h1 : st.SameHeld st1) : GivesBack st r :=
  fun s st' n' ctl e => h1.trans (h s st' n' ctl e)

theorem access_givesBack {σ : Type} {env : Env} (he : env.Respectful) {how : Access} {a : Ptr} {n : Nat} {st : Store} {inside rest : Store → Nat → LResult σ} {k : σ → Store → Nat → LResult σ}
    (hi : ∀ st n, GivesBack st (inside st n)) (hr : ∀ st n, GivesBack st (rest st n)) (hk : ∀ s st n, GivesBack st (k s st n)) :
    GivesBack st (match how.call env a n st with
      | none => .stuck a
      | some (st, n) =>
        if how.granted (st.lock a) then
          (inside { st with lock := setAt st.lock a (how.acquire (st.lock a)) } n).thenRelease
            (fun n st ctl => let st := env n st; { st with lock := setAt st.lock a (how.release (st.lock a) ctl) }) k
        else rest st n) := by
  cases hc : how.call env a n st with
  | none => intro _ _ _ _ e; cases e
  | some x =>
    obtain ⟨st1, n1⟩ := x
    have h1 := call_sameHeld he hc
    simp only
    split
    · rename_i hg
      exact (thenRelease_givesBack (st := st1) (hi _ _) (fun n st' ctl h => held_lock hg (h.trans (he.sameHeld n st')) ctl) hk).from h1
    · exact (hr st1 n1).from h1

theorem upgrade_givesBack {σ : Type} {env : Env} (he : env.Respectful) {p : Ptr} {n : Nat} {st : Store} {inside rest : Store → Nat → LResult σ} {k : σ → Store → Nat → LResult σ}
    (hi : ∀ st n, GivesBack st (inside st n)) (hr : ∀ st n, GivesBack st (rest st n)) (hk : ∀ s st n, GivesBack st (k s st n)) :
    GivesBack st (if ((env n st).count p).alive then
        (inside { env n st with count := setAt (env n st).count p { (env n st).count p with held := ((env n st).count p).held + 1 } } (n + 1)).thenRelease
          (fun n st _ => let st := env n st; { st with count := setAt st.count p (st.count p).drop }) k
      else rest (env n st) (n + 1)) := by
  have h1 := he.sameHeld n st
  split
  · exact (thenRelease_givesBack (st := env n st) (hi _ _) (fun n st' _ h => held_count (h.trans (he.sameHeld n st'))) hk).from h1
  · exact (hr _ _).from h1

theorem execL_givesBack [Target] (c : Checks) {env : Env} (he : env.Respectful) (prog : LProg) : ∀ (kind : NodeKind) (b : Builder) (st : Store) (n : Nat), GivesBack st (execL c env prog kind b st n) := by
  induction prog with
  | done => intro kind b st n s' st' n' ctl e; cases e; exact .refl _
  | panic => intro kind b st n s' st' n' ctl e; cases e; exact .refl _
  | enter k z f body rest ih1 ih2 =>
    intro kind b st n
    simp only [execL]
    split
    · intro _ _ _ _ e; cases e
    · intro _ _ _ _ e; cases e; exact .refl _
    · exact thenFinish_givesBack (ih1 _ _ _ _) (ih2 kind)
  | enterUnique k z f body rest ih1 ih2 =>
    intro kind b st n
    simp only [execL]
    split
    · intro _ _ _ _ e; cases e
    · intro _ _ _ _ e; cases e; exact .refl _
    · exact thenFinish_givesBack (ih1 _ _ _ _) (ih2 kind)
  | enterShared k z ptr f body rs rn ih1 ih2 ih3 =>
    intro kind b st n
    simp only [execL]
    split
    · intro _ _ _ _ e; cases e
    · intro _ _ _ _ e; cases e; exact .refl _
    · exact ih3 _ _ _ _
    · exact thenFinish_givesBack (ih1 _ _ _ _) (ih2 kind)
  | catchUnwind body rest ih1 ih2 =>
    intro kind b st n
    simp only [execL]
    have := ih1 kind b st n
    split
    · intro _ _ _ _ e; cases e
    · intro _ _ _ _ e; cases e
    · rename_i h
      exact (ih2 _ _ _ _).from (this _ _ _ _ h)
  | access how a inside rest ih1 ih2 =>
    intro kind b st n
    exact access_givesBack he (ih1 kind b) (ih2 kind b) (ih2 kind)
  | upgrade p inside rest ih1 ih2 =>
    intro kind b st n
    exact upgrade_givesBack he (ih1 kind b) (ih2 kind b) (ih2 kind)
  | load a next ih =>
    intro kind b st n
    exact (ih _ kind b _ _).from (he.sameHeld n st)

theorem useRootsL_givesBack [Target] (c : Checks) {env : Env} (he : env.Respectful) (hist : List (LProg × Fate)) : ∀ (b : Builder) (st : Store) (n : Nat), GivesBack st (useRootsL c env b hist st n) := by
  induction hist with
  | nil => intro b st n s' st' n' ctl e; cases e; exact .refl _
  | cons x rest ih =>
    intro b st n
    have key : GivesBack st (useRootL c env b x.1 x.2 st n) := by
      intro b1 st1 n1 ctl1 e
      simp only [useRootL] at e
      split at e
      · cases e
      · rename_i b0 _
        have hx := execL_givesBack c he x.1 .root b0 st n
        split at e
        · cases e
        · cases e
        · rename_i h
          split at e
          · cases e
          · cases e; exact hx _ _ _ _ h
    simp only [useRootsL]
    split
    · intro _ _ _ _ e; cases e
    · intro _ _ _ _ e; cases e
    · rename_i h
      exact (ih _ _ _).from (key _ _ _ _ h)

/-! ### size_of -/

theorem sizeOf_finish {kind : NodeKind} (hk : kind ≠ .shared) (f : Fate) (ctl : Ctl) (s : Nat) : SizeOf.visitorImpl.finishChild kind f ctl s = .ok s := by
  cases kind <;> cases f <;> cases ctl <;> first | rfl | exact absurd rfl hk

/-- `r` is the result of a visit with unbounded numbers that starts with `s`, `off` and `on` are those without and with overflow checks. -/
def SizeRel [Target] (nc : Prop) (s : Nat) (r off : LResult Nat) (on : LResult Nat) : Prop :=
  off = r.mapS (· % Usize.modulus) ∧
  ∀ s' st' n' ctl, r = .ended s' st' n' ctl → s ≤ s' ∧ (s' < Usize.modulus → on = r) ∧
    (nc → s < Usize.modulus → Usize.modulus ≤ s' → ∃ s'' st'' n'', on = .ended s'' st'' n'' .unwinding)

theorem thenFinish_sizeRel [Target] {nc : Prop} {kind : NodeKind} (hkind : kind ≠ .shared) {fate : Fate} {s : Nat} {r off on : LResult Nat} {k k1 k2 : Nat → Store → Nat → LResult Nat} (h : SizeRel nc s r off on)
    (hk : ∀ s st n, SizeRel nc s (k s st n) (k1 (s % Usize.modulus) st n) (k2 s st n)) :
    SizeRel nc s (r.thenFinish SizeOf.visitorImpl kind fate k) (off.thenFinish SizeOf.visitorImpl kind fate k1) (on.thenFinish SizeOf.visitorImpl kind fate k2) := by
  obtain ⟨rfl, h2⟩ := h
  cases r with
  | failed e => exact ⟨rfl, fun _ _ _ _ e => by cases e⟩
  | stuck a => exact ⟨rfl, fun _ _ _ _ e => by cases e⟩
  | ended s1 st1 n1 ctl1 =>
    obtain ⟨l1, f1, v1⟩ := h2 s1 st1 n1 ctl1 rfl
    cases ctl1 with
    | unwinding =>
      constructor
      · simp only [LResult.mapS, LResult.thenFinish, sizeOf_finish hkind]
      · intro s' st' n' ctl e
        simp only [LResult.thenFinish, sizeOf_finish hkind] at e
        cases e
        refine ⟨l1, fun h => by rw [f1 h]; simp only [LResult.thenFinish, sizeOf_finish hkind], fun hc h0 h => ?_⟩
        obtain ⟨s'', st'', n'', rfl⟩ := v1 hc h0 h
        exact ⟨s'', st'', n'', by simp only [LResult.thenFinish, sizeOf_finish hkind]⟩
    | returned =>
      obtain ⟨k1', k2'⟩ := hk s1 st1 n1
      constructor
      · simp only [LResult.mapS, LResult.thenFinish, sizeOf_finish hkind]; exact k1'
      · intro s' st' n' ctl e
        simp only [LResult.thenFinish, sizeOf_finish hkind] at e
        obtain ⟨l2, f2, v2⟩ := k2' s' st' n' ctl e
        refine ⟨Nat.le_trans l1 l2, fun h => ?_, fun hc h0 h => ?_⟩
        · rw [f1 (Nat.lt_of_le_of_lt l2 h)]
          simp only [LResult.thenFinish, sizeOf_finish hkind]
          exact f2 h
        · by_cases hs1 : s1 < Usize.modulus
          · rw [f1 hs1]
            simp only [LResult.thenFinish, sizeOf_finish hkind]
            exact v2 hc hs1 h
          · obtain ⟨s'', st'', n'', rfl⟩ := v1 hc h0 (Nat.le_of_not_lt hs1)
            exact ⟨s'', st'', n'', by simp only [LResult.thenFinish, sizeOf_finish hkind]⟩

theorem thenRelease_sizeRel [Target] {nc : Prop} {s : Nat} {r off on : LResult Nat} {f : Nat → Store → Ctl → Store} {k k1 k2 : Nat → Store → Nat → LResult Nat} (h : SizeRel nc s r off on)
    (hk : ∀ s st n, SizeRel nc s (k s st n) (k1 (s % Usize.modulus) st n) (k2 s st n)) :
    SizeRel nc s (r.thenRelease f k) (off.thenRelease f k1) (on.thenRelease f k2) := by
  obtain ⟨rfl, h2⟩ := h
  cases r with
  | failed e => exact ⟨rfl, fun _ _ _ _ e => by cases e⟩
  | stuck a => exact ⟨rfl, fun _ _ _ _ e => by cases e⟩
  | ended s1 st1 n1 ctl1 =>
    obtain ⟨l1, f1, v1⟩ := h2 s1 st1 n1 ctl1 rfl
    cases ctl1 with
    | unwinding =>
      refine ⟨rfl, fun s' st' n' ctl e => ?_⟩
      cases e
      refine ⟨l1, fun h => by rw [f1 h]; rfl, fun hc h0 h => ?_⟩
      obtain ⟨s'', st'', n'', rfl⟩ := v1 hc h0 h
      exact ⟨_, _, _, rfl⟩
    | returned =>
      obtain ⟨k1', k2'⟩ := hk s1 (f n1 st1 .returned) (n1 + 1)
      refine ⟨k1', fun s' st' n' ctl e => ?_⟩
      obtain ⟨l2, f2, v2⟩ := k2' s' st' n' ctl e
      refine ⟨Nat.le_trans l1 l2, fun h => ?_, fun hc h0 h => ?_⟩
      · rw [f1 (Nat.lt_of_le_of_lt l2 h)]
        exact f2 h
      · by_cases hs1 : s1 < Usize.modulus
        · rw [f1 hs1]
          exact v2 hc hs1 h
        · obtain ⟨s'', st'', n'', rfl⟩ := v1 hc h0 (Nat.le_of_not_lt hs1)
          exact ⟨_, _, _, rfl⟩

theorem SizeRel.weaken [Target] {nc nc' : Prop} {s r off on} (h : SizeRel nc s r off on) (hn : nc' → nc) : SizeRel nc' s r off on :=
  ⟨h.1, fun s' st' n' ctl e => ⟨(h.2 s' st' n' ctl e).1, (h.2 s' st' n' ctl e).2.1, fun hc => (h.2 s' st' n' ctl e).2.2 (hn hc)⟩⟩

theorem sizeOfExecL_rel [Target] (env : Env) (prog : LProg) : ∀ (kind : NodeKind) (s : Nat) (st : Store) (n : Nat),
    SizeRel prog.NoCatch s (Allocative.execL SizeOf.visitorImpl env prog kind s st n) (sizeOfExecL .off env prog kind (s % Usize.modulus) st n) (sizeOfExecL .on env prog kind s st n) := by
  induction prog with
  | done => intro kind s st n; exact ⟨rfl, fun _ _ _ _ e => by cases e; exact ⟨Nat.le_refl _, fun _ => rfl, fun _ h h' => absurd h (Nat.not_lt.2 h')⟩⟩
  | panic => intro kind s st n; exact ⟨rfl, fun _ _ _ _ e => by cases e; exact ⟨Nat.le_refl _, fun _ => rfl, fun _ h h' => absurd h (Nat.not_lt.2 h')⟩⟩
  | enter k z f body rest ih1 ih2 =>
    intro kind s st n
    let s1 : Nat := match kind with | .unique => s + z | _ => s
    have hle : s ≤ s1 := by simp only [s1]; split <;> omega
    have he : SizeOf.visitorImpl.enterInlineImpl s k z kind = .ok s1 := rfl
    have hoff : sizeOfInline .off (s % Usize.modulus) z kind = (s1 % Usize.modulus, .returned) := by
      cases kind <;> first | rfl | skip
      simp only [sizeOfInline, addUsize, s1]
      split
      · rename_i h
        split at h
        · cases h
        · cases h
      · rename_i h
        split at h
        · cases h; rename_i h'; simp only [Prod.mk.injEq, and_true]; word_omega
        · cases h; simp only [Prod.mk.injEq, and_true]; word_omega
    have hon : s1 < Usize.modulus → sizeOfInline .on s z kind = (s1, .returned) := by
      intro h
      cases kind <;> first | rfl | skip
      simp only [sizeOfInline, s1] at h ⊢
      rw [addUsize_fits h]
    have hov : s < Usize.modulus → ¬ s1 < Usize.modulus → sizeOfInline .on s z kind = (s, .unwinding) := by
      intro h0 h
      cases kind <;> first | exact absurd h0 h | skip
      simp only [s1] at h
      simp only [sizeOfInline, addUsize, if_neg h]
    have key := thenFinish_sizeRel (kind := .inline) (by simp) (fate := f) ((ih1 .inline s1 st n).weaken (nc' := body.NoCatch ∧ rest.NoCatch) And.left)
      (k := Allocative.execL SizeOf.visitorImpl env rest kind) (k1 := sizeOfExecL .off env rest kind) (k2 := sizeOfExecL .on env rest kind) fun s st n => (ih2 kind s st n).weaken And.right
    simp only [sizeOfExecL, Allocative.execL, he, hoff, LProg.NoCatch]
    refine ⟨key.1, fun s' st' n' ctl e => ?_⟩
    obtain ⟨l, fi, v⟩ := key.2 s' st' n' ctl e
    refine ⟨Nat.le_trans hle l, fun h => ?_, fun hc h0 h => ?_⟩
    · simp only [hon (Nat.lt_of_le_of_lt l h)]
      exact fi h
    · by_cases h1 : s1 < Usize.modulus
      · simp only [hon h1]
        exact v hc h1 h
      · simp only [hov h0 h1]
        exact ⟨_, _, _, rfl⟩
  | enterUnique k z f body rest ih1 ih2 =>
    intro kind s st n
    have he : SizeOf.visitorImpl.enterUniqueImpl s k z kind = .ok s := rfl
    simp only [sizeOfExecL, Allocative.execL, he, LProg.NoCatch]
    exact thenFinish_sizeRel (by simp) ((ih1 .unique s st n).weaken And.left) fun s st n => (ih2 kind s st n).weaken And.right
  | enterShared k z ptr f body rs rn ih1 ih2 ih3 =>
    intro kind s st n
    have he : SizeOf.visitorImpl.enterSharedImpl s k z ptr kind = .ok (false, s) := rfl
    simp only [sizeOfExecL, Allocative.execL, he, LProg.NoCatch]
    exact (ih3 kind s st n).weaken fun h => h.2.2
  | catchUnwind body rest ih1 ih2 =>
    intro kind s st n
    simp only [sizeOfExecL, Allocative.execL, LProg.NoCatch]
    obtain ⟨e1, h1⟩ := ih1 kind s st n
    rw [e1]
    cases hr : Allocative.execL SizeOf.visitorImpl env body kind s st n with
    | failed e => exact ⟨rfl, fun _ _ _ _ e => by cases e⟩
    | stuck a => exact ⟨rfl, fun _ _ _ _ e => by cases e⟩
    | ended s1 st1 n1 ctl1 =>
      rw [hr] at h1
      obtain ⟨l1, f1, -⟩ := h1 s1 st1 n1 ctl1 rfl
      obtain ⟨e2, h2⟩ := ih2 kind s1 st1 n1
      refine ⟨e2, fun s' st' n' ctl e => ?_⟩
      obtain ⟨l2, f2, -⟩ := h2 s' st' n' ctl e
      exact ⟨Nat.le_trans l1 l2, fun h => by rw [f1 (Nat.lt_of_le_of_lt l2 h)]; exact f2 h, fun hc => hc.elim⟩
  | access how a inside rest ih1 ih2 =>
    intro kind s st n
    simp only [sizeOfExecL, Allocative.execL, LProg.NoCatch]
    cases how.call env a n st with
    | none => exact ⟨rfl, fun _ _ _ _ e => by cases e⟩
    | some r =>
      simp only
      split
      · exact thenRelease_sizeRel ((ih1 kind s _ _).weaken And.left) fun s st n => (ih2 kind s st n).weaken And.right
      · exact (ih2 kind s _ _).weaken And.right
  | upgrade p inside rest ih1 ih2 =>
    intro kind s st n
    simp only [sizeOfExecL, Allocative.execL, LProg.NoCatch]
    split
    · exact thenRelease_sizeRel ((ih1 kind s _ _).weaken And.left) fun s st n => (ih2 kind s st n).weaken And.right
    · exact (ih2 kind s _ _).weaken And.right
  | load a next ih =>
    intro kind s st n
    exact (ih _ kind s _ _).weaken fun h => h _

theorem sizeOfExecL_givesBack [Target] (c : Checks) {env : Env} (he : env.Respectful) (prog : LProg) : ∀ (kind : NodeKind) (s : Nat) (st : Store) (n : Nat), GivesBack st (sizeOfExecL c env prog kind s st n) := by
  induction prog with
  | done => intro kind b st n s' st' n' ctl e; cases e; exact .refl _
  | panic => intro kind b st n s' st' n' ctl e; cases e; exact .refl _
  | enter k z f body rest ih1 ih2 =>
    intro kind b st n
    simp only [sizeOfExecL]
    split
    · intro _ _ _ _ e; cases e; exact .refl _
    · exact thenFinish_givesBack (ih1 _ _ _ _) (ih2 kind)
  | enterUnique k z f body rest ih1 ih2 =>
    intro kind b st n
    exact thenFinish_givesBack (ih1 _ _ _ _) (ih2 kind)
  | enterShared k z ptr f body rs rn ih1 ih2 ih3 =>
    intro kind b st n
    exact ih3 _ _ _ _
  | catchUnwind body rest ih1 ih2 =>
    intro kind b st n
    simp only [sizeOfExecL]
    have := ih1 kind b st n
    split
    · intro _ _ _ _ e; cases e
    · intro _ _ _ _ e; cases e
    · rename_i h
      exact (ih2 _ _ _ _).from (this _ _ _ _ h)
  | access how a inside rest ih1 ih2 =>
    intro kind b st n
    exact access_givesBack he (ih1 kind b) (ih2 kind b) (ih2 kind)
  | upgrade p inside rest ih1 ih2 =>
    intro kind b st n
    exact upgrade_givesBack he (ih1 kind b) (ih2 kind b) (ih2 kind)
  | load a next ih =>
    intro kind b st n
    exact (ih _ kind b _ _).from (he.sameHeld n st)

end Machine
end Allocative
