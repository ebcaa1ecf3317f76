import Verif.Lemmas.MachineLocks
import Verif.Lemmas.Machine
import Verif.Lemmas.Events
set_option linter.unusedSimpArgs false
/-
Visits beside other threads in a build with overflow checks: exactly as with unbounded numbers, or the builder is unusable afterwards.
-/
namespace Allocative
namespace Machine

/-- `r'` is the result with overflow checks of a visit that starts inside `n + 1` visitors, `r` that with unbounded numbers: no assertion of the builder fails, and at the end there are visitors (or nodes) too many, or nothing overflowed. -/
def Stops [Target] (n : Nat) (r r' : LResult Builder) : Prop :=
  match r' with
  | .failed _ => False
  | .stuck _ => True
  | .ended b' _ _ _ => Fits b' ∧ ∃ m, Live b' (n + 1 + m) ∧ (m = 0 → r = r')

theorem Stops.to [Target] {n n1 : Nat} {r r' r1 : LResult Builder} (h : Stops n1 r1 r') (hle : n ≤ n1) (hr : n1 = n → r1 = r) : Stops n r r' := by
  cases r' with
  | failed e => exact h
  | stuck a => trivial
  | ended b' st' t' ctl =>
    obtain ⟨hf, m, hl, he⟩ := h
    refine ⟨hf, n1 - n + m, by rw [show n + 1 + (n1 - n + m) = n1 + 1 + m by omega]; exact hl, fun hm => ?_⟩
    rw [← hr (by omega)]
    exact he (by omega)

theorem thenFinish_stops [Target] {n : Nat} {kind fate} {r r' : LResult Builder} {k k' : Builder → Store → Nat → LResult Builder} (h : Stops (n + 1) r r')
    (hk : ∀ b n st t, Live b (n + 1) → Fits b → Stops n (k b st t) (k' b st t)) :
    Stops n (r.thenFinish Builder.visitorImpl kind fate k) (r'.thenFinish Builder.visitorImpl kind fate k') := by
  cases r' with
  | failed e => exact h.elim
  | stuck a => trivial
  | ended b2 st2 t2 ctl =>
    obtain ⟨hf2, m, hl, he⟩ := h
    obtain ⟨b3, e3, h3, -⟩ := Live.finishChild (n := n + m) (by rw [show n + m + 2 = n + 1 + 1 + m by omega]; exact hl) kind fate ctl
    have hf3 : Fits b3 := Fits.of_grows (Grows.of_trees (finishChild_trees e3).symm) hf2
    simp only [LResult.thenFinish, e3]
    cases ctl with
    | unwinding =>
      refine ⟨hf3, m + fate.leaks .unwinding, by rw [show n + 1 + (m + fate.leaks .unwinding) = n + m + 1 + fate.leaks .unwinding by omega]; exact h3, fun hm => ?_⟩
      rw [he (by omega)]
      simp only [LResult.thenFinish, e3]
    | returned =>
      have := hk b3 (n + m + fate.leaks .returned) st2 t2 (by rw [show n + m + fate.leaks .returned + 1 = n + m + 1 + fate.leaks .returned by omega]; exact h3) hf3
      refine this.to (by omega) fun hm => ?_
      rw [he (by omega)]
      simp only [LResult.thenFinish, e3]

theorem thenRelease_stops [Target] {n : Nat} {r r' : LResult Builder} {f : Nat → Store → Ctl → Store} {k k' : Builder → Store → Nat → LResult Builder} (h : Stops n r r')
    (hk : ∀ b n st t, Live b (n + 1) → Fits b → Stops n (k b st t) (k' b st t)) : Stops n (r.thenRelease f k) (r'.thenRelease f k') := by
  cases r' with
  | failed e => exact h.elim
  | stuck a => trivial
  | ended b2 st2 t2 ctl =>
    obtain ⟨hf2, m, hl, he⟩ := h
    cases ctl with
    | unwinding => exact ⟨hf2, m, hl, fun hm => by rw [he hm]; rfl⟩
    | returned =>
      exact (hk b2 (n + m) (f t2 st2 .returned) (t2 + 1) (by rw [show n + m + 1 = n + 1 + m by omega]; exact hl) hf2).to (by omega) fun hm => by rw [he (by omega)]; rfl

/-- Entering: as with unbounded numbers, or a node without a visitor. -/
theorem downAndAdd_stops [Target] {b : Builder} {n : Nat} (h : Live b (n + 1)) (hf : Fits b) (k : Key) (z : Nat) (u : Bool) (f : TreeData → TreeData)
    (hu : ∀ d, (f d).size = d.size ∧ (f d).unique = (d.unique || u) ∧ (f d).children = d.children) :
    (∃ b1, b.downAndAdd k z f = .ok b1 ∧ downAndAdd .on b k z f = .ok (b1, .returned) ∧ Live b1 (n + 2) ∧ Fits b1 ∧ b1.visitedShared = b.visitedShared ∧ b1.current.stack ≠ []) ∨
    (∃ b1, downAndAdd .on b k z f = .ok (b1, .unwinding) ∧ Live b1 (n + 2) ∧ Fits b1) := by
  obtain ⟨recs, paths, hrep, ⟨p, hst⟩, -⟩ := h.wf
  by_cases hov : sizeAt recs (p ++ [k]) + z < Usize.modulus
  · obtain ⟨b1, e1, h1, v1, s1, -⟩ := h.enter k z u f hu
    have e : downAndAdd .on b k z f = .ok (b1, .returned) := by rw [(downAndAdd_cases hrep hst k z f).1 hov, e1]
    exact .inl ⟨b1, e1, e, h1, downAndAdd_inv (fun d => (hu d).1) e hf, v1, s1⟩
  · obtain ⟨b1, e1, h1, -⟩ := h.enter k 0 false id (by simp)
    have e : downAndAdd .on b k z f = .ok (b1, .unwinding) := by rw [(downAndAdd_cases hrep hst k z f).2 hov, e1]
    exact .inr ⟨b1, e, h1, downAndAdd_inv (fun d => (hu d).1) e hf⟩

/-- The node of a shared pointer that is new is put away. -/
theorem enterShared_live {b1 : Builder} {n : Nat} (h1 : Live b1 (n + 2)) (s1 : b1.current.stack ≠ []) (ptr : Ptr) :
    Live { b1 with visitedShared := ptr :: b1.visitedShared, shared := b1.current :: b1.shared, current := ⟨[], b1.root⟩ } (n + 2) := by
  obtain ⟨⟨recs, paths, hrep, ⟨p, hst⟩, hsh⟩, hroot, hent, hdepth⟩ := h1
  refine ⟨⟨recs, paths, hrep, ⟨[], .nil (by rw [hroot]; exact hrep.root)⟩, ?_⟩, hroot, hent, ?_⟩
  · intro st hm
    rcases List.mem_cons.1 hm with rfl | hm
    · exact ⟨s1, p, hst⟩
    · exact hsh st hm
  · simp only [Builder.depth, List.length_nil, List.map_cons, List.sum_cons] at hdepth ⊢; omega

theorem execL_stops [Target] (env : Env) (prog : LProg) : ∀ (kind : NodeKind) (b : Builder) (n : Nat) (st : Store) (t : Nat), Live b (n + 1) → Fits b →
    Stops n (Allocative.execL Builder.visitorImpl env prog kind b st t) (execL .on env prog kind b st t) := by
  induction prog with
  | done => intro kind b n st t h hf; exact ⟨hf, 0, h, fun _ => rfl⟩
  | panic => intro kind b n st t h hf; exact ⟨hf, 0, h, fun _ => rfl⟩
  | enter k z f body rest ih1 ih2 =>
    intro kind b n st t h hf
    have hi : Builder.visitorImpl.enterInlineImpl b k z kind = b.downAndAdd k z id := rfl
    simp only [execL, Allocative.execL, enterInlineImpl, hi]
    rcases downAndAdd_stops h hf k z false id (by simp) with ⟨b1, e1, e2, h1, f1, -⟩ | ⟨b1, e2, h1, f1⟩
    · simp only [e1, e2]
      exact thenFinish_stops (ih1 .inline b1 (n + 1) st t h1 f1) (ih2 kind)
    · simp only [e2]
      exact ⟨f1, 1, h1, fun h => by cases h⟩
  | enterUnique k z f body rest ih1 ih2 =>
    intro kind b n st t h hf
    have hi : Builder.visitorImpl.enterUniqueImpl b k z kind = b.downAndAdd k z (fun d => { d with unique := true }) := rfl
    simp only [execL, Allocative.execL, enterUniqueImpl, hi]
    rcases downAndAdd_stops h hf k z true (fun d => { d with unique := true }) (by simp) with ⟨b1, e1, e2, h1, f1, -⟩ | ⟨b1, e2, h1, f1⟩
    · simp only [e1, e2]
      exact thenFinish_stops (ih1 .unique b1 (n + 1) st t h1 f1) (ih2 kind)
    · simp only [e2]
      exact ⟨f1, 1, h1, fun h => by cases h⟩
  | enterShared k z ptr f body rs rn ih1 ih2 ih3 =>
    intro kind b n st t h hf
    have hi : Builder.visitorImpl.enterSharedImpl b k z ptr kind = b.enterSharedImpl k z ptr kind := rfl
    simp only [execL, Allocative.execL, hi, enterSharedImpl, Builder.enterSharedImpl]
    rcases downAndAdd_stops h hf k z false id (by simp) with ⟨b1, e1, e2, h1, f1, v1, s1⟩ | ⟨b1, e2, h1, f1⟩
    · simp only [e1, e2]
      by_cases hv : ptr ∈ b1.visitedShared
      · obtain ⟨b2, e3, h2, v2⟩ := h1.exit
        simp only [if_pos hv, e3]
        exact ih3 kind b2 n st t h2 (Fits.of_grows (Grows.of_trees (exitImpl_trees e3).symm) f1)
      · simp only [if_neg hv]
        exact thenFinish_stops (ih1 .shared _ (n + 1) st t (enterShared_live h1 s1 ptr) f1) (ih2 kind)
    · simp only [e2]
      exact ⟨f1, 1, h1, fun h => by cases h⟩
  | catchUnwind body rest ih1 ih2 =>
    intro kind b n st t h hf
    have hb := ih1 kind b n st t h hf
    simp only [execL, Allocative.execL]
    cases hr : execL .on env body kind b st t with
    | failed e => rw [hr] at hb; exact hb.elim
    | stuck a => trivial
    | ended b1 st1 t1 ctl =>
      rw [hr] at hb
      obtain ⟨f1, m, h1, e⟩ := hb
      exact (ih2 kind b1 (n + m) st1 t1 (by rw [show n + m + 1 = n + 1 + m by omega]; exact h1) f1).to (by omega) fun hm => by rw [e (by omega)]
  | access how a inside rest ih1 ih2 =>
    intro kind b n st t h hf
    simp only [execL, Allocative.execL]
    cases how.call env a t st with
    | none => trivial
    | some r =>
      simp only
      split
      · exact thenRelease_stops (ih1 kind b n _ _ h hf) (ih2 kind)
      · exact ih2 kind b n _ _ h hf
  | upgrade p inside rest ih1 ih2 =>
    intro kind b n st t h hf
    simp only [execL, Allocative.execL]
    split
    · exact thenRelease_stops (ih1 kind b n _ _ h hf) (ih2 kind)
    · exact ih2 kind b n _ _ h hf
  | load a next ih =>
    intro kind b n st t h hf
    exact ih _ kind b n _ _ h hf

/-- Leaving the root: between roots again, or never. -/
theorem root_stops [Target] {b : Builder} {m : Nat} (h : Live b (m + 1)) (fate : Fate) (ctl : Ctl) :
    ∃ b', Builder.visitorImpl.finishChild .root fate ctl b = .ok b' ∧ ((∃ recs paths, Idle b' recs paths) ∧ m = 0 ∨ ∃ m', Live b' m') := by
  by_cases hf : fate.leaks ctl = 0
  · rw [finishChild_closes _ _ hf, builder_exitImpl]
    cases m with
    | succ m => obtain ⟨b', e, h', -⟩ := h.exit; exact ⟨b', e, .inr ⟨_, h'⟩⟩
    | zero =>
      have hd := h.depth
      obtain ⟨recs, paths, hrep, ⟨p, hst⟩, hsh⟩ := h.wf
      have h1 : b.current.stack = [] := by
        unfold Builder.depth at hd; exact List.eq_nil_of_length_eq_zero (by omega)
      have h2 : b.shared = [] := by
        cases hs : b.shared with
        | nil => rfl
        | cons st sh =>
          have := (hsh st (by simp [hs])).1
          have : 0 < st.stack.length := by cases hh : st.stack <;> simp_all
          simp only [Builder.depth, hs, List.map_cons, List.sum_cons] at hd; omega
      have ht : b.current.tree = 0 := by
        rw [h1] at hst
        generalize b.current.tree = i at hst
        cases hst with
        | nil hr => exact nodup_getElem?_inj hrep.nodup hr hrep.root
      refine ⟨{ b with enteredRootVisitor := false }, by simp [Builder.exitImpl, h.entered, up, h1, h2], .inl ⟨⟨recs, paths, hrep, ?_, h2, h.root, rfl⟩, rfl⟩⟩
      show b.current = _
      rw [← h1, ← ht]
  · exact ⟨b, (finishChild_of_leaks _ _ hf b).1, .inr ⟨_, h⟩⟩

/-- With overflow checks: any roots one after the other. -/
theorem useRootsL_stops [Target] (env : Env) (hist : List (LProg × Fate)) : ∀ (b : Builder) (st : Store) (t : Nat), (∃ recs paths, Idle b recs paths) → Fits b →
    useRootsL .on env b hist st t = .failed .assertRootNotEntered ∨ (∃ a, useRootsL .on env b hist st t = .stuck a) ∨
    ∃ b' st' t' ctl, useRootsL .on env b hist st t = .ended b' st' t' ctl ∧
      ((∃ m, Live b' m) ∨ (∃ recs paths, Idle b' recs paths) ∧ Fits b' ∧ b.useRootsL env hist st t = .ended b' st' t' ctl) := by
  induction hist with
  | nil => intro b st t h hf; exact .inr (.inr ⟨b, st, t, .returned, rfl, .inr ⟨h, hf, rfl⟩⟩)
  | cons x rest ih =>
    intro b st t ⟨recs, paths, h⟩ hf
    obtain ⟨prog, fate⟩ := x
    have hs := execL_stops env prog .root { b with enteredRootVisitor := true } 0 st t (Idle.live h) hf
    have hroot : b.rootVisitor = .ok { b with enteredRootVisitor := true } := by
      simp only [Builder.rootVisitor, h.notEntered, Bool.false_eq_true, if_false]
    cases hr : execL .on env prog .root { b with enteredRootVisitor := true } st t with
    | failed e => rw [hr] at hs; exact hs.elim
    | stuck a => exact .inr (.inl ⟨a, by simp only [useRootsL, useRootL, hroot, hr]⟩)
    | ended b1 st1 t1 ctl =>
      rw [hr] at hs
      obtain ⟨f1, m, h1, e⟩ := hs
      obtain ⟨b2, e2, hb2⟩ := root_stops (m := m) (by rw [show m + 1 = 0 + 1 + m by omega]; exact h1) fate ctl
      have f2 : Fits b2 := Fits.of_grows (Grows.of_trees (finishChild_trees e2).symm) f1
      have er : useRootL .on env b prog fate st t = .ended b2 st1 t1 ctl := by simp only [useRootL, hroot, hr, e2]
      rcases hb2 with ⟨hi, hm⟩ | ⟨m', hl⟩
      · have eu : b.useRootL env prog fate st t = .ended b2 st1 t1 ctl := by simp only [Builder.useRootL, hroot, e hm, e2]
        simp only [useRootsL, Builder.useRootsL, er, eu]
        exact ih b2 st1 t1 hi f2
      · cases rest with
        | nil => exact .inr (.inr ⟨b2, st1, t1, .returned, by simp only [useRootsL, er], .inl ⟨m', hl⟩⟩)
        | cons y rest =>
          left
          have ey : useRootL .on env b2 y.1 y.2 st1 t1 = .failed .assertRootNotEntered := by simp only [useRootL, (Live.dead hl).1]
          simp only [useRootsL, er, ey]

end Machine
end Allocative
