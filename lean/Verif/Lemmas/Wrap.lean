import Verif.Lemmas.Machine
import Verif.Spec.Wrap
/-
Release builds: the builder with machine arithmetic is the unbounded one with sizes taken modulo `usize::MAX + 1`.
-/
set_option linter.unusedSimpArgs false
namespace Allocative.Machine
open FlameGraph

theorem addUsize_off [Target] (a b : Nat) : addUsize .off a b = .ok ((a + b) % Usize.modulus) := by
  simp only [addUsize]
  split
  · rw [Nat.mod_eq_of_lt ‹_›]
  · rfl

/-! ### flame graphs -/

mutual
/-- All sizes modulo `usize::MAX + 1`. -/
def wrapFG [Target] : FlameGraph → FlameGraph
  | .mk ch cs n => .mk (wrapList ch) (cs % Usize.modulus) (n % Usize.modulus)
def wrapList [Target] : List (Key × FlameGraph) → List (Key × FlameGraph)
  | [] => []
  | (k, c) :: rest => (k, wrapFG c) :: wrapList rest
end

theorem wrapList_eq [Target] (l : List (Key × FlameGraph)) : wrapList l = l.map fun kc => (kc.1, wrapFG kc.2) := by
  induction l with
  | nil => rfl
  | cons x l ih => obtain ⟨k, c⟩ := x; simp only [wrapList, ih, List.map_cons]

theorem wrapFG_nodeSize [Target] (fg) : (wrapFG fg).nodeSize = fg.nodeSize % Usize.modulus := by cases fg; rfl
theorem wrapFG_childrenSize [Target] (fg) : (wrapFG fg).childrenSize = fg.childrenSize % Usize.modulus := by cases fg; rfl
theorem wrapFG_children [Target] (fg) : (wrapFG fg).children = wrapList fg.children := by cases fg; rfl

theorem get?_wrapList [Target] (k : Key) (l : List (Key × FlameGraph)) : HMap.get? k (wrapList l) = (HMap.get? k l).map wrapFG := by
  induction l with
  | nil => rfl
  | cons x l ih =>
    obtain ⟨k', c⟩ := x
    simp only [wrapList, HMap.get?]
    split
    · rfl
    · exact ih

theorem selfAt_wrapFG [Target] (p : Path) : ∀ fg : FlameGraph, (wrapFG fg).selfAt p = (fg.selfAt p).map (· % Usize.modulus) := by
  induction p with
  | nil => intro fg; simp only [FlameGraph.selfAt, FlameGraph.find?, Option.map_some, wrapFG_nodeSize]
  | cons k p ih =>
    intro fg
    simp only [FlameGraph.selfAt, FlameGraph.find?, wrapFG_children, get?_wrapList]
    cases HMap.get? k fg.children with
    | none => rfl
    | some c => exact ih c

theorem totalSize_off [Target] (fg : FlameGraph) : totalSize .off (wrapFG fg) = .ok (fg.totalSize % Usize.modulus) := by
  simp only [totalSize, addUsize_off, wrapFG_nodeSize, wrapFG_childrenSize, FlameGraph.totalSize]
  rw [← Nat.add_mod]

theorem upsert_wrap [Target] {k : Key} {f : FlameGraph → Except Panic FlameGraph} {g : FlameGraph → FlameGraph} {v : FlameGraph}
    (h : ∀ e, f (wrapFG e) = .ok (wrapFG (g e))) : ∀ l : List (Key × FlameGraph),
    upsert k f (wrapFG v) (wrapList l) = .ok (wrapList (HMap.upsert k g v l)) := by
  intro l
  induction l with
  | nil => rfl
  | cons x l ih =>
    obtain ⟨k', c⟩ := x
    simp only [wrapList, upsert, HMap.upsert]
    split
    · rw [h]; simp only [wrapList]
    · rw [ih]; simp only [wrapList]

theorem addChild_off_aux [Target] {a b : FlameGraph} {k : Key} (h : ∀ e, add .off (wrapFG e) (wrapFG b) = .ok (wrapFG (e.add b))) :
    addChild .off (wrapFG a) k (wrapFG b) = .ok (wrapFG (a.addChild k b)) := by
  simp only [addChild, totalSize_off, addUsize_off, wrapFG_children, wrapFG_childrenSize, wrapFG_nodeSize, upsert_wrap (f := fun e => add .off e (wrapFG b)) (g := fun e => e.add b) h, FlameGraph.addChild, wrapFG]
  rw [← Nat.add_mod]

theorem add_off [Target] (b : FlameGraph) : ∀ a : FlameGraph, add .off (wrapFG a) (wrapFG b) = .ok (wrapFG (a.add b)) := by
  induction b using FlameGraph.induct with
  | h ch cs n ih =>
    intro a
    have hs : addSelf .off (wrapFG a) (n % Usize.modulus) = .ok (wrapFG (a.addSelf n)) := by
      cases a with
      | mk ch' cs' n' => simp only [addSelf, wrapFG, mk_nodeSize, addUsize_off, FlameGraph.addSelf, mk_children, mk_childrenSize, ← Nat.add_mod]
    simp only [wrapFG, add, hs, FlameGraph.add]
    generalize a.addSelf n = s
    induction ch generalizing s with
    | nil => rfl
    | cons x ch ihl =>
      obtain ⟨k, c⟩ := x
      have hc := addChild_off_aux (a := s) (k := k) (ih (k, c) (by simp))
      simp only [addChild] at hc
      simp only [wrapList, addAll, FlameGraph.addAll]
      have hih := ihl (fun kc hm => ih kc (by simp [hm])) (s.addChild k c)
      revert hc
      cases totalSize .off (wrapFG c) with
      | error e => intro hc; cases hc
      | ok t =>
        simp only
        cases addUsize .off (wrapFG s).childrenSize t with
        | error e => intro hc; cases hc
        | ok cs1 =>
          simp only
          cases upsert k (fun e => add .off e (wrapFG c)) (wrapFG c) (wrapFG s).children with
          | error e => intro hc; cases hc
          | ok l =>
            simp only
            intro hc
            rw [Except.ok.inj hc]
            exact hih

theorem addChild_off [Target] (a b : FlameGraph) (k : Key) : addChild .off (wrapFG a) k (wrapFG b) = .ok (wrapFG (a.addChild k b)) :=
  addChild_off_aux (add_off b)

/-! ### building -/

/-- The size of a node modulo `usize::MAX + 1`. -/
def wrapD [Target] (d : TreeData) : TreeData := { d with size := d.size % Usize.modulus }

def wrapB [Target] (b : Builder) : Builder := { b with trees := b.trees.map wrapD }

def mapOk {α β : Type} (f : α → β) : Except Panic α → Except Panic β
  | .error e => .error e
  | .ok a => .ok (f a)

theorem index_wrap [Target] (T : Trees) (i : TreeId) : Trees.index (T.map wrapD) i = mapOk wrapD (T.index i) := by
  simp only [Trees.index, List.getElem?_map]
  cases T[i]? <;> rfl

theorem update_wrap [Target] {f f' : TreeData → TreeData} (h : ∀ d, f' (wrapD d) = wrapD (f d)) (T : Trees) (i : TreeId) :
    Trees.update (T.map wrapD) i f' = mapOk (List.map wrapD) (T.update i f) := by
  simp only [Trees.update, List.getElem?_map]
  cases T[i]? with
  | none => rfl
  | some d => simp only [Option.map_some, mapOk, h, List.map_set]

theorem down_wrap [Target] (T : Trees) (st : TreeStack) (k : Key) :
    down (T.map wrapD) st k = mapOk (fun r => (r.1.map wrapD, r.2)) (down T st k) := by
  simp only [down, index_wrap]
  cases hd : Trees.index T st.tree with
  | error e => rfl
  | ok d =>
    simp only [mapOk, wrapD, List.length_map]
    cases HMap.get? k d.children with
    | some c => rfl
    | none =>
      simp only
      rw [update_wrap (f := fun d => { d with children := d.children ++ [(k, T.length)] }) (fun d => rfl)]
      cases T.update st.tree _ with
      | error e => rfl
      | ok T' =>
        have h2 : ∀ T : Trees, Trees.newTree (T.map wrapD) = (T.newTree.1, T.newTree.2.map wrapD) := fun T => by
          simp [Trees.newTree, wrapD]
        simp only [mapOk, h2]
        by_cases h : T'.newTree.1 = T.length
        · rw [if_pos h, if_pos h]
        · rw [if_neg h, if_neg h]

theorem downAndAdd_off [Target] {f : TreeData → TreeData} (hf : ∀ (d : TreeData) n, f { d with size := n % Usize.modulus } = wrapD (f { d with size := n }))
    (b : Builder) (k : Key) (n : Nat) :
    downAndAdd .off (wrapB b) k n f = mapOk (fun b => (wrapB b, .returned)) (b.downAndAdd k n f) := by
  simp only [downAndAdd, Builder.downAndAdd, wrapB, down_wrap]
  cases down b.trees b.current k with
  | error e => rfl
  | ok r =>
    obtain ⟨T, st⟩ := r
    simp only [mapOk, index_wrap, addUsize_off]
    simp only [Trees.index, Trees.update, List.getElem?_map]
    cases T[st.tree]? with
    | none => rfl
    | some d =>
      simp only [Option.map_some, mapOk]
      have : f { wrapD d with size := ((wrapD d).size + n) % Usize.modulus } = wrapD (f { d with size := d.size + n }) := by
        rw [← hf]
        simp only [wrapD, Nat.mod_add_mod]
      rw [this, ← List.map_set]

theorem exitImpl_wrap [Target] (b : Builder) : (wrapB b).exitImpl = mapOk wrapB b.exitImpl := by
  obtain ⟨v, T, c, sh, r, e⟩ := b
  cases e with
  | false => rfl
  | true =>
    simp only [Builder.exitImpl, wrapB, Bool.not_true, Bool.false_eq_true, if_false]
    cases up c with
    | some st => rfl
    | none =>
      cases sh with
      | nil => rfl
      | cons st sh =>
        simp only
        cases up st <;> rfl

theorem finishChild_wrap [Target] (kind : NodeKind) (f : Fate) (ctl : Ctl) (b : Builder) :
    Builder.visitorImpl.finishChild kind f ctl (wrapB b) = mapOk wrapB (Builder.visitorImpl.finishChild kind f ctl b) := by
  by_cases hf : f.leaks ctl = 0
  · rw [finishChild_closes _ _ hf, finishChild_closes _ _ hf, builder_exitImpl, builder_exitImpl]; exact exitImpl_wrap b
  · have : ∀ b, Builder.visitorImpl.finishChild kind f ctl b = .ok b := by
      intro b
      cases f <;> cases ctl <;> first | rfl | (simp [Fate.leaks] at hf)
    rw [this, this]; rfl

theorem exec_off [Target] (prog : Prog) : ∀ (kind : NodeKind) (b : Builder),
    exec .off prog kind (wrapB b) = mapOk (fun r => (wrapB r.1, r.2)) (Allocative.exec Builder.visitorImpl prog kind b) := by
  induction prog with
  | done => intro kind b; rfl
  | panic => intro kind b; rfl
  | enter k n f body rest ih1 ih2 =>
    intro kind b
    have hi : Builder.visitorImpl.enterInlineImpl b k n kind = b.downAndAdd k n id := rfl
    simp only [exec, Allocative.exec, enterInlineImpl, hi]
    rw [downAndAdd_off (fun _ _ => rfl)]
    cases b.downAndAdd k n id with
    | error e => rfl
    | ok b1 =>
      simp only [mapOk]
      rw [ih1]
      cases Allocative.exec Builder.visitorImpl body .inline b1 with
      | error e => rfl
      | ok r =>
        obtain ⟨b2, ctl⟩ := r
        simp only [mapOk]
        rw [finishChild_wrap]
        cases VisitorImpl.finishChild _ .inline f ctl b2 with
        | error e => rfl
        | ok b3 =>
          cases ctl with
          | unwinding => rfl
          | returned => exact ih2 kind b3
  | enterUnique k n f body rest ih1 ih2 =>
    intro kind b
    have hi : Builder.visitorImpl.enterUniqueImpl b k n kind = b.downAndAdd k n (fun d => { d with unique := true }) := rfl
    simp only [exec, Allocative.exec, enterUniqueImpl, hi]
    rw [downAndAdd_off (fun _ _ => rfl)]
    cases b.downAndAdd k n _ with
    | error e => rfl
    | ok b1 =>
      simp only [mapOk]
      rw [ih1]
      cases Allocative.exec Builder.visitorImpl body .unique b1 with
      | error e => rfl
      | ok r =>
        obtain ⟨b2, ctl⟩ := r
        simp only [mapOk]
        rw [finishChild_wrap]
        cases VisitorImpl.finishChild _ .unique f ctl b2 with
        | error e => rfl
        | ok b3 =>
          cases ctl with
          | unwinding => rfl
          | returned => exact ih2 kind b3
  | enterShared k n ptr f body rs rn ih1 ih2 ih3 =>
    intro kind b
    have hsh : enterSharedImpl .off (wrapB b) k n ptr = mapOk (fun r => (r.1, wrapB r.2, .returned)) (b.enterSharedImpl k n ptr kind) := by
      simp only [enterSharedImpl, Builder.enterSharedImpl]
      rw [downAndAdd_off (fun _ _ => rfl)]
      cases b.downAndAdd k n id with
      | error e => rfl
      | ok b1 =>
        simp only [mapOk]
        have : (wrapB b1).visitedShared = b1.visitedShared := rfl
        rw [this, exitImpl_wrap]
        split
        · cases b1.exitImpl <;> rfl
        · rfl
    have hi : ∀ kind b, Builder.visitorImpl.enterSharedImpl b k n ptr kind = b.enterSharedImpl k n ptr kind := fun _ _ => rfl
    simp only [exec, Allocative.exec, hsh, hi]
    cases b.enterSharedImpl k n ptr kind with
    | error e => rfl
    | ok r =>
      obtain ⟨some, b1⟩ := r
      cases some with
      | false => exact ih3 kind b1
      | true =>
        simp only [mapOk]
        rw [ih1]
        cases Allocative.exec Builder.visitorImpl body .shared b1 with
        | error e => rfl
        | ok r =>
          obtain ⟨b2, ctl⟩ := r
          simp only [mapOk]
          rw [finishChild_wrap]
          cases VisitorImpl.finishChild _ .shared f ctl b2 with
          | error e => rfl
          | ok b3 =>
            cases ctl with
            | unwinding => rfl
            | returned => exact ih2 kind b3
  | catchUnwind body rest ih1 ih2 =>
    intro kind b
    simp only [exec, Allocative.exec, ih1]
    cases Allocative.exec Builder.visitorImpl body kind b with
    | error e => rfl
    | ok r => exact ih2 kind r.1

theorem useRoots_off [Target] (hist : List (Prog × Fate)) : ∀ b : Builder, useRoots .off (wrapB b) hist = mapOk wrapB (b.useRoots hist) := by
  induction hist with
  | nil => intro b; rfl
  | cons x rest ih =>
    intro b
    obtain ⟨prog, fate⟩ := x
    have : useRoot .off (wrapB b) prog fate = mapOk (fun r => (wrapB r.1, r.2)) (b.useRoot prog fate) := by
      have hr : (wrapB b).rootVisitor = mapOk wrapB b.rootVisitor := by
        obtain ⟨v, T, c, sh, r, e⟩ := b
        cases e <;> rfl
      simp only [useRoot, Builder.useRoot, hr]
      cases b.rootVisitor with
      | error e => rfl
      | ok b1 =>
        simp only [mapOk, exec_off]
        cases Allocative.exec Builder.visitorImpl prog .root b1 with
        | error e => rfl
        | ok r =>
          obtain ⟨b2, ctl⟩ := r
          simp only [mapOk, finishChild_wrap]
          cases VisitorImpl.finishChild _ .root fate ctl b2 <;> rfl
    simp only [useRoots, Builder.useRoots, this]
    cases b.useRoot prog fate with
    | error e => rfl
    | ok r => exact ih r.1

/-! ### finish -/

theorem bits_mod [Target] (n : Nat) : asIsize (n % Usize.modulus) = bits n := by
  have h : ((n % Usize.modulus : Nat) : Int) = (n : Int) % ((Usize.modulus : Nat) : Int) := Int.natCast_emod n (Usize.modulus)
  unfold asIsize bits Int.bmod
  rw [h]
  generalize hx : (n : Int) % ((Usize.modulus : Nat) : Int) = x
  generalize hy : n % Usize.modulus = y at *
  by_cases hlt : y < Usize.half
  · rw [if_pos hlt, if_pos (by word_omega)]
  · rw [if_neg hlt, if_neg (by word_omega)]

theorem intText_eq (x : Int) : intText x = decimalInt x := by
  cases x with
  | ofNat n =>
    have h : ¬ (Int.ofNat n < 0) := Int.not_lt.2 (Int.natCast_nonneg n)
    simp only [intText, if_neg h, decimalInt, List.nil_append]; rfl
  | negSucc n =>
    have h : Int.negSucc n < 0 := Int.negSucc_lt_zero n
    simp only [intText, if_pos h, decimalInt, Int.natAbs_negSucc]; rfl

theorem sumSizes_off [Target] {T : Trees} : ∀ {l : List TreeId} {S acc : Nat}, Builder.sumSizes T l = .ok S →
    sumSizes .off (T.map wrapD) (acc % Usize.modulus) l = .ok ((acc + S) % Usize.modulus)
  | [], S, acc, h => by simp only [Builder.sumSizes] at h; have h := Except.ok.inj h; subst h; simp only [sumSizes, Nat.add_zero]
  | t :: rest, S, acc, h => by
    simp only [Builder.sumSizes] at h
    simp only [sumSizes, index_wrap]
    cases hd : T.index t with
    | error e => simp [hd] at h
    | ok d =>
      simp only [hd] at h
      cases hr : Builder.sumSizes T rest with
      | error e => simp [hr] at h
      | ok n =>
        simp only [hr] at h
        cases h
        simp only [mapOk, addUsize_off, wrapD, ← Nat.add_mod]
        rw [sumSizes_off hr, Nat.add_assoc]

/-- The remaining size of node `j` is that of a release build. -/
def GoodW [Target] (recs : List Rec) (paths : List Path) (trees : Trees) (j : Nat) : Prop :=
  ∀ d p, trees[j]? = some d → paths[j]? = some p → d.remSize = remWrap recs p

theorem updateSizes_off [Target] {recs paths} (ord : HashOrder TreeId) : ∀ (fuel : Nat) (trees : Trees) (i : Nat) (p : Path),
    Rep trees recs paths → paths[i]? = some p → trees.length - i ≤ fuel →
    ∃ trees' : Trees, updateSizes .off ord fuel i (trees.map wrapD) = .ok (trees'.map wrapD) ∧ Rep trees' recs paths ∧
      (∀ j, GoodW recs paths trees j → GoodW recs paths trees' j) ∧
      (∀ j q, paths[j]? = some (p ++ q) → GoodW recs paths trees' j) := by
  intro fuel
  induction fuel with
  | zero =>
    intro trees i p h hp hf
    have := (List.getElem?_eq_some_iff.1 hp).1
    rw [h.len] at this
    exact absurd hf (by omega)
  | succ fuel ih =>
    intro trees i p h hp hf
    have hil := (List.getElem?_eq_some_iff.1 hp).1
    obtain ⟨d, hd⟩ := h.get hp
    have loop : ∀ (l : List TreeId) (tr : Trees), Rep tr recs paths → (∀ c ∈ l, i < c ∧ ∃ k, paths[c]? = some (p ++ [k])) →
        ∃ tr' : Trees, l.foldlM (fun trees child => updateSizes .off ord fuel child trees) (tr.map wrapD) = .ok (tr'.map wrapD) ∧ Rep tr' recs paths ∧
          (∀ j, GoodW recs paths tr j → GoodW recs paths tr' j) ∧
          (∀ c ∈ l, ∀ k, paths[c]? = some (p ++ [k]) → ∀ j q, paths[j]? = some (p ++ [k] ++ q) → GoodW recs paths tr' j) := by
      intro l
      induction l with
      | nil => intro tr htr _; exact ⟨tr, rfl, htr, fun _ hj => hj, by simp⟩
      | cons c rest ihl =>
        intro tr htr hl
        obtain ⟨hic, k, hk⟩ := hl c (by simp)
        obtain ⟨tr1, e1, h1, g1, g1'⟩ := ih tr c (p ++ [k]) htr hk (by rw [← htr.len]; rw [← h.len] at hf; omega)
        obtain ⟨tr2, e2, h2, g2, g2'⟩ := ihl tr1 h1 (fun c' hc' => hl c' (by simp [hc']))
        refine ⟨tr2, ?_, h2, fun j hj => g2 j (g1 j hj), ?_⟩
        · rw [List.foldlM_cons, e1]; exact e2
        · intro c' hc' k' hk' j q hj
          rcases List.mem_cons.1 hc' with rfl | hc'
          · rw [hk] at hk'
            have : k = k' := by simpa using hk'
            subst this
            exact g2 j (g1' j q hj)
          · exact g2' c' hc' k' hk' j q hj
    have hch : ∀ c ∈ ord.run i (d.children.map Prod.snd), i < c ∧ ∃ k, paths[c]? = some (p ++ [k]) := by
      intro c hc
      obtain ⟨⟨k, c'⟩, hm, rfl⟩ := List.mem_map.1 ((ord.perm _ _).mem_iff.1 hc)
      exact ⟨h.lt hd hm, k, (h.child hp hd).1 hm⟩
    obtain ⟨tr, e, hrep, g, g'⟩ := loop _ trees h hch
    obtain ⟨d', hd'⟩ := hrep.get hp
    have hsum : Builder.sumSizes tr (ord.run i (d'.children.map Prod.snd)) = .ok (childrenAt recs p) := by
      rw [hrep.sumSizes, (((ord.perm _ _).map _).sum_nat), hrep.childrenSum hp hd']
      intro c hc
      obtain ⟨⟨k, c'⟩, hm, rfl⟩ := List.mem_map.1 ((ord.perm _ _).mem_iff.1 hc)
      have := (List.getElem?_eq_some_iff.1 ((hrep.child hp hd').1 hm)).1
      rw [hrep.len] at this; exact this
    have hsum' := sumSizes_off (acc := 0) hsum
    rw [Nat.zero_mod, Nat.zero_add] at hsum'
    have hsz := hrep.size hp hd'
    have hu := hrep.unique hp hd'
    have hwd : (Trees.index (trees.map wrapD) i) = .ok (wrapD d) := by rw [index_wrap, show Trees.index trees i = .ok d by simp only [Trees.index, hd]]; rfl
    have hwd' : (Trees.index (tr.map wrapD) i) = .ok (wrapD d') := by rw [index_wrap, show Trees.index tr i = .ok d' by simp only [Trees.index, hd']]; rfl
    have hgd : (tr.map wrapD)[i]? = some (wrapD d') := by rw [List.getElem?_map, hd']; rfl
    refine ⟨tr.set i { d' with remSize := remWrap recs p }, ?_, hrep.setRem hd' _, ?_, ?_⟩
    · have hc : (wrapD d).children = d.children := rfl
      have hc' : (wrapD d').children = d'.children := rfl
      have hu' : (wrapD d').unique = uniqueAt recs p := hu
      simp only [updateSizes, hwd, hc, e, hwd', hc', hu', hsum']
      have key : ∀ n : Nat, asIsize n = (if uniqueAt recs p then 0 else bits (childrenAt recs p)) →
          Trees.update (tr.map wrapD) i (fun d => { d with remSize := saturatingSub (asIsize d.size) (asIsize n) }) =
            .ok ((tr.set i { d' with remSize := remWrap recs p }).map wrapD) := by
        intro n hn
        simp only [Trees.update, hgd, List.map_set]
        have : ({ wrapD d' with remSize := saturatingSub (asIsize (wrapD d').size) (asIsize n) } : TreeData) =
            wrapD { d' with remSize := remWrap recs p } := by
          simp only [wrapD, hsz, bits_mod, hn, saturatingSub, remWrap, clamp]
        rw [this]
      cases hun : uniqueAt recs p with
      | true =>
        simp only [if_true]
        exact key 0 (by simp only [hun, if_true, asIsize, Usize.half_pos]; rfl)
      | false =>
        simp only [Bool.false_eq_true, if_false]
        exact key _ (by simp only [hun, bits_mod, Bool.false_eq_true, if_false])
    · intro j hj e p' he hp'
      rw [List.getElem?_set] at he
      split at he
      · rename_i h1; subst h1
        rw [hp] at hp'; cases hp'
        split at he
        · simp at he; simp [← he]
        · simp at he
      · exact g j hj e p' he hp'
    · intro j q hj e p' he hp'
      rw [List.getElem?_set] at he
      split at he
      · rename_i h1; subst h1
        rw [hp] at hp'; cases hp'
        split at he
        · simp at he; simp [← he]
        · simp at he
      · rename_i h1
        cases q with
        | nil =>
          simp only [List.append_nil] at hj
          exact absurd (nodup_getElem?_inj h.nodup hp hj) h1
        | cons k q =>
          have hkm : p ++ [k] ∈ paths := Rep.prefix_mem h.toRepCore (p ++ [k]) q
            (by simpa [List.append_assoc] using List.mem_of_getElem? hj)
          obtain ⟨c, hc⟩ := List.mem_iff_getElem?.1 hkm
          have hcm := (h.child hp hd).2 hc
          have : c ∈ ord.run i (d.children.map Prod.snd) :=
            (ord.perm _ _).mem_iff.2 (List.mem_map.2 ⟨(k, c), hcm, rfl⟩)
          exact g' c this k hc j q (by simpa [List.append_assoc] using hj) e p' he hp'

/-- Warning text of a node in a release build. -/
def warnOff [Target] (d : TreeData) (stack : List Str) : Str :=
  if d.remSize > 0 then []
  else if d.remSize < 0 ∧ stack ≠ [] then Builder.warningLine stack (d.size % Usize.modulus) (Int.bmod (bits d.size - d.remSize) (Usize.modulus))
  else []

theorem bmod_of [Target] {x : Int} (h1 : -Usize.half ≤ x) (h2 : x < Usize.half) : Int.bmod x (Usize.modulus) = x := by
  simp only [Int.bmod]; word_omega

theorem subIsize_off [Target] (a b : Int) : subIsize .off a b = .ok (Int.bmod (a - b) (Usize.modulus)) := by
  simp only [subIsize]
  split
  · rename_i h; rw [bmod_of h.1 h.2]
  · congr 1
    simp only [Int.bmod]
    word_omega

theorem nodeWarning_off [Target] (d : TreeData) (stack : List Str) : nodeWarning .off (wrapD d) stack = .ok (warnOff d stack) := by
  simp only [nodeWarning, warnOff, wrapD, subIsize_off, bits_mod]
  split
  · rfl
  · split <;> rfl

theorem writeFlameGraph_off [Target] (ord : HashOrder TreeId) (T : Trees) : ∀ (fuel : Nat) (i : TreeId) (stack : List Str),
    writeFlameGraph .off ord (T.map wrapD) fuel i stack =
      mapOk (fun r => (wrapFG r.1, r.2)) (genWrite (fun d => d.remSize.toNat) warnOff ord T fuel i stack) := by
  intro fuel
  induction fuel with
  | zero => intro i stack; rfl
  | succ fuel ih =>
    intro i stack
    simp only [writeFlameGraph, genWrite, index_wrap]
    cases hd : T.index i with
    | error e => rfl
    | ok d =>
      have hc : (wrapD d).children = d.children := rfl
      have hr : (wrapD d).remSize = d.remSize := rfl
      simp only [mapOk, nodeWarning_off, hc, hr]
      have h0 : (if d.remSize > 0 then if stack = [] then FlameGraph.default else .mk [] 0 (asUsize d.remSize) else .default) =
          wrapFG (.mk [] 0 (if stack = [] then 0 else d.remSize.toNat)) := by
        have h1 : FlameGraph.default = wrapFG (.mk [] 0 0) := rfl
        by_cases e : stack = []
        · simp only [e, if_true, h1]; split <;> rfl
        · simp only [e, if_false]
          by_cases e2 : d.remSize > 0
          · simp only [e2, if_true]
            have : asUsize d.remSize = d.remSize.toNat % Usize.modulus := by simp only [asUsize]; word_omega
            rw [this]; rfl
          · have : d.remSize.toNat = 0 := by omega
            simp only [e2, if_false, this, h1]
      rw [h0]
      generalize FlameGraph.mk [] 0 (if stack = [] then 0 else d.remSize.toNat) = fg
      generalize warnOff d stack = w
      generalize sortByKey (ord.run i d.children) = l
      induction l generalizing fg w with
      | nil => rfl
      | cons kc rest ihl =>
        simp only [List.foldlM_cons]
        rw [ih kc.2 (stack ++ [kc.1.deref])]
        cases genWrite (fun d => d.remSize.toNat) warnOff ord T fuel kc.2 (stack ++ [kc.1.deref]) with
        | error e => rfl
        | ok r =>
          obtain ⟨c, w1⟩ := r
          simp only [mapOk, addChild_off]
          exact ihl (fg.addChild kc.1 c) (w ++ w1)

theorem finish_off [Target] {b recs paths} (ord : HashOrder TreeId) (Q : Key → Prop) (h : Idle b recs paths)
    (hQ : ∀ r ∈ recs, ∀ k ∈ r.path, Q k) :
    ∃ (fg : FlameGraph) (ws : List Path), finish .off ord (wrapB b) = .ok ⟨wrapFG fg, ws.flatMap (renderWarningWrap recs)⟩ ∧ fg.Built Q ∧
      (∀ p, fg.selfAt p = if p ∈ paths then some (selfWrap recs p) else none) ∧
      ws.Nodup ∧ (∀ w, w ∈ ws ↔ w ≠ [] ∧ entered recs w ∧ remWrap recs w < 0) ∧
      ((∀ k, Q k → k.Proper) → ws.Pairwise (fun a b => pathLt a.names b.names)) := by
  obtain ⟨trees, e, hrep, _, hgood⟩ := updateSizes_off (recs := recs) (paths := paths) ord b.trees.length b.trees 0 [] h.rep
    h.rep.root (by omega)
  have hQ' : ∀ p ∈ paths, ∀ k ∈ p, Q k := by
    intro p hp k hk
    rcases (h.rep.mem p).1 hp with rfl | ⟨r, hr, rfl⟩
    · simp at hk
    · exact hQ r hr k hk
  obtain ⟨fg, ws, e2, ho⟩ := hrep.genWrite (fun d => d.remSize.toNat) warnOff (remWrap recs) (renderWarningWrap recs) ord Q (by
    intro j d p hd hp
    have hrem : d.remSize = remWrap recs p := hgood j p (by simpa using hp) d p hd hp
    have hsz := hrep.size hp hd
    have hpn : p.names = [] ↔ p = [] := by simp [Path.names]
    refine ⟨by simp only [hrem], ?_⟩
    simp only [warnOff, hrem, hsz, hpn, ne_eq]
    by_cases e : remWrap recs p < 0
    · have e' : ¬ remWrap recs p > 0 := by omega
      by_cases e2 : p = []
      · simp [e2]
      · simp only [e', e, e2, if_false, not_false_eq_true, and_self, if_true, Builder.warningLine, renderWarningWrap, intText_eq]
    · simp [e]) hQ' trees.length 0 [] hrep.root (by omega)
  refine ⟨fg, ws, ?_, ho.built, ?_, ho.nodup, ?_, ho.sorted⟩
  · have e2' : genWrite (fun d => d.remSize.toNat) warnOff ord trees trees.length 0 [] = .ok (fg, ws.flatMap (renderWarningWrap recs)) := e2
    have hl : (wrapB b).trees.length = b.trees.length := by simp [wrapB]
    have ht : (wrapB b).trees = b.trees.map wrapD := rfl
    have hr : (wrapB b).root = 0 := h.root
    have h1 : (wrapB b).shared = [] := h.shared
    have h2 : (wrapB b).current.stack = [] := by simp [wrapB, h.current]
    have h3 : (wrapB b).enteredRootVisitor = false := h.notEntered
    simp only [finish, h1, h2, h3, hl, hr, ne_eq, not_true_eq_false, Bool.false_eq_true, if_false, ht, e, List.length_map,
      writeFlameGraph_off, e2', mapOk]
  · intro p; have := ho.self p; simpa [selfWrap] using this
  · intro w
    rw [ho.mem]
    constructor
    · rintro ⟨q, e, hm, hne, hr⟩
      have := (hrep.mem w).1 hm
      exact ⟨hne, this.resolve_left hne, hr⟩
    · rintro ⟨hne, he, hr⟩
      exact ⟨w, by simp, (hrep.mem w).2 (.inr he), hne, hr⟩

/-! ### text -/

theorem writeImpl_wrapFG [Target] (ord : HashOrder (List Str)) (fg : FlameGraph) : ∀ stack : List Str,
    (∀ p n, fg.selfAt p = some n → n < Usize.modulus) → (fg.Ok fun _ => True) → (wrapFG fg).writeImpl ord stack = fg.writeImpl ord stack := by
  induction fg using FlameGraph.induct with
  | h ch cs n ih =>
    intro stack h hok
    have hn : n % Usize.modulus = n := Nat.mod_eq_of_lt (h [] n rfl)
    simp only [wrapFG, FlameGraph.writeImpl, hn]
    have : writeChildren ord (wrapList ch) stack = writeChildren ord ch stack := by
      rw [wrapList_eq, writeChildren_eq, writeChildren_eq, List.map_map]
      apply List.map_congr_left
      intro kc hm
      simp only [Function.comp]
      rw [ih kc hm _ ?_ (hok.sub kc hm)]
      intro p m hp
      refine h (kc.1 :: p) m ?_
      rw [FlameGraph.selfAt_cons]
      have : HMap.get? kc.1 ch = some kc.2 := HMap.get?_of_mem hok.nodup hm
      simp only [mk_children, this]
      exact hp
    rw [this]

end Allocative.Machine
