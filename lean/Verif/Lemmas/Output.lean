import Verif.Lemmas.Finish
/-
`write_flame_graph` produces the specified self sizes and warnings.
-/
namespace Allocative

/-- `write_flame_graph` of the machine model and of the unbounded one in one: `own` is the self size of a node that is not the root, `warn` its
warning text. -/
def genWrite (own : TreeData → Nat) (warn : TreeData → List Str → Str) (ord : HashOrder TreeId) (trees : Trees) : Nat → TreeId → List Str → Except Panic (FlameGraph × Str)
  | 0, _, _ => .error .outOfFuel
  | fuel + 1, id, stack =>
    match trees.index id with
    | .error e => .error e
    | .ok tree =>
      (sortByKey (ord.run id tree.children)).foldlM
        (fun (acc : FlameGraph × Str) (kc : Key × TreeId) =>
          match genWrite own warn ord trees fuel kc.2 (stack ++ [kc.1.deref]) with
          | .error e => .error e
          | .ok (child, w) => .ok (acc.1.addChild kc.1 child, acc.2 ++ w))
        (.mk [] 0 (if stack = [] then 0 else own tree), warn tree stack)

/-- What the sub flame graph and the warnings of the node at stack `p` must be. -/
structure OutAt (rem : Path → Int) (paths : List Path) (Q : Key → Prop) (p : Path) (fg : FlameGraph) (ws : List Path) : Prop where
  built : fg.Built Q
  self : ∀ q, fg.selfAt q = if p ++ q ∈ paths then some (if p ++ q = [] then 0 else (rem (p ++ q)).toNat) else none
  nodup : ws.Nodup
  mem : ∀ w, w ∈ ws ↔ ∃ q, w = p ++ q ∧ w ∈ paths ∧ w ≠ [] ∧ rem w < 0
  sorted : (∀ k, Q k → k.Proper) → ws.Pairwise (fun a b => pathLt a.names b.names)

theorem remAt_neg {recs : List Rec} {p : Path} : remAt recs p < 0 ↔ uniqueAt recs p = false ∧ sizeAt recs p < childrenAt recs p := by
  unfold remAt
  cases uniqueAt recs p <;> simp <;> omega

theorem warningLine_eq {recs : List Rec} {p : Path} (h : remAt recs p < 0) :
    Builder.warningLine p.names (sizeAt recs p) ((sizeAt recs p : Int) - remAt recs p) = renderWarning recs p := by
  have hu := (remAt_neg.1 h).1
  have : (sizeAt recs p : Int) - remAt recs p = ((childrenAt recs p : Nat) : Int) := by
    unfold remAt; simp [hu]; omega
  rw [this]
  simp only [Builder.warningLine, renderWarning]
  rfl

/-- The loop over the sorted children. -/
theorem fold_children {rem : Path → Int} {W : Path → Str} {paths Q} {p : Path} {sub : Key × TreeId → Except Panic (FlameGraph × Str)} :
    ∀ (l : List (Key × TreeId)), (l.map Prod.fst).Nodup → (∀ kc ∈ l, Q kc.1) →
    (∀ kc ∈ l, ∃ fg ws, sub kc = .ok (fg, ws.flatMap W) ∧ OutAt rem paths Q (p ++ [kc.1]) fg ws) →
    ∀ (fg0 : FlameGraph) (w0 : Str), fg0.Built Q → (∀ kc ∈ l, HMap.get? kc.1 fg0.children = none) →
    ∃ fg wss, l.foldlM (fun (acc : FlameGraph × Str) kc =>
        match sub kc with
        | .error e => .error e
        | .ok (child, w) => .ok (acc.1.addChild kc.1 child, acc.2 ++ w)) (fg0, w0)
      = (.ok (fg, w0 ++ (l.flatMap wss).flatMap W) : Except Panic (FlameGraph × Str)) ∧
      fg.Built Q ∧ fg.nodeSize = fg0.nodeSize ∧
      (∀ k q, fg.selfAt (k :: q) = if k ∈ l.map Prod.fst then
          (if p ++ k :: q ∈ paths then some ((rem (p ++ k :: q)).toNat) else none) else fg0.selfAt (k :: q)) ∧
      (∀ kc ∈ l, (wss kc).Nodup ∧ (∀ w, w ∈ wss kc ↔ ∃ q, w = p ++ kc.1 :: q ∧ w ∈ paths ∧ w ≠ [] ∧ rem w < 0) ∧
        ((∀ k, Q k → k.Proper) → (wss kc).Pairwise (fun a b => pathLt a.names b.names))) := by
  intro l
  induction l with
  | nil =>
    intro _ _ _ fg0 w0 h0 _
    exact ⟨fg0, fun _ => [], by simp; rfl, h0, rfl, by simp, by simp⟩
  | cons kc rest ih =>
    intro hn hQ hsub fg0 w0 h0 hnone
    obtain ⟨k, c⟩ := kc
    simp only [List.map_cons, List.nodup_cons] at hn
    obtain ⟨fgc, ws, hs, ho⟩ := hsub (k, c) (by simp)
    have h1 : (fg0.addChild k fgc).Built Q := .addChild k (hQ (k, c) (by simp)) h0 ho.built
    obtain ⟨fg, wss, e, hok, hnode, hself, hwss⟩ := ih hn.2 (fun kc h => hQ kc (by simp [h])) (fun kc h => hsub kc (by simp [h]))
      (fg0.addChild k fgc) (w0 ++ ws.flatMap W) h1 (by
        intro kc hm
        have : k ≠ kc.1 := fun e => hn.1 (List.mem_map.2 ⟨kc, hm, e.symm⟩)
        simp only [FlameGraph.addChild, FlameGraph.mk_children, HMap.get?_upsert, if_neg this]
        exact hnone kc (by simp [hm]))
    refine ⟨fg, fun x => if x = (k, c) then ws else wss x, ?_, hok, hnode, ?_, ?_⟩
    · rw [List.foldlM_cons, hs]
      refine Eq.trans e ?_
      congr 2
      rw [List.flatMap_cons, List.append_assoc, List.flatMap_append, if_pos rfl]
      congr 3
      have : ∀ (l : List (Key × TreeId)), (∀ x ∈ l, x ≠ (k, c)) → l.flatMap wss = l.flatMap (fun x => if x = (k, c) then ws else wss x) := by
        intro l hl
        rw [List.flatMap, List.flatMap]
        congr 1
        apply List.map_congr_left
        intro x hx
        simp [hl x hx]
      apply this
      rintro x hx rfl
      exact hn.1 (List.mem_map.2 ⟨_, hx, rfl⟩)
    · intro k' q
      rw [hself, FlameGraph.selfAt_addChild ho.built.ok]
      simp only [List.map_cons, List.mem_cons]
      by_cases e1 : k' ∈ rest.map Prod.fst
      · simp [e1]
      · by_cases e2 : k = k'
        · subst e2
          have hg : fg0.selfAt (k :: q) = none := by
            rw [FlameGraph.selfAt_cons, hnone (k, c) (by simp)]; rfl
          simp only [e1, if_false, if_true, true_or, hg, ho.self]
          have hne : p ++ k :: q ≠ [] := by simp
          simp only [List.append_assoc, List.cons_append, List.nil_append, if_neg hne]
          split <;> rfl
        · simp [e1, e2, Ne.symm e2]
    · intro kc hm
      rcases List.mem_cons.1 hm with rfl | hm
      · simp only [if_true]
        exact ⟨ho.nodup, by intro w; rw [ho.mem]; simp [List.append_assoc], ho.sorted⟩
      · have : kc ≠ (k, c) := by rintro rfl; exact hn.1 (List.mem_map.2 ⟨_, hm, rfl⟩)
        simp only [if_neg this]
        exact hwss kc hm

theorem Rep.genWrite {trees recs paths} (own : TreeData → Nat) (warn : TreeData → List Str → Str) (rem : Path → Int) (W : Path → Str)
    (ord : HashOrder TreeId) (Q : Key → Prop) (h : Rep trees recs paths)
    (hg : ∀ (j : Nat) d p, trees[j]? = some d → paths[j]? = some p → own d = (rem p).toNat ∧
      warn d p.names = if p ≠ [] ∧ rem p < 0 then W p else [])
    (hQ : ∀ p ∈ paths, ∀ k ∈ p, Q k) :
    ∀ (fuel : Nat) (i : Nat) (p : Path), paths[i]? = some p → trees.length - i ≤ fuel →
    ∃ fg ws, Allocative.genWrite own warn ord trees fuel i p.names = .ok (fg, ws.flatMap W) ∧
      OutAt rem paths Q p fg ws := by
  intro fuel
  induction fuel with
  | zero =>
    intro i p hp hf
    have := (List.getElem?_eq_some_iff.1 hp).1
    rw [h.len] at this
    exact absurd hf (by omega)
  | succ fuel ih =>
    intro i p hp hf
    have hil := (List.getElem?_eq_some_iff.1 hp).1
    obtain ⟨d, hd⟩ := h.get hp
    have hpn : p.names = [] ↔ p = [] := by simp [Path.names]
    -- own node
    let fg0 : FlameGraph := .mk [] 0 (if p = [] then 0 else (rem p).toNat)
    have hfg0 : FlameGraph.mk [] 0 (if p.names = [] then 0 else own d) = fg0 := by
      simp only [fg0, hpn, (hg i d p hd hp).1]
    let w0 : List Path := if p ≠ [] ∧ rem p < 0 then [p] else []
    have hw0 : warn d p.names = w0.flatMap W := by
      rw [(hg i d p hd hp).2]
      simp only [w0]
      split <;> simp
    have hperm : (sortByKey (ord.run i d.children)).Perm d.children := (sortByKey_perm _).trans (ord.perm _ _)
    have hn : ((sortByKey (ord.run i d.children)).map Prod.fst).Nodup := ((hperm.map _).nodup_iff).2 (h.keys hd)
    have hchild : ∀ kc ∈ sortByKey (ord.run i d.children), paths[kc.2]? = some (p ++ [kc.1]) := by
      rintro ⟨k, c⟩ hm
      exact (h.child hp hd).1 (hperm.mem_iff.1 hm)
    have hQk : ∀ kc ∈ sortByKey (ord.run i d.children), Q kc.1 := by
      intro kc hm
      exact hQ _ (List.mem_of_getElem? (hchild kc hm)) kc.1 (by simp)
    obtain ⟨fg, wss, e, hok, hnode, hself, hwss⟩ := fold_children (rem := rem) (W := W) (paths := paths) (Q := Q) (p := p)
      (sub := fun kc => Allocative.genWrite own warn ord trees fuel kc.2 (p.names ++ [kc.1.deref]))
      (sortByKey (ord.run i d.children)) hn hQk (by
        rintro ⟨k, c⟩ hm
        have hlt := h.lt hd (hperm.mem_iff.1 hm)
        obtain ⟨fg, ws, e, ho⟩ := ih c (p ++ [k]) (hchild _ hm) (by omega)
        refine ⟨fg, ws, ?_, ho⟩
        rw [← e]; simp [Path.names, Key.deref])
      fg0 (w0.flatMap W) (by simpa [fg0, FlameGraph.addSelf, FlameGraph.default] using FlameGraph.Built.addSelf (Q := Q) (if p = [] then 0 else (rem p).toNat) .default) (by intro kc _; rfl)
    refine ⟨fg, w0 ++ (sortByKey (ord.run i d.children)).flatMap wss, ?_, hok, ?_, ?_, ?_, ?_⟩
    · rw [List.flatMap_append, ← e]
      simp only [Allocative.genWrite, Trees.index, hd]
      rw [← hfg0, ← hw0]
    · intro q
      cases q with
      | nil =>
        simp only [FlameGraph.selfAt_nil, hnode, List.append_nil, List.mem_of_getElem? hp, if_true, fg0,
          FlameGraph.mk_nodeSize]
      | cons k q =>
        rw [hself]
        by_cases hk : k ∈ (sortByKey (ord.run i d.children)).map Prod.fst
        · have hne : p ++ k :: q ≠ [] := by simp
          simp only [hk, if_true, if_neg hne]
        · have hnk : p ++ k :: q ∉ paths := by
            intro hm
            have hkm : p ++ [k] ∈ paths := Rep.prefix_mem h.toRepCore (p ++ [k]) q (by simpa [List.append_assoc] using hm)
            obtain ⟨c, hc⟩ := List.mem_iff_getElem?.1 hkm
            exact hk (List.mem_map.2 ⟨(k, c), hperm.mem_iff.2 ((h.child hp hd).2 hc), rfl⟩)
          simp only [hk, if_false, hnk]
          rw [FlameGraph.selfAt_cons]; rfl
    · -- no duplicates
      have hsub : ∀ kc ∈ sortByKey (ord.run i d.children), ∀ w ∈ wss kc, ∃ q, w = p ++ kc.1 :: q := by
        intro kc hm w hw
        obtain ⟨q, e, _⟩ := ((hwss kc hm).2.1 w).1 hw
        exact ⟨q, e⟩
      rw [List.nodup_append]
      refine ⟨by simp only [w0]; split <;> simp, ?_, ?_⟩
      · have : ∀ (l : List (Key × TreeId)), (l.map Prod.fst).Nodup → (∀ kc ∈ l, (wss kc).Nodup) →
            (∀ kc ∈ l, ∀ w ∈ wss kc, ∃ q, w = p ++ kc.1 :: q) → (l.flatMap wss).Nodup := by
          intro l
          induction l with
          | nil => simp
          | cons x rest ihl =>
            intro hn hd hs
            simp only [List.map_cons, List.nodup_cons] at hn
            rw [List.flatMap_cons, List.nodup_append]
            refine ⟨hd x (by simp), ihl hn.2 (fun kc h => hd kc (by simp [h])) (fun kc h => hs kc (by simp [h])), ?_⟩
            rintro a ha b hb rfl
            obtain ⟨y, hy, hb⟩ := List.mem_flatMap.1 hb
            obtain ⟨q, e1⟩ := hs x (by simp) a ha
            obtain ⟨q', e2⟩ := hs y (by simp [hy]) a hb
            rw [e1] at e2
            have := List.append_cancel_left e2
            simp only [List.cons.injEq] at this
            exact hn.1 (List.mem_map.2 ⟨y, hy, this.1.symm⟩)
        exact this _ hn (fun kc hm => (hwss kc hm).1) hsub
      · rintro a ha b hb rfl
        obtain ⟨y, hy, hb⟩ := List.mem_flatMap.1 hb
        obtain ⟨q, e1⟩ := hsub y hy a hb
        have : a = p := by
          simp only [w0] at ha
          split at ha <;> simp at ha
          exact ha
        rw [this] at e1
        have := congrArg List.length e1
        simp at this
    · intro w
      rw [List.mem_append, List.mem_flatMap]
      constructor
      · rintro (hw | ⟨kc, hm, hw⟩)
        · simp only [w0] at hw
          split at hw
          · rename_i hc
            simp at hw; subst hw
            exact ⟨[], by simp, List.mem_of_getElem? hp, hc.1, hc.2⟩
          · simp at hw
        · obtain ⟨q, e⟩ := ((hwss kc hm).2.1 w).1 hw
          exact ⟨kc.1 :: q, e⟩
      · rintro ⟨q, e, hm, hne, hr⟩
        cases q with
        | nil =>
          simp only [List.append_nil] at e; subst e
          exact .inl (by simp [w0, hne, hr])
        | cons k q =>
          right
          subst e
          have hkm : p ++ [k] ∈ paths := Rep.prefix_mem h.toRepCore (p ++ [k]) q (by simpa [List.append_assoc] using hm)
          obtain ⟨c, hc⟩ := List.mem_iff_getElem?.1 hkm
          have hmem := hperm.mem_iff.2 ((h.child hp hd).2 hc)
          exact ⟨(k, c), hmem, ((hwss _ hmem).2.1 _).2 ⟨q, rfl, hm, hne, hr⟩⟩
    · intro hprop
      rw [List.pairwise_append]
      refine ⟨by simp only [w0]; split <;> simp, ?_, ?_⟩
      · refine FlameGraph.flatMap_sorted (fun x => x) (stack := p) (sortByKey_sorted _) ?_ ?_ (fun kc hm => (hwss kc hm).2.2 hprop)
        · exact FlameGraph.nodup_names hn (fun kc hm => hprop _ (hQk kc hm))
        · intro kc hm w hw
          obtain ⟨q, e, _⟩ := ((hwss kc hm).2.1 w).1 hw
          exact ⟨q, e⟩
      · intro a ha b hb
        obtain ⟨y, hy, hb⟩ := List.mem_flatMap.1 hb
        obtain ⟨q, hq, _⟩ := ((hwss y hy).2.1 b).1 hb
        have ha : a = p := by
          simp only [w0] at ha
          split at ha <;> simp at ha
          exact ha
        rw [ha, hq]
        have := (pathLt_append_left p.names (a := []) (b := (y.1 :: q).map Key.s)).2 trivial
        simpa [Path.names] using this

theorem writeFlameGraph_gen (ord : HashOrder TreeId) (trees : Trees) : ∀ (fuel : Nat) (i : TreeId) (stack : List Str),
    Builder.writeFlameGraph ord trees fuel i stack = genWrite (fun d => d.remSize.toNat)
      (fun d stack => if d.remSize > 0 then [] else if d.remSize < 0 ∧ stack ≠ [] then Builder.warningLine stack d.size d.inlineChildrenSize else [])
      ord trees fuel i stack := by
  intro fuel
  induction fuel with
  | zero => intro i stack; rfl
  | succ fuel ih =>
    intro i stack
    simp only [Builder.writeFlameGraph, genWrite, ih]
    cases h : trees.index i with
    | error e => rfl
    | ok d =>
      have : (if d.remSize > 0 then if stack = [] then FlameGraph.default else FlameGraph.mk [] 0 d.remSize.toNat else FlameGraph.default) =
          .mk [] 0 (if stack = [] then 0 else d.remSize.toNat) := by
        simp only [FlameGraph.default]
        by_cases e : stack = []
        · simp [e]
        · by_cases e2 : d.remSize > 0
          · simp [e, e2]
          · have : d.remSize.toNat = 0 := by omega
            simp [e, e2, this]
      simp only [this]
      rfl

theorem Rep.writeFlameGraph {trees recs paths} (ord : HashOrder TreeId) (Q : Key → Prop) (h : Rep trees recs paths)
    (hg : ∀ j, Good recs paths trees j) (hQ : ∀ p ∈ paths, ∀ k ∈ p, Q k) (fuel : Nat) (i : Nat) (p : Path) (hp : paths[i]? = some p)
    (hf : trees.length - i ≤ fuel) :
    ∃ fg ws, Builder.writeFlameGraph ord trees fuel i p.names = .ok (fg, ws.flatMap (renderWarning recs)) ∧
      OutAt (remAt recs) paths Q p fg ws := by
  rw [writeFlameGraph_gen]
  refine h.genWrite _ _ (remAt recs) (renderWarning recs) ord Q ?_ hQ fuel i p hp hf
  intro j d p hd hp
  have hrem := hg j d p hd hp
  refine ⟨by rw [hrem], ?_⟩
  have hpn : p.names = [] ↔ p = [] := by simp [Path.names]
  simp only [TreeData.inlineChildrenSize, h.size hp hd, hrem, hpn, ne_eq]
  by_cases e : remAt recs p < 0
  · have e' : ¬ remAt recs p > 0 := by omega
    by_cases e2 : p = []
    · simp [e2]
    · simp only [e', e, e2, if_false, not_false_eq_true, and_self, if_true]
      exact warningLine_eq e
  · simp [e]

/-- `finish` on an idle builder. -/
theorem Idle.finish {b recs paths} (ord : HashOrder TreeId) (Q : Key → Prop) (h : Idle b recs paths)
    (hQ : ∀ r ∈ recs, ∀ k ∈ r.path, Q k) :
    ∃ (fg : FlameGraph) (ws : List Path), b.finish ord = .ok ⟨fg, ws.flatMap (renderWarning recs)⟩ ∧ fg.Built Q ∧
      (∀ p, fg.selfAt p = if p ∈ paths then some (selfSpec recs p) else none) ∧
      ws.Nodup ∧ (∀ w, w ∈ ws ↔ overfull recs w) ∧
      ((∀ k, Q k → k.Proper) → ws.Pairwise (fun a b => pathLt a.names b.names)) := by
  obtain ⟨trees, e, hrep, _, hgood⟩ := Rep.updateSizes (recs := recs) (paths := paths) ord b.trees.length b.trees 0 [] h.rep
    h.rep.root (by omega)
  have hg : ∀ j, Good recs paths trees j := by
    intro j d p hd hp
    exact hgood j p hp d p hd hp
  have hQ' : ∀ p ∈ paths, ∀ k ∈ p, Q k := by
    intro p hp k hk
    rcases (h.rep.mem p).1 hp with rfl | ⟨r, hr, rfl⟩
    · simp at hk
    · exact hQ r hr k hk
  obtain ⟨fg, ws, e2, ho⟩ := hrep.writeFlameGraph ord Q hg hQ' trees.length 0 [] hrep.root (by omega)
  refine ⟨fg, ws, ?_, ho.built, ?_, ho.nodup, ?_, ho.sorted⟩
  · have e2' : Builder.writeFlameGraph ord trees trees.length 0 [] = .ok (fg, ws.flatMap (renderWarning recs)) := e2
    simp only [Builder.finish, Builder.finishImpl, h.shared, h.current, h.notEntered, h.root, e, ne_eq, not_true_eq_false,
      Bool.false_eq_true, if_false, e2']
  · intro p; have := ho.self p; simpa [selfSpec] using this
  · intro w
    rw [ho.mem]
    constructor
    · rintro ⟨q, e, hm, hne, hr⟩
      have := (hrep.mem w).1 hm
      exact ⟨hne, this.resolve_left hne, remAt_neg.1 hr⟩
    · rintro ⟨hne, he, hr⟩
      exact ⟨w, by simp, (hrep.mem w).2 (.inr he), hne, remAt_neg.2 hr⟩

end Allocative
