import Verif.Lemmas.Object
import Verif.Props.Core
/-
C08-C10: object graphs with shared pointers.
-/
namespace Allocative

/-- C08. For a list of roots in an object graph whose reachable cells are `L`: the visited addresses are exactly the reachable
cells, each once, and the records are those of the roots plus, once for each reachable cell, the records of the cell
at the top level (`own []`). -/
theorem C08_counted_once_iff_reachable (heap : Heap) (roots : List Obj) (L : List Ptr) (hn : L.Nodup)
    (hL : ∀ p, p ∈ L ↔ Reachable heap roots p) (fuel : Nat) (hf : L.length ≤ fuel) :
    (traceRoots (visits heap fuel roots) []).visited.Perm L ∧
    (records (visits heap fuel roots)).Perm (roots.flatMap (fun o => o.own []) ++ L.flatMap fun p => (heap p).own []) :=
  (visits_spec heap roots L hn hL fuel hf).2

/-- C08, in terms of the output: the sizes declared at each stack are those of the roots plus those of each reachable cell, once. -/
theorem C08_sizes (heap : Heap) (roots : List Obj) (L : List Ptr) (hn : L.Nodup) (hL : ∀ p, p ∈ L ↔ Reachable heap roots p)
    (fuel : Nat) (hf : L.length ≤ fuel) (st : Path) :
    sizeAt (records (visits heap fuel roots)) st =
      (roots.map fun o => sizeAt (o.own []) st).sum + (L.map fun p => sizeAt ((heap p).own []) st).sum := by
  have hp := (visits_spec heap roots L hn hL fuel hf).2.2
  have hfm : ∀ {α : Type} (l : List α) (f : α → List Rec), sizeAt (l.flatMap f) st = (l.map fun x => sizeAt (f x) st).sum := by
    intro α l f
    induction l with
    | nil => rfl
    | cons x l ih => simp only [List.flatMap_cons, List.map_cons, List.sum_cons, ← ih]; simp [sizeAt]
  rw [show sizeAt (records (visits heap fuel roots)) st = _ from (hp.map _).sum_nat, List.map_append, List.sum_append]
  rw [← hfm, ← hfm]; rfl

/-- C09. The visit of roots with finitely many reachable cells terminates: nesting pointees deeper than the number of reachable
cells never happens (that would be a panic of the model, and the visit would end `unwinding`), cycles or not; the builder is
left between roots; and more fuel does not change what is recorded. -/
theorem C09_terminates (heap : Heap) (roots : List Obj) (L : List Ptr) (hn : L.Nodup) (hL : ∀ p, p ∈ L ↔ Reachable heap roots p) :
    (∀ fuel, L.length ≤ fuel → ∀ pre o post, roots = pre ++ o :: post →
      ∃ b b', Builder.default.useRoots (visits heap fuel pre) = .ok b ∧ b.visitRoot (heap.visit fuel o) = .ok (b', .returned)) ∧
    (∀ fuel fuel', L.length ≤ fuel → L.length ≤ fuel' → (records (visits heap fuel roots)).Perm (records (visits heap fuel' roots))) := by
  refine ⟨?_, fun f f' h h' => (visits_spec heap roots L hn hL f h).2.2.trans (visits_spec heap roots L hn hL f' h').2.2.symm⟩
  intro fuel hf pre o post e
  subst e
  have hc : ∀ p ∈ L, ∀ q ∈ (heap p).ptrs, q ∈ L := fun p hp q hq => (hL q).2 (.step ((hL p).1 hp) hq)
  obtain ⟨_, l1, _⟩ := visits_traversed heap L hc fuel pre [] (fun o ho p hp => (hL p).2 (.root (by simp [ho]) hp))
    (by unfold unvisited; exact Nat.le_trans (List.length_filter_le _ _) hf)
  obtain ⟨b, paths, e, i, v⟩ := Idle.default.useRoots (hist := visits heap fuel pre) l1
  have hu : unvisited L b.visitedShared ≤ fuel := by unfold unvisited; exact Nat.le_trans (List.length_filter_le _ _) hf
  obtain ⟨c2, l2, _⟩ := visit_traversed heap L hc fuel o [] b.visitedShared (fun p hp => (hL p).2 (.root (by simp) hp)) hu
  obtain ⟨b', _, e', _⟩ := i.useRoot (prog := heap.visit fuel o) (fate := .exit) l2 (by rw [c2]; rfl)
  refine ⟨b, b', e, ?_⟩
  rw [Builder.visitRoot, e', c2]

/-- C09. The fuel of the model is not part of what is claimed: a visit (of any visitor implementation) ends in the sense of `Obj.Runs`, which has no bound, if and only if it returns with all
large amounts of fuel, with the same final state. -/
theorem C09_fuel_is_no_limit {σ : Type} (impl : VisitorImpl σ) (heap : Heap) (o : Obj) (kind : NodeKind) (s s' : σ) :
    (o.Runs impl heap kind s s' ↔ ∃ n, ∀ fuel, n ≤ fuel → exec impl (heap.visit fuel o) kind s = .ok (s', .returned)) ∧
    (∀ s'', o.Runs impl heap kind s s' → o.Runs impl heap kind s s'' → s' = s'') := by
  exact ⟨⟨runs_visit, fun ⟨n, h⟩ => visit_runs n o kind s s' (h n (Nat.le_refl _))⟩, fun s'' h h' => h.det h'⟩

/-- C09. The visits of all roots end, cycles or not, in a derivation without a bound (`Obj.RunsRoots`); its result is the builder that the model computes with any fuel from the number of reachable
cells on.  So the other properties, which speak of `visits heap fuel roots` with such a fuel, are about it. -/
theorem C09_runs (heap : Heap) (roots : List Obj) (L : List Ptr) (hn : L.Nodup) (hL : ∀ p, p ∈ L ↔ Reachable heap roots p) :
    ∃ b, Obj.RunsRoots heap .default roots b ∧ ∀ fuel, L.length ≤ fuel → Builder.default.useRoots (visits heap fuel roots) = .ok b := by
  have key : ∀ post pre, roots = pre ++ post → ∀ fuel, L.length ≤ fuel → ∀ b, Builder.default.useRoots (visits heap fuel pre) = .ok b →
      ∃ b', Obj.RunsRoots heap b post b' ∧ Builder.default.useRoots (visits heap fuel roots) = .ok b' := by
    intro post
    induction post with
    | nil => intro pre e fuel _ b hb; rw [List.append_nil] at e; subst e; exact ⟨b, .nil, hb⟩
    | cons o post ih =>
      intro pre e fuel hf b hb
      obtain ⟨b', b3, h1, h2⟩ := (C09_terminates heap roots L hn hL).1 fuel hf pre o post e
      obtain rfl : b' = b := by rw [hb] at h1; exact (Except.ok.inj h1).symm
      simp only [Builder.visitRoot] at h2
      have h2' := h2
      simp only [Builder.useRoot] at h2
      cases h3 : b'.rootVisitor with
      | error x => rw [h3] at h2; simp at h2
      | ok b1 =>
        rw [h3] at h2
        simp only at h2
        cases h4 : exec Builder.visitorImpl (heap.visit fuel o) .root b1 with
        | error x => rw [h4] at h2; simp at h2
        | ok r =>
          obtain ⟨b2, ctl⟩ := r
          rw [h4] at h2
          simp only at h2
          cases h5 : Builder.visitorImpl.finishChild .root .exit ctl b2 with
          | error x => rw [h5] at h2; simp at h2
          | ok b4 =>
            rw [h5] at h2
            simp only [Except.ok.injEq, Prod.mk.injEq] at h2
            obtain ⟨rfl, rfl⟩ := h2
            obtain ⟨b'', r, u⟩ := ih (pre ++ [o]) (by simp [e]) fuel hf b4 (by
              rw [visits, List.map_append, useRoots_append, ← visits, hb]
              simp only [List.map_cons, List.map_nil, Builder.useRoots, h2'])
            exact ⟨b'', .cons h3 (visit_runs fuel o _ _ _ h4) h5 r, u⟩
  obtain ⟨b, r, _⟩ := key roots [] rfl L.length (Nat.le_refl _) .default rfl
  refine ⟨b, r, fun fuel hf => ?_⟩
  obtain ⟨b', r', u⟩ := key roots [] rfl fuel hf .default rfl
  rw [r.det r']
  exact u

/-- C10. Reordering the roots and the fields of any object does not change text, total size or warnings. -/
theorem C10_order_irrelevant (heap heap' : Heap) (roots mid roots' : List Obj) (hh : ∀ p, (heap p).Shuffle (heap' p))
    (hr : roots.Perm mid) (hr' : Obj.ShuffleEach mid roots')
    (hk : ∀ o ∈ roots, o.KeysAre Key.Proper) (hkh : ∀ p, (heap p).KeysAre Key.Proper)
    (L : List Ptr) (hn : L.Nodup) (hL : ∀ p, p ∈ L ↔ Reachable heap roots p) (fuel fuel' : Nat)
    (hf : L.length ≤ fuel) (hf' : L.length ≤ fuel') (o1 o2 : HashOrder TreeId) (o1' o2' : HashOrder (List Str)) :
    ∃ obs, observe o1 o1' (visits heap fuel roots) = .ok obs ∧ observe o2 o2' (visits heap' fuel' roots') = .ok obs := by
  -- roots
  have hmem : ∀ {l l' : List Obj}, Obj.ShuffleEach l l' → (∀ o ∈ l, ∃ o' ∈ l', o.Shuffle o') ∧ (∀ o' ∈ l', ∃ o ∈ l, o.Shuffle o') := by
    intro l l' h
    induction h with
    | nil => simp
    | cons h _ ih =>
      constructor
      · intro o ho
        rcases List.mem_cons.1 ho with rfl | ho
        · exact ⟨_, by simp, h⟩
        · obtain ⟨o', h1, h2⟩ := ih.1 o ho; exact ⟨o', by simp [h1], h2⟩
      · intro o ho
        rcases List.mem_cons.1 ho with rfl | ho
        · exact ⟨_, by simp, h⟩
        · obtain ⟨o', h1, h2⟩ := ih.2 o ho; exact ⟨o', by simp [h1], h2⟩
  have hreach : ∀ p, Reachable heap' roots' p ↔ Reachable heap roots p := by
    intro p
    constructor
    · intro h
      induction h with
      | root ho hp =>
        obtain ⟨o, h1, h2⟩ := (hmem hr').2 _ ho
        exact .root (hr.mem_iff.2 h1) (h2.ptrs.mem_iff.2 hp)
      | step _ hp ih => exact .step ih ((hh _).ptrs.mem_iff.2 hp)
    · intro h
      induction h with
      | root ho hp =>
        obtain ⟨o, h1, h2⟩ := (hmem hr').1 _ (hr.mem_iff.1 ho)
        exact .root h1 (h2.ptrs.mem_iff.1 hp)
      | step _ hp ih => exact .step ih ((hh _).ptrs.mem_iff.1 hp)
  obtain ⟨l1, v1, r1⟩ := visits_spec heap roots L hn hL fuel hf
  obtain ⟨l2, v2, r2⟩ := visits_spec heap' roots' L hn (fun p => (hL p).trans (hreach p).symm) fuel' hf'
  refine observe_of_perm l1 l2 ?_ ?_ ?_ o1 o2 o1' o2'
  · intro x hx
    obtain ⟨o, ho, rfl⟩ := List.mem_map.1 hx
    exact visit_keysAre hkh fuel o (hk o ho)
  · intro x hx
    obtain ⟨o, ho, rfl⟩ := List.mem_map.1 hx
    obtain ⟨o', h1, h2⟩ := (hmem hr').2 o ho
    exact visit_keysAre (fun p => (hh p).keysAre.1 (hkh p)) fuel' o (h2.keysAre.1 (hk o' (hr.mem_iff.2 h1)))
  · refine r1.trans ((List.Perm.append ?_ ?_).trans r2.symm)
    · refine (hr.flatMap_right _).trans ?_
      clear hr hmem hreach r1 r2 l1 l2 hk v1 v2
      induction hr' with
      | nil => exact .refl _
      | cons h _ ih => exact (h.own []).append ih
    · have : ∀ l : List Ptr, (l.flatMap fun p => (heap p).own []).Perm (l.flatMap fun p => (heap' p).own []) := by
        intro l
        induction l with
        | nil => exact .refl _
        | cons p l ih => exact ((hh p).own []).append ih
      exact this L

/-! Non-vacuity: a cycle of two cells reachable from one of two roots; cell 3 is unreachable. -/

/-- Cell 1 → 2 → 1, cell 3 → 1. -/
def Ex.cyclic : Heap := fun p =>
  if p = 1 then .inline (Ex.k "A") 16 .exit (.shared (Ex.k "next") 8 2 .exit .nil) .nil
  else if p = 2 then .inline (Ex.k "B") 24 .exit (.inline (Ex.k "n") 4 .drop .nil (.shared (Ex.k "back") 8 1 .drop .nil)) .nil
  else if p = 3 then .shared (Ex.k "x") 8 1 .drop .nil
  else .nil

def Ex.roots : List Obj := [.inline (Ex.k "R") 8 .drop (.shared (Ex.k "p") 8 1 .drop .nil) .nil, .shared (Ex.k "q") 8 2 .exit .nil]

theorem Ex.reach (p : Ptr) : p ∈ [1, 2] ↔ Reachable Ex.cyclic Ex.roots p := by
  constructor
  · intro h
    simp only [List.mem_cons, List.not_mem_nil, or_false] at h
    rcases h with rfl | rfl
    · exact .root (o := Ex.roots[0]) (by simp [Ex.roots]) (by decide)
    · exact .root (o := Ex.roots[1]) (by simp [Ex.roots]) (by decide)
  · intro h
    induction h with
    | root ho hp =>
      simp only [Ex.roots, List.mem_cons, List.not_mem_nil, or_false] at ho
      rcases ho with rfl | rfl <;> simp [Obj.ptrs] at hp <;> simp [hp]
    | step _ hp ih =>
      simp only [List.mem_cons, List.not_mem_nil, or_false] at ih
      rcases ih with rfl | rfl <;> simp [Ex.cyclic, Obj.ptrs] at hp <;> simp [hp]

example : records (visits Ex.cyclic 2 Ex.roots) =
    [⟨[Ex.k "R"], 8, false⟩, ⟨[Ex.k "R", Ex.k "p"], 8, false⟩, ⟨[Ex.k "A"], 16, false⟩, ⟨[Ex.k "A", Ex.k "next"], 8, false⟩,
     ⟨[Ex.k "B"], 24, false⟩, ⟨[Ex.k "B", Ex.k "n"], 4, false⟩, ⟨[Ex.k "B", Ex.k "back"], 8, false⟩, ⟨[Ex.k "q"], 8, false⟩] := by decide

example := C09_runs Ex.cyclic Ex.roots [1, 2] (by decide) Ex.reach

example : (Ex.cyclic 2).Shuffle (.inline (Ex.k "B") 24 .exit (.shared (Ex.k "back") 8 1 .drop (.inline (Ex.k "n") 4 .drop .nil .nil)) .nil) :=
  .inline _ _ _ (.swapIS _ _ _ _ _ _ _ _ _) .nil

/-! The theorems of this file with a concrete case of their hypotheses: a cycle of two cells, two roots; and the same graph with other orders of roots and fields. -/

example := C08_counted_once_iff_reachable Ex.cyclic Ex.roots [1, 2] (by decide) Ex.reach 2 (by decide)
example := C08_sizes Ex.cyclic Ex.roots [1, 2] (by decide) Ex.reach 2 (by decide) [Ex.k "A"]
example := C09_terminates Ex.cyclic Ex.roots [1, 2] (by decide) Ex.reach

/-- `Ex.cyclic` with the fields of cell 2 exchanged. -/
def Ex.cyclicSwapped : Heap := fun p =>
  if p = 2 then .inline (Ex.k "B") 24 .exit (.shared (Ex.k "back") 8 1 .drop (.inline (Ex.k "n") 4 .drop .nil .nil)) .nil else Ex.cyclic p

theorem Ex.shuffle_same : ∀ o : Obj, o.Shuffle o
  | .nil => .nil
  | .inline _ _ _ a r => .inline _ _ _ (Ex.shuffle_same a) (Ex.shuffle_same r)
  | .unique _ _ _ a r => .unique _ _ _ (Ex.shuffle_same a) (Ex.shuffle_same r)
  | .shared _ _ _ _ r => .shared _ _ _ _ (Ex.shuffle_same r)

theorem Ex.cyclicSwapped_shuffle (p : Ptr) : (Ex.cyclic p).Shuffle (Ex.cyclicSwapped p) := by
  unfold Ex.cyclicSwapped
  split
  · rename_i h; subst h; exact .inline _ _ _ (.swapIS _ _ _ _ _ _ _ _ _) .nil
  · exact Ex.shuffle_same _

theorem Ex.cyclic_proper (p : Ptr) : (Ex.cyclic p).KeysAre Key.Proper := by
  unfold Ex.cyclic
  repeat' split
  all_goals simp [Obj.KeysAre, Ex.k, Key.Proper, Key.new, Key.newUnchecked]

example := C10_order_irrelevant Ex.cyclic Ex.cyclicSwapped Ex.roots Ex.roots.reverse Ex.roots.reverse Ex.cyclicSwapped_shuffle (List.reverse_perm _).symm
  (.cons (Ex.shuffle_same _) (.cons (Ex.shuffle_same _) .nil)) (by simp [Ex.roots, Obj.KeysAre, Ex.k, Key.Proper, Key.new, Key.newUnchecked]) Ex.cyclic_proper
  [1, 2] (by decide) Ex.reach 2 3 (by decide) (by decide)

end Allocative
