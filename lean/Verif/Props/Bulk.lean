import Verif.Spec.Bulk
import Verif.Model.SizeOf
import Verif.Model.Impls
import Verif.Props.Core
import Verif.Lemmas.Totals
import Verif.Lemmas.Datum
/-
C35: visiting plain elements in bulk is unobservable.
-/
set_option linter.unusedSimpArgs false
namespace Allocative

/-- Records that count the same for every stack. -/
structure SameCounts (a b : List Rec) : Prop where
  size : ∀ p, sizeAt a p = sizeAt b p
  children : ∀ p, childrenAt a p = childrenAt b p
  unique : ∀ p, uniqueAt a p = uniqueAt b p

theorem sizeAt_app (a b : List Rec) (p) : sizeAt (a ++ b) p = sizeAt a p + sizeAt b p := by simp [sizeAt]
theorem childrenAt_app (a b : List Rec) (p) : childrenAt (a ++ b) p = childrenAt a p + childrenAt b p := by simp [childrenAt]
theorem uniqueAt_app (a b : List Rec) (p) : uniqueAt (a ++ b) p = (uniqueAt a p || uniqueAt b p) := by simp [uniqueAt]

theorem SameCounts.refl (a) : SameCounts a a := ⟨fun _ => rfl, fun _ => rfl, fun _ => rfl⟩
theorem SameCounts.append {a a' b b'} (h : SameCounts a a') (h' : SameCounts b b') : SameCounts (a ++ b) (a' ++ b') :=
  ⟨fun p => by rw [sizeAt_app, sizeAt_app, h.size, h'.size], fun p => by rw [childrenAt_app, childrenAt_app, h.children, h'.children],
    fun p => by rw [uniqueAt_app, uniqueAt_app, h.unique, h'.unique]⟩
theorem SameCounts.cons (r) {a a'} (h : SameCounts a a') : SameCounts (r :: a) (r :: a') := (SameCounts.refl [r]).append h

theorem sum_all_zero {l : List Nat} (h : ∀ x ∈ l, x = 0) : l.sum = 0 := by
  induction l with
  | nil => rfl
  | cons a l ih => rw [List.sum_cons, h a (.head _), ih fun x hx => h x (.tail _ hx)]

theorem entered_of_size {recs : List Rec} {p : Path} (h : sizeAt recs p ≠ 0) : entered recs p := by
  refine Decidable.byContradiction fun hne => h ?_
  unfold sizeAt
  apply sum_all_zero
  intro x hx
  obtain ⟨r, hr, rfl⟩ := List.mem_map.1 hx
  rw [if_neg (fun e => hne ⟨r, hr, e⟩)]

theorem entered_of_children {recs : List Rec} (hc : Closed recs) {p : Path} (hp : p ≠ []) (h : childrenAt recs p ≠ 0) : entered recs p := by
  refine Decidable.byContradiction fun hne => h ?_
  unfold childrenAt
  apply sum_all_zero
  intro x hx
  obtain ⟨r, hr, rfl⟩ := List.mem_map.1 hx
  by_cases hch : isChild p r.path = true
  · exfalso
    simp only [isChild, Bool.and_eq_true, decide_eq_true_eq] at hch
    rcases hc.parent r hr with h | h
    · exact hp (hch.2 ▸ h)
    · exact hne (hch.2 ▸ h)
  · rw [if_neg hch]

theorem selfSpec_congr {a b : List Rec} (h : SameCounts a b) (p : Path) : selfSpec a p = selfSpec b p := by
  simp only [selfSpec, remAt, h.size, h.children, h.unique]

theorem selfSpec_eq_zero {a : List Rec} {p : Path} (h : ¬ entered a p) : selfSpec a p = 0 := by
  have : sizeAt a p = 0 := Decidable.byContradiction fun h' => h (entered_of_size h')
  unfold selfSpec remAt
  split
  · rfl
  · split <;> omega

/-- Stacks that are entered only with size 0 and without children cannot be observed. -/
theorem observe_of_counts {h1 h2 : List (Prog × Fate)} (hl1 : NoLeaks h1) (hl2 : NoLeaks h2) (hk1 : ProperKeys h1)
    (hk2 : ProperKeys h2) (hs : SameCounts (records h1) (records h2)) (o1 o2 : HashOrder TreeId) (o1' o2' : HashOrder (List Str)) :
    ∃ obs, observe o1 o1' h1 = .ok obs ∧ observe o2 o2' h2 = .ok obs := by
  obtain ⟨out1, ws1, e1, b1, s1, w1, n1, m1, so1⟩ := run_spec hl1 hk1 o1
  obtain ⟨out2, ws2, e2, b2, s2, w2, n2, m2, so2⟩ := run_spec hl2 hk2 o2
  have hget1 : ∀ p, (out1.flamegraph.selfAt p).getD 0 = selfSpec (records h1) p := by
    intro p
    rw [s1]
    split
    · rfl
    · rename_i h; rw [selfSpec_eq_zero (fun h' => h (.inr h'))]; rfl
  have hget2 : ∀ p, (out2.flamegraph.selfAt p).getD 0 = selfSpec (records h1) p := by
    intro p
    rw [s2, selfSpec_congr hs]
    split
    · rfl
    · rename_i h; rw [selfSpec_eq_zero (fun h' => h (.inr h'))]; rfl
  have hover : ∀ {a b : List Rec}, SameCounts a b → Closed b → ∀ p, overfull a p → overfull b p := by
    rintro a b hs hc p ⟨h1, h2, h3, h4⟩
    refine ⟨h1, ?_, by rw [← hs.unique]; exact h3, by rw [← hs.size, ← hs.children]; exact h4⟩
    refine entered_of_children hc h1 ?_
    rw [← hs.children]; omega
  have hsymm : SameCounts (records h2) (records h1) := ⟨fun p => (hs.size p).symm, fun p => (hs.children p).symm, fun p => (hs.unique p).symm⟩
  have hw : out1.warnings = out2.warnings := by
    have : ws1 = ws2 := pairwise_ext (r := fun a b => pathLt a.names b.names) (fun _ _ => pathLt_asymm)
      (so1 fun _ h => h) (so2 fun _ h => h) (fun w => by
        rw [m1, m2]
        exact ⟨hover hs (records_closed h2) w, hover hsymm (records_closed h1) w⟩)
    rw [w1, w2, this]
    congr 1
    funext p
    simp only [renderWarning, hs.size, hs.children]
  have hnz : ∀ {o : Option Nat} {n : Nat}, n ≠ 0 → (o = some n ↔ o.getD 0 = n) := by
    intro o n hn
    cases o with
    | none => simp; omega
    | some m => simp
  have ht : ∀ o o', out1.flamegraph.write o = out2.flamegraph.write o' := fun o o' =>
    write_congr b1.ok b2.ok (fun p n _ hn => by rw [hnz hn, hnz hn, hget1, hget2]) o o'
  have htot : out1.flamegraph.totalSize = out2.flamegraph.totalSize := by
    let l := FlameGraph.allPaths out1.flamegraph
    let l2 := (FlameGraph.allPaths out2.flamegraph).filter (fun p => p ∉ FlameGraph.allPaths out1.flamegraph)
    have hnd : (l ++ l2).Nodup := by
      rw [List.nodup_append]
      refine ⟨FlameGraph.nodup_allPaths _ b1.ok, (FlameGraph.nodup_allPaths _ b2.ok).filter _, ?_⟩
      intro a ha b hb e
      subst e
      have := (List.mem_filter.1 hb).2
      simp only [decide_eq_true_eq] at this
      exact this ha
    have hm1 : ∀ p, (out1.flamegraph.selfAt p).isSome → p ∈ l ++ l2 := fun p hp =>
      List.mem_append_left _ ((FlameGraph.mem_allPaths _ b1.ok p).2 hp)
    have hm2 : ∀ p, (out2.flamegraph.selfAt p).isSome → p ∈ l ++ l2 := fun p hp => by
      by_cases h : p ∈ l
      · exact List.mem_append_left _ h
      · exact List.mem_append_right _ (List.mem_filter.2 ⟨(FlameGraph.mem_allPaths _ b2.ok p).2 hp, by simpa using h⟩)
    rw [b1.ok.totalSize_eq_sum hnd hm1, b2.ok.totalSize_eq_sum hnd hm2]
    simp only [hget1, hget2]
  exact ⟨⟨out1.flamegraph.write o1', out1.flamegraph.totalSize, out1.warnings⟩, by simp only [observe, e1], by simp only [observe, e2, htot, hw, ht o1' o2']⟩

theorem sizeAt_one (r : Rec) (p) : sizeAt [r] p = if r.path = p then r.size else 0 := by simp [sizeAt]
theorem childrenAt_one (r : Rec) (p) : childrenAt [r] p = if isChild p r.path then r.size else 0 := by simp [childrenAt]
theorem uniqueAt_one (q : Path) (n : Nat) (p) : uniqueAt [⟨q, n, false⟩] p = false := by simp [uniqueAt]

theorem leaves_trace (k : Key) (size : Nat) (rest : Prog) (cur : Path) (vis : List Ptr) (n : Nat) :
    (Prog.leaves k size n rest).trace cur vis =
      let t := rest.trace cur vis
      ⟨List.replicate n ⟨cur ++ [k], size, false⟩ ++ t.recs, t.visited, t.ctl, t.leaked⟩ := by
  induction n with
  | zero => simp [Prog.leaves]
  | succ n ih => simp [Prog.leaves, Prog.trace, ih, List.replicate_succ, Fate.leaks]

theorem replicate_counts (q : Path) (size n : Nat) : SameCounts [⟨q, size * n, false⟩] (List.replicate n ⟨q, size, false⟩) := by
  induction n with
  | zero => exact ⟨fun p => by simp [sizeAt], fun p => by simp [childrenAt], fun p => by simp [uniqueAt]⟩
  | succ n ih =>
    rw [List.replicate_succ]
    have h2 : SameCounts [⟨q, size * (n + 1), false⟩] ([⟨q, size, false⟩] ++ [⟨q, size * n, false⟩]) := by
      constructor
      · intro p; rw [sizeAt_app, sizeAt_one, sizeAt_one, sizeAt_one]; simp only; split <;> simp [Nat.mul_add, Nat.add_comm]
      · intro p; rw [childrenAt_app, childrenAt_one, childrenAt_one, childrenAt_one]; simp only; split <;> simp [Nat.mul_add, Nat.add_comm]
      · intro p; rw [uniqueAt_app, uniqueAt_one, uniqueAt_one, uniqueAt_one]; rfl
    have h3 := (SameCounts.refl [⟨q, size, false⟩]).append ih
    exact ⟨fun p => (h2.size p).trans (h3.size p), fun p => (h2.children p).trans (h3.children p), fun p => (h2.unique p).trans (h3.unique p)⟩

theorem Bulk.trace {a b : Prog} (h : Bulk a b) : ∀ cur vis, SameCounts (a.trace cur vis).recs (b.trace cur vis).recs ∧
    (a.trace cur vis).visited = (b.trace cur vis).visited ∧ (a.trace cur vis).ctl = (b.trace cur vis).ctl ∧
    (a.trace cur vis).leaked = (b.trace cur vis).leaked := by
  induction h with
  | bulk k size n h ih =>
    intro cur vis
    obtain ⟨h1, h2, h3, h4⟩ := ih cur vis
    rw [leaves_trace]
    simp only [Prog.trace, Fate.leaks, Nat.zero_add, List.cons_append, List.nil_append]
    exact ⟨(replicate_counts _ size n).append h1, h2, h3, h4⟩
  | done => intro cur vis; exact ⟨.refl _, rfl, rfl, rfl⟩
  | panic => intro cur vis; exact ⟨.refl _, rfl, rfl, rfl⟩
  | enter k n f _ _ ih1 ih2 =>
    intro cur vis
    obtain ⟨h1, h2, h3, h4⟩ := ih1 (cur ++ [k]) vis
    simp only [Prog.trace]
    rw [h3]
    split
    · exact ⟨h1.cons _, h2, rfl, by simp only [h4]⟩
    · rw [h2]
      obtain ⟨g1, g2, g3, g4⟩ := ih2 cur _
      exact ⟨(h1.cons _).append g1, g2, g3, by simp only [h4, g4]⟩
  | enterUnique k n f _ _ ih1 ih2 =>
    intro cur vis
    obtain ⟨h1, h2, h3, h4⟩ := ih1 (cur ++ [k]) vis
    simp only [Prog.trace]
    rw [h3]
    split
    · exact ⟨h1.cons _, h2, rfl, by simp only [h4]⟩
    · rw [h2]
      obtain ⟨g1, g2, g3, g4⟩ := ih2 cur _
      exact ⟨(h1.cons _).append g1, g2, g3, by simp only [h4, g4]⟩
  | enterShared k n p f _ _ _ ih1 ih2 ih3 =>
    intro cur vis
    simp only [Prog.trace]
    by_cases hp : p ∈ vis
    · simp only [if_pos hp]
      obtain ⟨g1, g2, g3, g4⟩ := ih3 cur vis
      exact ⟨g1.cons _, g2, g3, g4⟩
    · simp only [if_neg hp]
      obtain ⟨h1, h2, h3, h4⟩ := ih1 [] (p :: vis)
      rw [h3]
      split
      · exact ⟨h1.cons _, h2, rfl, by simp only [h4]⟩
      · rw [h2]
        obtain ⟨g1, g2, g3, g4⟩ := ih2 cur _
        exact ⟨(h1.cons _).append g1, g2, g3, by simp only [h4, g4]⟩
  | catchUnwind _ _ ih1 ih2 =>
    intro cur vis
    obtain ⟨h1, h2, h3, h4⟩ := ih1 cur vis
    simp only [Prog.trace]
    rw [h2]
    obtain ⟨g1, g2, g3, g4⟩ := ih2 cur _
    exact ⟨h1.append g1, g2, g3, by simp only [h4, g4]⟩

theorem leaves_keysAre {Q : Key → Prop} (k : Key) (size n : Nat) (rest : Prog) (hk : Q k) (h : rest.KeysAre Q) :
    (Prog.leaves k size n rest).KeysAre Q := by
  induction n with
  | zero => exact h
  | succ n ih => exact ⟨hk, trivial, ih⟩

theorem Bulk.keysAre {Q : Key → Prop} {a b : Prog} (h : Bulk a b) : a.KeysAre Q → b.KeysAre Q := by
  induction h with
  | bulk k size n h ih => rintro ⟨hk, _, hr⟩; exact leaves_keysAre k size n _ hk (ih hr)
  | done => exact id
  | panic => exact id
  | enter k n f _ _ ih1 ih2 => rintro ⟨a, b, c⟩; exact ⟨a, ih1 b, ih2 c⟩
  | enterUnique k n f _ _ ih1 ih2 => rintro ⟨a, b, c⟩; exact ⟨a, ih1 b, ih2 c⟩
  | enterShared k n p f _ _ _ ih1 ih2 ih3 => rintro ⟨a, b, c, d⟩; exact ⟨a, ih1 b, ih2 c, ih3 d⟩
  | catchUnwind _ _ ih1 ih2 => rintro ⟨a, b⟩; exact ⟨ih1 a, ih2 b⟩

theorem BulkHist.trace {a b : List (Prog × Fate)} (h : BulkHist a b) : ∀ vis, SameCounts (traceRoots a vis).recs (traceRoots b vis).recs ∧
    (traceRoots a vis).leaked = (traceRoots b vis).leaked := by
  induction h with
  | nil => intro vis; exact ⟨.refl _, rfl⟩
  | cons f h _ ih =>
    intro vis
    obtain ⟨h1, h2, h3, h4⟩ := h.trace [] vis
    simp only [traceRoots]
    rw [h2, h3, h4]
    obtain ⟨g1, g2⟩ := ih _
    exact ⟨h1.append g1, by simp only [g2]⟩

theorem BulkHist.keys {a b : List (Prog × Fate)} (h : BulkHist a b) (hk : ProperKeys a) : ProperKeys b := by
  induction h with
  | nil => exact hk
  | cons f h _ ih =>
    intro x hx
    rcases List.mem_cons.1 hx with rfl | hx
    · exact h.keysAre (hk _ (.head _))
    · exact ih (fun y hy => hk y (.tail _ hy)) x hx

/-- C35. Two histories that differ only in that one makes `n` calls `visit_simple(k, size)` where the other makes one call
`visit_simple(k, size * n)`, at any number of places, for any `n` (0 included), have the same flame graph text, total size and warnings. -/
theorem C35_builder {a b : List (Prog × Fate)} (h : BulkHist a b) (hl : NoLeaks a) (hk : ProperKeys a) (o1 o2 : HashOrder TreeId)
    (o1' o2' : HashOrder (List Str)) : ∃ obs, observe o1 o1' a = .ok obs ∧ observe o2 o2' b = .ok obs := by
  obtain ⟨h1, h2⟩ := h.trace []
  exact observe_of_counts hl (by unfold NoLeaks at hl ⊢; rw [← h2]; exact hl) hk (h.keys hk) h1 o1 o2 o1' o2'

theorem leaves_exec (k : Key) (size n : Nat) (rest : Prog) (kind : NodeKind) : ∀ (s : Nat),
    exec SizeOf.visitorImpl (Prog.leaves k size n rest) kind s = exec SizeOf.visitorImpl rest kind (s + if kind = .unique then size * n else 0) := by
  induction n with
  | zero => intro s; simp [Prog.leaves]
  | succ n ih =>
    intro s
    have h0 : SizeOf.visitorImpl.enterInlineImpl s k size kind = .ok (s + if kind = .unique then size else 0) := by
      cases kind <;> simp [SizeOf.visitorImpl]
    have h1 : ∀ s : Nat, SizeOf.visitorImpl.finishChild .inline .exit .returned s = .ok s := fun _ => rfl
    simp only [Prog.leaves, exec, h0, h1, ih]
    congr 1
    split
    · rw [Nat.mul_add, Nat.mul_one, Nat.add_comm (size * n) size]; exact Nat.add_assoc s size (size * n)
    · rfl

theorem Bulk.exec {a b : Prog} (h : Bulk a b) : ∀ (kind : NodeKind) (s : Nat),
    exec SizeOf.visitorImpl a kind s = exec SizeOf.visitorImpl b kind s := by
  induction h with
  | bulk k size n h ih =>
    intro kind s
    rw [leaves_exec, ← ih]
    refine (leaves_exec k (size * n) 1 _ kind s).trans ?_
    rw [Nat.mul_one]
  | done => intro kind s; rfl
  | panic => intro kind s; rfl
  | enter k n f _ _ ih1 ih2 => intro kind s; simp only [Allocative.exec, ih1, ih2]
  | enterUnique k n f _ _ ih1 ih2 => intro kind s; simp only [Allocative.exec, ih1, ih2]
  | enterShared k n p f _ _ _ ih1 ih2 ih3 => intro kind s; simp only [Allocative.exec, ih1, ih2, ih3]
  | catchUnwind _ _ ih1 ih2 => intro kind s; simp only [Allocative.exec, ih1, ih2]

/-- C35. `size_of_unique_allocated_data` and `size_of_unique` do not see the difference either. -/
theorem C35_size_of {a b : Prog} (h : Bulk a b) (sizeOfT : Nat) :
    SizeOf.sizeOfUniqueAllocatedData a = SizeOf.sizeOfUniqueAllocatedData b ∧ SizeOf.sizeOfUnique sizeOfT a = SizeOf.sizeOfUnique sizeOfT b := by
  have : SizeOf.sizeOfUniqueAllocatedData a = SizeOf.sizeOfUniqueAllocatedData b := by
    simp only [SizeOf.sizeOfUniqueAllocatedData, h.exec]
  exact ⟨this, by simp only [SizeOf.sizeOfUnique, this]⟩

theorem Bulk.refl (a : Prog) : Bulk a a := by
  induction a with
  | done => exact .done
  | panic => exact .panic
  | enter k n f _ _ h1 h2 => exact .enter k n f h1 h2
  | enterUnique k n f _ _ h1 h2 => exact .enterUnique k n f h1 h2
  | enterShared k n p f _ _ _ h1 h2 h3 => exact .enterShared k n p f h1 h2 h3
  | catchUnwind _ _ h1 h2 => exact .catchUnwind h1 h2

theorem append_assoc' (a b c : Obj) : (a.append b).append c = a.append (b.append c) := by
  induction a with
  | nil => rfl
  | inline k n e i r _ ih => simp only [Obj.append, ih]
  | unique k n e i r _ ih => simp only [Obj.append, ih]
  | shared k n p e r ih => simp only [Obj.append, ih]

/-- C35. That is the difference between `visit_iter`/`visit_slice` and visiting the elements one by one, for elements whose own visit
is a single leaf (`visit_simple_sized`, as for the primitive types), whatever is visited afterwards. -/
theorem C35_visit_iter [Target] (T : Ty) (items : List Value) (hv : ∀ v ∈ items, v.visit = Visit.simpleSized T) (hb : T.size * items.length < Usize.modulus)
    (content : Ptr → Prog) (after : Obj) :
    Bulk (((Visit.iter T items).append after).visitWith content) (((Visit.each items).append after).visitWith content) ∧
    Bulk (((Visit.slice T items).append after).visitWith content) (((Visit.each items).append after).visitWith content) := by
  have key : Bulk (((Visit.iter T items).append after).visitWith content) (((Visit.each items).append after).visitWith content) := by
    have heach : ((Visit.each items).append after).visitWith content = Prog.leaves T.key T.size items.length (after.visitWith content) := by
      clear hb
      induction items with
      | nil => rfl
      | cons v items ih =>
        have h1 := hv v (.head _)
        have ih := ih (fun w hw => hv w (.tail _ hw))
        simp only [Visit.each, List.map_cons, Obj.concat, h1, append_assoc'] at ih ⊢
        simp only [Visit.simpleSized, Visit.enterSelfSized, Visit.enter, Obj.append, Obj.visitWith, List.length_cons, Prog.leaves, ih, Ending.fate]
    unfold Visit.iter
    split
    · rw [heach, Usize.mul_eq hb]
      exact .bulk _ _ _ (.refl _)
    · exact .refl _
  exact ⟨key, key⟩

attribute [local instance] Target.x64 in
/-- A vector of three `u32`, and the same visited one by one. -/
def Ex.bulkHist (slice : Bool) : List (Prog × Fate) :=
  let T : Ty := ⟨ascii "u32", 4, false⟩
  let items : List Value := List.replicate 3 ⟨T, 4, Visit.simpleSized T⟩
  [((Visit.enterUnique ptrName 8 .exit ((if slice then Visit.slice T items else Visit.each items).append .nil)).visitWith (fun _ => .panic), .exit)]

attribute [local instance] Target.x64 in
example : BulkHist (Ex.bulkHist true) (Ex.bulkHist false) ∧ NoLeaks (Ex.bulkHist true) ∧ ProperKeys (Ex.bulkHist true) ∧
    records (Ex.bulkHist true) ≠ records (Ex.bulkHist false) := by
  refine ⟨.cons _ (.enterUnique _ _ _ (C35_visit_iter _ _ (by decide) (by decide) _ _).2 .done) .nil, by decide, ?_, by decide⟩
  simp [ProperKeys, Ex.bulkHist, Prog.KeysAre, Obj.visitWith, Obj.append, Visit.slice, Visit.iter, Visit.simple, Visit.enter, Visit.enterUnique,
    Key.Proper, Ty.key, Key.forTypeName, Key.new, Key.newUnchecked, ptrName]

/-! The theorems of this file with a concrete case of their hypotheses. -/

attribute [local instance] Target.x64 in
theorem Ex.bulkHist_bulk : Bulk (Ex.bulkHist true)[0].1 (Ex.bulkHist false)[0].1 :=
  .enterUnique _ _ _ (C35_visit_iter _ _ (by decide) (by decide) _ _).2 .done

theorem Ex.bulkHist_proper : ProperKeys (Ex.bulkHist true) := by
  simp [ProperKeys, Ex.bulkHist, Prog.KeysAre, Obj.visitWith, Obj.append, Visit.slice, Visit.iter, Visit.simple, Visit.enter, Visit.enterUnique,
    Key.Proper, Ty.key, Key.forTypeName, Key.new, Key.newUnchecked, ptrName]

example := C35_builder (.cons _ Ex.bulkHist_bulk .nil : BulkHist (Ex.bulkHist true) (Ex.bulkHist false)) (by decide) Ex.bulkHist_proper
example := C35_size_of Ex.bulkHist_bulk

end Allocative
