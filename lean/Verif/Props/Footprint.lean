import Verif.Lemmas.Footprint
import Verif.Props.Report
import Verif.Props.Layouts
set_option linter.unusedSimpArgs false
/-
C59: the total of a profile is the memory that the profiled values occupy.
-/
namespace Allocative

/-- The layouts computed for shared allocations are the real ones. -/
theorem Alloc.layout_exact [Target] {a : Alloc} {n : Nat} (h : a.Exact) (ho : a.Occupies n) (hn : n ≤ Layout.isizeMax) :
    ∃ l, a.layout = some l ∧ l.size = n ∧ a.value.size ≤ n := by
  have unique : ∀ {fs : List Layout} {o o' : List Nat} {l l' : Layout}, ReprC fs o l → ReprC fs o' l' → l = l' := by
    intro fs o o' l l' h h'
    exact (ReprC.unique h h').2
  cases a with
  | arc align v =>
    obtain ⟨offs, l, hl, rfl⟩ := ho
    obtain ⟨l', o, hl', he⟩ := C36_rc_box ⟨v.size, align⟩ h
    have := unique hl hl'
    subst this
    refine ⟨l, ?_, rfl, ?_⟩
    · show Impl.rcBoxLayout ⟨v.size, align⟩ = _
      rw [he, if_pos hn]
    · have := (C36_bounds _ h l (by rw [he, if_pos hn])).1
      simp only [Alloc.value] at *; omega
  | rc align v =>
    obtain ⟨offs, l, hl, rfl⟩ := ho
    obtain ⟨l', o, hl', he⟩ := C36_rc_box ⟨v.size, align⟩ h
    have := unique hl hl'
    subst this
    refine ⟨l, ?_, rfl, ?_⟩
    · show Impl.rcBoxLayout ⟨v.size, align⟩ = _
      rw [he, if_pos hn]
    · have := (C36_bounds _ h l (by rw [he, if_pos hn])).1
      simp only [Alloc.value] at *; omega
  | triomphe align v =>
    obtain ⟨offs, l, hl, rfl⟩ := ho
    obtain ⟨l', o, hl', he⟩ := C50_triomphe_arc ⟨v.size, align⟩ h
    have := unique hl hl'
    subst this
    refine ⟨l, ?_, rfl, ?_⟩
    · show Impl.triompheLayout ⟨v.size, align⟩ = _
      rw [he, if_pos hn]
    · obtain ⟨c1, c2, -, -, -, -, rs⟩ := reprC2 hl
      have := rs.2.1
      simp only [Alloc.value] at *
      omega
  | thin header elem reprLayout repr len v =>
    obtain ⟨hh, he, hd, hde, ⟨o1, h1⟩, hal, hwl, hs, o2, o3, h2, h3, hv⟩ := h
    obtain ⟨hwl', hs', inner, o2', o3', o4, h2', h3', h4, rfl⟩ := ho
    have e1 := unique h2 h2'
    subst e1
    have e2 := unique h3 h3'
    subst e2
    obtain ⟨l, el, -, ee⟩ := C50_thin_arc header elem reprLayout hwl hs inner len o1 o2 o3 o4 hh he hd hde h1 h2 h3 h4 hn
    refine ⟨l, el, ee hal, ?_⟩
    obtain ⟨c1, c2, -, -, -, -, rs⟩ := reprC2 h4
    have := rs.2.1
    simp only [Alloc.value] at *
    omega
  | future v =>
    have : n = v.size := ho
    exact ⟨⟨v.size, 1⟩, rfl, this.symm, Nat.le_of_eq this.symm⟩

/-- What is counted of a shared allocation. -/
theorem Alloc.cell_heap [Target] {a : Alloc} {n : Nat} (h : a.Exact) (ho : a.Occupies n) (hn : n ≤ Layout.isizeMax) (hw : a.value.WF) :
    a.cell.visit.Apart true ∧ a.cell.visit.heap true + a.unseen = n + a.value.heapBytes ∧ a.cell.datum = a.value := by
  obtain ⟨l, el, rfl, -⟩ := Alloc.layout_exact h ho hn
  have hf := accounted a.value hw false
  have ht := accounted a.value hw true
  have ha := (any a.value).at false
  have ha' := (any a.value).at true
  simp at hf ht
  cases a with
  | arc align v =>
    simp only [Alloc.cell, el, Cell.visit, Impl.arcInner, apart_enter, heap_enter, Alloc.unseen, Alloc.value, Cell.datum] at *
    exact ⟨ha, by simp; omega, trivial⟩
  | rc align v =>
    simp only [Alloc.cell, el, Cell.visit, Impl.rcInner, apart_enter, heap_enter, Alloc.unseen, Alloc.value, Cell.datum] at *
    exact ⟨ha, by simp; omega, trivial⟩
  | triomphe align v =>
    simp only [Alloc.cell, el, Cell.visit, Impl.triompheInner, apart_enter, apart_field, heap_enter, heap_field, Alloc.unseen, Alloc.value, Cell.datum] at *
    exact ⟨ha, by simp; omega, trivial⟩
  | thin header elem reprLayout repr len v =>
    simp only [Alloc.cell, el, Cell.visit, Impl.thinArcInner, apart_enter, apart_field, heap_enter, heap_field, Alloc.unseen, Alloc.value, Cell.datum] at *
    exact ⟨ha, by simp; omega, trivial⟩
  | future v =>
    have h1 : l.size = v.size := ho
    simp only [Alloc.cell, el, Cell.visit, Alloc.unseen, Alloc.value, Cell.datum] at *
    exact ⟨ha', by omega, trivial⟩

theorem Alloc.cell_consistent [Target] {a : Alloc} {n : Nat} (h : a.Exact) (ho : a.Occupies n) (hn : n ≤ Layout.isizeMax) (hw : a.value.WF) (hf : a.value.Fits) :
    a.cell.visit.Consistent := by
  obtain ⟨l, el, rfl, hs⟩ := Alloc.layout_exact h ho hn
  have := C48_cells a.value hw hf l.size hs
  cases a with
  | arc align v => simpa only [Alloc.cell, el, Cell.visit, Alloc.value] using (this ⟨[], 0, false⟩).1
  | rc align v => simpa only [Alloc.cell, el, Cell.visit, Alloc.value] using (this ⟨[], 0, false⟩).2.1
  | triomphe align v => simpa only [Alloc.cell, el, Cell.visit, Alloc.value] using (this ⟨[], 0, false⟩).2.2.1
  | thin header elem reprLayout repr len v => simpa only [Alloc.cell, el, Cell.visit, Alloc.value] using (this repr).2.2.2.1
  | future v => simpa only [Alloc.cell, el, Cell.visit, Alloc.value] using (this ⟨[], 0, false⟩).2.2.2.2

theorem attributed_countedBy (recs : List Rec) :
    attributed recs = countedBy (fun p => decide (p = [] ∨ uniqueAt recs p = true)) recs := by
  simp [attributed, countedBy]

/-- The parts of the accounting: no stack is over-full, and each value and each allocation has the bytes it occupies. -/
theorem accounting_parts [Target] {allocs : Ptr → Alloc} {roots : List Datum} (hr : ∀ d ∈ roots, d.WF ∧ d.Fits) {L : List Ptr} {bytes : Ptr → Nat}
    (ha : ∀ p ∈ L, (allocs p).value.WF ∧ (allocs p).value.Fits ∧ (allocs p).Exact ∧ (allocs p).Occupies (bytes p) ∧ bytes p ≤ Layout.isizeMax) {recs : List Rec}
    (hrecs : recs = roots.flatMap (fun d => d.report []) ++ L.flatMap (fun p => (allocs p).cell.report))
    (hmix : ∀ r ∈ recs, ∀ r' ∈ recs, r.path = r'.path → r.unique = r'.unique) :
    (∀ p, ¬ overfull recs p) ∧
    (∀ d ∈ roots, countedBy (fun p => decide (p = [] ∨ uniqueAt recs p = true)) (d.report []) + d.unseen = d.footprint) ∧
    (∀ q ∈ L, countedBy (fun p => decide (p = [] ∨ uniqueAt recs p = true)) ((allocs q).cell.report) + (allocs q).unseen = bytes q + (allocs q).value.heapBytes) := by
  have hc : ∀ p ∈ L, ((allocs p).cell).datum.WF := fun p hp => by
    obtain ⟨h1, h2, h3, h4, h5⟩ := ha p hp
    rw [(Alloc.cell_heap h3 h4 h5 h1).2.2]; exact h1
  have e1 : ∀ d ∈ roots, d.report [] = d.value.visit.own [] := fun d hd => ((C52_records d (hr d hd).1 []).1).symm
  have e2 : ∀ p ∈ L, (allocs p).cell.report = (allocs p).cell.visit.own [] := fun p hp => ((C52_cells _ (hc p hp)).1).symm
  -- no stack is over-full
  have hno : ∀ p, ¬ overfull recs p := by
    intro p ⟨hp, _, hu, hlt⟩
    have hsum : ∀ (os : List (List Rec)), (∀ o ∈ os, childrenAt o p ≤ sizeAt o p) → childrenAt os.flatten p ≤ sizeAt os.flatten p := by
      intro os
      induction os with
      | nil => intro _; exact Nat.le_refl _
      | cons o os ih =>
        intro h
        rw [List.flatten_cons, childrenAt_append, sizeAt_append]
        have := h o (by simp)
        have := ih fun x hx => h x (by simp [hx])
        omega
    have hflat : recs = (roots.map (fun d => d.report []) ++ L.map (fun p => (allocs p).cell.report)).flatten := by
      rw [hrecs, List.flatten_append, List.flatMap_def, List.flatMap_def]
    have hu' : ∀ o ∈ roots.map (fun d => d.report []) ++ L.map (fun p => (allocs p).cell.report), uniqueAt o p = false := by
      intro o ho
      rw [hflat] at hu
      simp only [uniqueAt, List.any_eq_false] at hu ⊢
      exact fun r hr => hu r (List.mem_flatten.2 ⟨o, ho, hr⟩)
    have := hsum _ (by
      intro o ho
      have hu := hu' o ho
      rcases List.mem_append.1 ho with ho | ho
      · obtain ⟨d, hd, rfl⟩ := List.mem_map.1 ho
        simp only [e1 d hd] at hu ⊢
        exact own_consistent _ [] p (datum_fit d (hr d hd).1 (hr d hd).2).2 hu hp
      · obtain ⟨q, hq, rfl⟩ := List.mem_map.1 ho
        simp only [e2 q hq] at hu ⊢
        obtain ⟨h1, h2, h3, h4, h5⟩ := ha q hq
        exact own_consistent _ [] p (Alloc.cell_consistent h3 h4 h5 h1 h2) hu hp)
    rw [← hflat] at this
    omega
  -- the sum
  have hP : ∀ r ∈ recs, (fun p => decide (p = [] ∨ uniqueAt recs p = true)) r.path = r.unique ∨ r.path = [] := by
    intro r hr
    by_cases hp : r.path = []
    · exact .inr hp
    · left
      have : uniqueAt recs r.path = r.unique := by
        cases hun : r.unique with
        | true => simp only [uniqueAt, List.any_eq_true]; exact ⟨r, hr, by simp [hun]⟩
        | false =>
          simp only [uniqueAt, List.any_eq_false]
          intro x hx hxp
          simp only [Bool.and_eq_true, decide_eq_true_eq] at hxp
          rw [hmix x hx r hr hxp.1, hun] at hxp
          exact absurd hxp.2 (by simp)
      simp [hp, this]
  have hne : ∀ (o : Obj), ∀ r ∈ o.own [], r.path ≠ [] := by
    intro o r hr h
    obtain ⟨k, s, h'⟩ := own_path o [] r hr
    rw [h] at h'; simp at h'
  have hroot : ∀ d ∈ roots, countedBy (fun p => decide (p = [] ∨ uniqueAt recs p = true)) (d.report []) + d.unseen = d.footprint := by
    intro d hd
    rw [e1 d hd, counted_own d.value.visit [] true (any d) (by simp) (fun r hr' => (hP r (by
      rw [hrecs]; exact List.mem_append.2 (.inl (List.mem_flatMap.2 ⟨d, hd, by rw [e1 d hd]; exact hr'⟩)))).resolve_right (hne _ r hr'))]
    have := accounted d (hr d hd).1 true
    simp only [Datum.unseen, Datum.footprint, if_true] at *
    omega
  have hcell : ∀ q ∈ L, countedBy (fun p => decide (p = [] ∨ uniqueAt recs p = true)) ((allocs q).cell.report) + (allocs q).unseen =
      bytes q + (allocs q).value.heapBytes := by
    intro q hq
    obtain ⟨h1, h2, h3, h4, h5⟩ := ha q hq
    obtain ⟨g1, g2, g3⟩ := Alloc.cell_heap h3 h4 h5 h1
    rw [e2 q hq, counted_own _ [] true g1 (by simp) (fun r hr' => (hP r (by
      rw [hrecs]; exact List.mem_append.2 (.inr (List.mem_flatMap.2 ⟨q, hq, by rw [e2 q hq]; exact hr'⟩)))).resolve_right (hne _ r hr'))]
    exact g2
  exact ⟨hno, hroot, hcell⟩

/-- C59, general form.  Some values are profiled with one builder; `L` are the shared allocations reachable from them (cycles allowed) and `bytes p` is the real size of
the allocation at `p`.  Then nothing panics, there are no warnings, and `total_size()` together with the bytes that profiles do not see (`unseen`: listed in C32, C33)
is the memory occupied by the roots, by what they own, and by every reachable allocation and what it owns, each counted once.  The last hypothesis excludes stacks that are
entered both as unique and as inline (C45). -/
theorem C59_accounting [Target] (allocs : Ptr → Alloc) (roots : List Datum) (hr : ∀ d ∈ roots, d.WF ∧ d.Fits) (L : List Ptr) (hnd : L.Nodup)
    (hL : ∀ p, p ∈ L ↔ ReachableCell (fun p => (allocs p).cell) roots p) (bytes : Ptr → Nat)
    (ha : ∀ p ∈ L, (allocs p).value.WF ∧ (allocs p).value.Fits ∧ (allocs p).Exact ∧ (allocs p).Occupies (bytes p) ∧ bytes p ≤ Layout.isizeMax)
    (hmix : ∀ recs, recs = roots.flatMap (fun d => d.report []) ++ L.flatMap (fun p => (allocs p).cell.report) →
      ∀ r ∈ recs, ∀ r' ∈ recs, r.path = r'.path → r.unique = r'.unique)
    (fuel : Nat) (hf : L.length ≤ fuel) (ord : HashOrder TreeId) :
    ∃ out, run ord (visits (fun p => (allocs p).cell.visit) fuel (roots.map fun d => d.value.visit)) = .ok out ∧ out.warnings = [] ∧
      (∀ p ∈ L, ∃ l, (allocs p).layout = some l ∧ l.size = bytes p) ∧
      out.flamegraph.totalSize + ((roots.map Datum.unseen).sum + (L.map fun p => (allocs p).unseen).sum) =
        (roots.map Datum.footprint).sum + (L.map fun p => bytes p + (allocs p).value.heapBytes).sum := by
  have hc : ∀ p ∈ L, ((allocs p).cell).datum.WF := fun p hp => by
    obtain ⟨h1, h2, h3, h4, h5⟩ := ha p hp
    rw [(Alloc.cell_heap h3 h4 h5 h1).2.2]; exact h1
  obtain ⟨recs, lines, ws, hrecs, eobs, -, -, -, hws⟩ := C52_text (fun p => (allocs p).cell) roots (fun d hd => (hr d hd).1) L hnd hL hc fuel hf ord (HashOrder.id _)
  have hmix := hmix recs hrecs
  obtain ⟨hno, hroot, hcell⟩ := accounting_parts hr ha hrecs hmix
  have hw0 : ws = [] := by
    cases ws with
    | nil => rfl
    | cons p ws => exact absurd ((hws p).1 (by simp)) (hno p)
  subst hw0
  -- the sum
  have sums : ∀ {α : Type} (l : List α) (f g h : α → Nat), (∀ x ∈ l, f x + g x = h x) → (l.map f).sum + (l.map g).sum = (l.map h).sum := by
    intro α l f g h
    induction l with
    | nil => intro _; rfl
    | cons x l ih =>
      intro hx
      have h1 := hx x (by simp)
      have h2 := ih fun y hy => hx y (by simp [hy])
      simp only [List.map_cons, List.sum_cons]
      omega
  unfold observe at eobs
  cases hrun : run ord (visits (fun p => (allocs p).cell.visit) fuel (roots.map fun d => d.value.visit)) with
  | error e => rw [hrun] at eobs; cases eobs
  | ok out =>
    rw [hrun] at eobs
    simp only [Except.ok.injEq, Obs.mk.injEq, List.flatMap_nil, List.map_nil, List.sum_nil, Nat.add_zero] at eobs
    refine ⟨out, rfl, eobs.2.2, ?_, ?_⟩
    · intro p hp
      obtain ⟨h1, h2, h3, h4, h5⟩ := ha p hp
      obtain ⟨l, el, es, -⟩ := Alloc.layout_exact h3 h4 h5
      exact ⟨l, el, es⟩
    · have ht : out.flamegraph.totalSize = (roots.map fun d => countedBy (fun p => decide (p = [] ∨ uniqueAt recs p = true)) (d.report [])).sum +
          (L.map fun q => countedBy (fun p => decide (p = [] ∨ uniqueAt recs p = true)) ((allocs q).cell.report)).sum := by
        rw [eobs.2.1, attributed_countedBy]
        conv => lhs; rw [hrecs]
        rw [countedBy_append, countedBy_flatMap, countedBy_flatMap]
        subst hrecs
        rfl
      have s1 := sums roots _ _ _ hroot
      have s2 := sums L _ _ _ hcell
      omega

/-- C59. For values in which none of the exceptions of C32 occurs, `total_size()` is exactly the memory occupied. -/
theorem C59_footprint [Target] (allocs : Ptr → Alloc) (roots : List Datum) (hr : ∀ d ∈ roots, d.WF ∧ d.Fits ∧ d.Standard ∧ d.isOpaque = false) (L : List Ptr)
    (hnd : L.Nodup) (hL : ∀ p, p ∈ L ↔ ReachableCell (fun p => (allocs p).cell) roots p) (bytes : Ptr → Nat)
    (ha : ∀ p ∈ L, (allocs p).value.WF ∧ (allocs p).value.Fits ∧ (allocs p).value.Standard ∧ (allocs p).value.isOpaque = false ∧
      (allocs p).Exact ∧ (allocs p).Occupies (bytes p) ∧ bytes p ≤ Layout.isizeMax)
    (hmix : ∀ recs, recs = roots.flatMap (fun d => d.report []) ++ L.flatMap (fun p => (allocs p).cell.report) →
      ∀ r ∈ recs, ∀ r' ∈ recs, r.path = r'.path → r.unique = r'.unique)
    (fuel : Nat) (hf : L.length ≤ fuel) (ord : HashOrder TreeId) :
    ∃ out, run ord (visits (fun p => (allocs p).cell.visit) fuel (roots.map fun d => d.value.visit)) = .ok out ∧ out.warnings = [] ∧
      out.flamegraph.totalSize = (roots.map Datum.footprint).sum + (L.map fun p => bytes p + (allocs p).value.heapBytes).sum := by
  obtain ⟨out, e, hw, -, ht⟩ := C59_accounting allocs roots (fun d hd => ⟨(hr d hd).1, (hr d hd).2.1⟩) L hnd hL bytes
    (fun p hp => by obtain ⟨h1, h2, -, -, h5, h6, h7⟩ := ha p hp; exact ⟨h1, h2, h5, h6, h7⟩) hmix fuel hf ord
  have z : ∀ {α : Type} (l : List α) (f : α → Nat), (∀ x ∈ l, f x = 0) → (l.map f).sum = 0 := by
    intro α l f
    induction l with
    | nil => intro _; rfl
    | cons x l ih => intro h; simp [h x (by simp), ih fun y hy => h y (by simp [hy])]
  rw [z roots Datum.unseen fun d hd => by simp [Datum.unseen, Datum.hidden, standard_missed d (hr d hd).2.2.1, (hr d hd).2.2.2],
    z L _ fun p hp => by
      obtain ⟨-, -, h3, h4, -⟩ := ha p hp
      have h3 := standard_missed _ h3
      cases h : allocs p <;> simp_all [Alloc.unseen, Alloc.value, Datum.hidden]] at ht
  exact ⟨out, e, hw, by omega⟩

/-- C59. Values of any supported types: a profile without mixed stacks never contains more than the memory occupied. -/
theorem C59_never_more [Target] (allocs : Ptr → Alloc) (roots : List Datum) (hr : ∀ d ∈ roots, d.WF ∧ d.Fits) (L : List Ptr) (hnd : L.Nodup)
    (hL : ∀ p, p ∈ L ↔ ReachableCell (fun p => (allocs p).cell) roots p) (bytes : Ptr → Nat)
    (ha : ∀ p ∈ L, (allocs p).value.WF ∧ (allocs p).value.Fits ∧ (allocs p).Exact ∧ (allocs p).Occupies (bytes p) ∧ bytes p ≤ Layout.isizeMax)
    (hmix : ∀ recs, recs = roots.flatMap (fun d => d.report []) ++ L.flatMap (fun p => (allocs p).cell.report) →
      ∀ r ∈ recs, ∀ r' ∈ recs, r.path = r'.path → r.unique = r'.unique)
    (fuel : Nat) (hf : L.length ≤ fuel) (ord : HashOrder TreeId) :
    ∃ out, run ord (visits (fun p => (allocs p).cell.visit) fuel (roots.map fun d => d.value.visit)) = .ok out ∧
      out.flamegraph.totalSize ≤ (roots.map Datum.footprint).sum + (L.map fun p => bytes p + (allocs p).value.heapBytes).sum := by
  obtain ⟨out, e, -, -, ht⟩ := C59_accounting allocs roots hr L hnd hL bytes ha hmix fuel hf ord
  exact ⟨out, e, by omega⟩

/-- C59. Whatever the values are (maps, sets, mixed stacks, warnings): a profile always contains at least the memory occupied, except for the unseen bytes. -/
theorem C59_never_less [Target] (allocs : Ptr → Alloc) (roots : List Datum) (hr : ∀ d ∈ roots, d.WF) (L : List Ptr) (hnd : L.Nodup)
    (hL : ∀ p, p ∈ L ↔ ReachableCell (fun p => (allocs p).cell) roots p) (bytes : Ptr → Nat)
    (ha : ∀ p ∈ L, (allocs p).value.WF ∧ (allocs p).Exact ∧ (allocs p).Occupies (bytes p) ∧ bytes p ≤ Layout.isizeMax)
    (fuel : Nat) (hf : L.length ≤ fuel) (ord : HashOrder TreeId) :
    ∃ out, run ord (visits (fun p => (allocs p).cell.visit) fuel (roots.map fun d => d.value.visit)) = .ok out ∧
      (roots.map Datum.footprint).sum + (L.map fun p => bytes p + (allocs p).value.heapBytes).sum ≤
        out.flamegraph.totalSize + ((roots.map Datum.unseen).sum + (L.map fun p => (allocs p).unseen).sum) := by
  have hc : ∀ p ∈ L, ((allocs p).cell).datum.WF := fun p hp => by
    obtain ⟨h1, h3, h4, h5⟩ := ha p hp
    rw [(Alloc.cell_heap h3 h4 h5 h1).2.2]; exact h1
  obtain ⟨recs, lines, ws, hrecs, eobs, -, -, -, -⟩ := C52_text (fun p => (allocs p).cell) roots hr L hnd hL hc fuel hf ord (HashOrder.id _)
  have e1 : ∀ d ∈ roots, d.report [] = d.value.visit.own [] := fun d hd => ((C52_records d (hr d hd) []).1).symm
  have e2 : ∀ p ∈ L, (allocs p).cell.report = (allocs p).cell.visit.own [] := fun p hp => ((C52_cells _ (hc p hp)).1).symm
  have hP : ∀ r ∈ recs, r.unique = true → (fun p => decide (p = [] ∨ uniqueAt recs p = true)) r.path = true := by
    intro r hr hu
    have : uniqueAt recs r.path = true := by simp only [uniqueAt, List.any_eq_true]; exact ⟨r, hr, by simp [hu]⟩
    simp [this]
  have hroot : ∀ d ∈ roots, d.footprint ≤ countedBy (fun p => decide (p = [] ∨ uniqueAt recs p = true)) (d.report []) + d.unseen := by
    intro d hd
    have := counted_own_le (P := fun p => decide (p = [] ∨ uniqueAt recs p = true)) d.value.visit [] true (by simp) (fun r hr' => hP r (by
      rw [hrecs]; exact List.mem_append.2 (.inl (List.mem_flatMap.2 ⟨d, hd, by rw [e1 d hd]; exact hr'⟩))))
    have h2 := accounted d (hr d hd) true
    rw [e1 d hd]
    simp only [Datum.unseen, Datum.footprint, if_true] at *
    omega
  have hcell : ∀ q ∈ L, bytes q + (allocs q).value.heapBytes ≤
      countedBy (fun p => decide (p = [] ∨ uniqueAt recs p = true)) ((allocs q).cell.report) + (allocs q).unseen := by
    intro q hq
    obtain ⟨h1, h3, h4, h5⟩ := ha q hq
    obtain ⟨g1, g2, g3⟩ := Alloc.cell_heap h3 h4 h5 h1
    have := counted_own_le (P := fun p => decide (p = [] ∨ uniqueAt recs p = true)) (allocs q).cell.visit [] true (by simp) (fun r hr' => hP r (by
      rw [hrecs]; exact List.mem_append.2 (.inr (List.mem_flatMap.2 ⟨q, hq, by rw [e2 q hq]; exact hr'⟩))))
    rw [e2 q hq]
    omega
  have sums : ∀ {α : Type} (l : List α) (f g h : α → Nat), (∀ x ∈ l, h x ≤ f x + g x) → (l.map h).sum ≤ (l.map f).sum + (l.map g).sum := by
    intro α l f g h
    induction l with
    | nil => intro _; exact Nat.le_refl _
    | cons x l ih =>
      intro hx
      have h1 := hx x (by simp)
      have h2 := ih fun y hy => hx y (by simp [hy])
      simp only [List.map_cons, List.sum_cons]
      omega
  unfold observe at eobs
  cases hrun : run ord (visits (fun p => (allocs p).cell.visit) fuel (roots.map fun d => d.value.visit)) with
  | error e => rw [hrun] at eobs; cases eobs
  | ok out =>
    rw [hrun] at eobs
    simp only [Except.ok.injEq, Obs.mk.injEq] at eobs
    refine ⟨out, rfl, ?_⟩
    have ht : (roots.map fun d => countedBy (fun p => decide (p = [] ∨ uniqueAt recs p = true)) (d.report [])).sum +
          (L.map fun q => countedBy (fun p => decide (p = [] ∨ uniqueAt recs p = true)) ((allocs q).cell.report)).sum ≤ out.flamegraph.totalSize := by
      rw [eobs.2.1, attributed_countedBy]
      conv => rhs; rw [hrecs]
      rw [countedBy_append, countedBy_flatMap, countedBy_flatMap]
      subst hrecs
      exact Nat.le_add_right _ _
    have s1 := sums roots _ _ _ hroot
    have s2 := sums L _ _ _ hcell
    omega

/-! ### Concrete cases -/

namespace FootprintExamples

attribute [local instance] Target.x64
open DataExamples

def tNode : Ty := ⟨ascii "demo::Node", 32, true⟩
def tArcNode : Ty := ⟨ascii "alloc::sync::Arc<demo::Node>", 8, true⟩
def tBoxArc : Ty := ⟨ascii "alloc::boxed::Box<alloc::sync::Arc<demo::Node>>", 8, true⟩

/-- `struct Node { next: Arc<Node>, text: String }` -/
def node (next len capacity : Nat) : Datum :=
  .struct tNode 32 [(ascii "next", false), (ascii "text", false)] [.arc tArcNode 8 next, .string tString len capacity]

/-- A node that is not in an `Arc`, and a boxed pointer to the same `Arc`. -/
def roots : List Datum := [node 7 3 5, .box tBoxArc 8 (.arc tArcNode 8 7)]

/-- A cycle of two nodes, at 7 and 9. -/
def allocs (p : Ptr) : Alloc := if p = 7 then .arc 8 (node 9 1 2) else .arc 8 (node 7 0 0)

theorem reach (p : Ptr) : p ∈ [7, 9] ↔ ReachableCell (fun p => (allocs p).cell) roots p := by
  have h7 : ReachableCell (fun p => (allocs p).cell) roots 7 := .root (d := node 7 3 5) (by simp [roots]) (by simp [Datum.pointers, node, pointersDerived, Datum.pointersEach])
  constructor
  · intro h
    simp only [List.mem_cons, List.not_mem_nil, or_false] at h
    rcases h with rfl | rfl
    · exact h7
    · exact .step h7 (by simp [allocs, Alloc.cell, Cell.datum, Datum.pointers, node, pointersDerived, Datum.pointersEach])
  · intro h
    cases h with
    | root hd hp =>
      simp only [roots, List.mem_cons, List.not_mem_nil, or_false] at hd
      rcases hd with rfl | rfl <;> simp [Datum.pointers, node, pointersDerived, Datum.pointersEach] at hp ⊢ <;> exact .inl hp
    | @step q _ hq hp =>
      simp only [allocs] at hp
      split at hp <;> simp [Alloc.cell, Cell.datum, Datum.pointers, node, pointersDerived, Datum.pointersEach] at hp ⊢ <;> simp [hp]

theorem arcBytes : ReprC [usizeLayout, usizeLayout, ⟨32, 8⟩] [0, 8, 16] ⟨48, 8⟩ :=
  ⟨48, .cons ⟨by decide, by decide, by intro k _ _; omega⟩ (.cons ⟨by decide, by decide, by intro k _ h; exact h⟩
    (.cons ⟨by decide, by decide, by intro k _ h; exact h⟩ (.nil _))), by decide, ⟨by decide, by decide, by intro k _ h; exact h⟩⟩

theorem node_ok (next len capacity : Nat) (h : len ≤ capacity) (h' : capacity < 100) :
    (node next len capacity).WF ∧ (node next len capacity).Fits ∧ (node next len capacity).Standard ∧ (node next len capacity).isOpaque = false := by
  simp [node, Datum.WF, Datum.WFAll, Datum.Fits, Datum.FitsAll, Datum.Standard, Datum.StandardAll, Datum.isOpaque, Datum.sizes, Datum.size, Datum.value, Impl.arc,
    Impl.string, Impl.sized, tArcNode, tString, tNode, h]
  omega

set_option maxRecDepth 100000 in
/-- The report of these roots has no mixed stacks. -/
theorem unmixed : ∀ recs, recs = roots.flatMap (fun d => d.report []) ++ [7, 9].flatMap (fun p => (allocs p).cell.report) →
    ∀ r ∈ recs, ∀ r' ∈ recs, r.path = r'.path → r.unique = r'.unique := by
  rintro _ rfl
  decide

/-- All hypotheses hold; the total is 32 + 5 (node and its string), 8 + 8 (boxed pointer) and twice the 48 bytes of an `ArcInner<Node>`, with 2 and 0 bytes of text. -/
example (ord : HashOrder TreeId) :
    ∃ out, run ord (visits (fun p => (allocs p).cell.visit) 2 (roots.map fun d => d.value.visit)) = .ok out ∧ out.warnings = [] ∧
      out.flamegraph.totalSize = (32 + 5) + (8 + 8) + (48 + 2) + (48 + 0) := by
  have := C59_footprint allocs roots (by
      intro d hd
      simp only [roots, List.mem_cons, List.not_mem_nil, or_false] at hd
      rcases hd with rfl | rfl
      · exact node_ok 7 3 5 (by omega) (by omega)
      · simp [Datum.WF, Datum.Fits, Datum.Standard, Datum.isOpaque, tBoxArc, tArcNode]) [7, 9] (by simp) reach (fun _ => 48) (by
      have e : ∀ a b c, (node a b c).size = 32 := fun a b c => rfl
      have ex : ∀ a b c, (Alloc.arc 8 (node a b c)).Exact := fun a b c => ⟨⟨3, by omega, rfl⟩, by rw [e]; decide⟩
      have oc : ∀ a b c, (Alloc.arc 8 (node a b c)).Occupies 48 := fun a b c => ⟨_, _, by rw [e]; exact arcBytes, rfl⟩
      intro p hp
      have : allocs p = .arc 8 (node 9 1 2) ∨ allocs p = .arc 8 (node 7 0 0) := by unfold allocs; split <;> simp
      rcases this with h | h <;> rw [h]
      · obtain ⟨h1, h2, h3, h4⟩ := node_ok 9 1 2 (by omega) (by omega)
        exact ⟨h1, h2, h3, h4, ex _ _ _, oc _ _ _, by decide⟩
      · obtain ⟨h1, h2, h3, h4⟩ := node_ok 7 0 0 (by omega) (by omega)
        exact ⟨h1, h2, h3, h4, ex _ _ _, oc _ _ _, by decide⟩) unmixed 2 (by simp) ord
  exact this

/-- A `triomphe::Arc` of five bytes aligned to 4, and a `ThinArc<u32, u8>` with three elements: 16 and 32 bytes. -/
example : (∃ v, (Alloc.triomphe 4 v).Exact ∧ (Alloc.triomphe 4 v).Occupies 16 ∧ v.size = 5) ∧
    ∃ repr v, (Alloc.thin ⟨4, 4⟩ ⟨1, 1⟩ ⟨24, 8⟩ repr 3 v).Exact ∧ (Alloc.thin ⟨4, 4⟩ ⟨1, 1⟩ ⟨24, 8⟩ repr 3 v).Occupies 32 := by
  have lm : ∀ a m : Nat, a ∣ m → LeastMultiple a m m := fun a m h => ⟨h, Nat.le_refl _, fun k _ hk => hk⟩
  have h2 : ReprC [⟨4, 4⟩, usizeLayout] [0, 8] ⟨16, 8⟩ :=
    ⟨16, .cons (lm 4 0 ⟨0, rfl⟩) (.cons ⟨by decide, by decide, by rintro k ⟨c, rfl⟩ h; simp only [usizeLayout, ptrBytes_x64] at h ⊢; omega⟩ (.nil _)), by decide,
      lm 8 16 (by decide)⟩
  have h3 : ReprC [⟨16, 8⟩, ⟨1 * 3, 1⟩] [0, 16] ⟨24, 8⟩ :=
    ⟨19, .cons (lm 8 0 ⟨0, rfl⟩) (.cons (lm 1 16 ⟨16, rfl⟩) (.nil _)), by decide, ⟨by decide, by decide, by rintro k ⟨c, rfl⟩ h; simp only at h ⊢; omega⟩⟩
  have h4 : ReprC [usizeLayout, ⟨24, 8⟩] [0, 8] ⟨32, 8⟩ :=
    ⟨32, .cons (lm 8 0 ⟨0, rfl⟩) (.cons (lm 8 8 ⟨1, rfl⟩) (.nil _)), by decide, lm 8 32 (by decide)⟩
  have h1 : ReprC [usizeLayout, ⟨4, 4⟩, usizeLayout] [0, 8, 16] ⟨24, 8⟩ :=
    ⟨24, .cons (lm 8 0 ⟨0, rfl⟩) (.cons (lm 4 8 (by decide)) (.cons ⟨by decide, by decide, by rintro k ⟨c, rfl⟩ h; simp only [usizeLayout, ptrBytes_x64] at h ⊢; omega⟩ (.nil _))),
      by decide, lm 8 24 (by decide)⟩
  have h5 : ReprC [usizeLayout, ⟨5, 4⟩] [0, 8] ⟨16, 8⟩ :=
    ⟨13, .cons (lm 8 0 ⟨0, rfl⟩) (.cons (lm 4 8 (by decide)) (.nil _)), by decide, ⟨by decide, by decide, by rintro k ⟨c, rfl⟩ h; simp only at h ⊢; omega⟩⟩
  refine ⟨⟨.plain ⟨[], 5, false⟩, ⟨⟨2, by omega, rfl⟩, by decide⟩, ⟨_, _, h5, rfl⟩, rfl⟩, ⟨[], 24, false⟩, .plain ⟨[], 24, false⟩, ?_, ?_⟩
  · exact ⟨⟨⟨2, by omega, rfl⟩, by decide⟩, ⟨⟨0, by omega, rfl⟩, by decide⟩, ⟨1, rfl⟩, ⟨1, rfl⟩, ⟨_, h1⟩, by decide, _, _, _, _, h2, h3, rfl⟩
  · exact ⟨_, _, _, _, _, _, h2, h3, h4, rfl⟩

end FootprintExamples

/-! The theorems of this file with a concrete case of their hypotheses. -/
namespace FootprintExamples

attribute [local instance] Target.x64

theorem roots_ok : ∀ d ∈ roots, d.WF ∧ d.Fits := by
  intro d hd
  simp only [roots, List.mem_cons, List.not_mem_nil, or_false] at hd
  rcases hd with rfl | rfl
  · obtain ⟨h1, h2, -⟩ := node_ok 7 3 5 (by omega) (by omega)
    exact ⟨h1, h2⟩
  · simp [Datum.WF, Datum.Fits, tBoxArc, tArcNode]

theorem allocs_ok (p : Ptr) : (allocs p).value.WF ∧ (allocs p).value.Fits ∧ (allocs p).Exact ∧ (allocs p).Occupies 48 ∧ 48 ≤ Layout.isizeMax := by
  have e : ∀ a b c, (node a b c).size = 32 := fun a b c => rfl
  have ex : ∀ a b c, (Alloc.arc 8 (node a b c)).Exact := fun a b c => ⟨⟨3, by omega, rfl⟩, by rw [e]; decide⟩
  have oc : ∀ a b c, (Alloc.arc 8 (node a b c)).Occupies 48 := fun a b c => ⟨_, _, by rw [e]; exact arcBytes, rfl⟩
  have : allocs p = .arc 8 (node 9 1 2) ∨ allocs p = .arc 8 (node 7 0 0) := by unfold allocs; split <;> simp
  rcases this with h | h <;> rw [h]
  · obtain ⟨h1, h2, -⟩ := node_ok 9 1 2 (by omega) (by omega)
    exact ⟨h1, h2, ex _ _ _, oc _ _ _, by decide⟩
  · obtain ⟨h1, h2, -⟩ := node_ok 7 0 0 (by omega) (by omega)
    exact ⟨h1, h2, ex _ _ _, oc _ _ _, by decide⟩

example (ord : HashOrder TreeId) := C59_accounting allocs roots roots_ok [7, 9] (by simp) reach (fun _ => 48) (fun p _ => allocs_ok p) unmixed 2 (by simp) ord
example (ord : HashOrder TreeId) := C59_never_more allocs roots roots_ok [7, 9] (by simp) reach (fun _ => 48) (fun p _ => allocs_ok p) unmixed 2 (by simp) ord
example (ord : HashOrder TreeId) := C59_never_less allocs roots (fun d hd => (roots_ok d hd).1) [7, 9] (by simp) reach (fun _ => 48)
  (fun p _ => ⟨(allocs_ok p).1, (allocs_ok p).2.2⟩) 2 (by simp) ord

end FootprintExamples

end Allocative
