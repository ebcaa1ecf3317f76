import Verif.Lemmas.Calls
import Verif.Props.Visits
/-
C16, C19, C22-C25, C43, C45: sums of sizes.
-/
set_option linter.unusedSimpArgs false
namespace Allocative

/-- C16. `total_size()` is the number of bytes declared at top-level stacks or directly below unique stacks, plus, for each stack
that `finish` warns about, the excess printed in the warning. -/
theorem C16_conservation_exact (hist : List (Prog × Fate)) (hl : NoLeaks hist) (ord : HashOrder TreeId) :
    ∃ out, ∃ ws : List Path, run ord hist = .ok out ∧ out.warnings = ws.flatMap (renderWarning (records hist)) ∧ ws.Nodup ∧
      (∀ p, p ∈ ws ↔ overfull (records hist) p) ∧
      out.flamegraph.totalSize = attributed (records hist) +
        (ws.map fun p => childrenAt (records hist) p - sizeAt (records hist) p).sum := by
  obtain ⟨out, ws, e, hb, hs, hw, hn, hm, _⟩ := run_spec (Q := fun _ => True) hl (fun x _ => Prog.KeysAre.trivial x.1) ord
  refine ⟨out, ws, e, hw, hn, hm, ?_⟩
  have hok := hb.ok
  let l := FlameGraph.allPaths out.flamegraph
  have hl' : ∀ p, p ∈ l ↔ p = [] ∨ entered (records hist) p := by
    intro p
    rw [FlameGraph.mem_allPaths _ hok, hs p]
    split <;> simp_all
  have hnd : l.Nodup := FlameGraph.nodup_allPaths _ hok
  rw [hok.totalSize_eq_sum hnd (fun p hp => (FlameGraph.mem_allPaths _ hok p).2 hp)]
  have h1 : (l.map fun p => (out.flamegraph.selfAt p).getD 0).sum = (l.map (selfSpec (records hist))).sum := by
    apply sum_map_congr
    intro p hp
    rw [hs p, if_pos ((hl' p).1 hp)]; rfl
  rw [h1, selfSpec_sum (records_closed hist) hnd hl']
  congr 1
  rw [← FlameGraph.sum_eq_of_subset (excessAt (records hist)) hn hnd]
  · apply sum_map_congr
    intro p hp
    have := (hm p).1 hp
    simp [excessAt, this.1, this.2.2.1]
  · intro p hp
    exact (hl' p).2 (.inr ((hm p).1 hp).2.1)
  · intro p hp
    simp only [excessAt]
    split
    · rfl
    · rename_i h
      have h' : p ≠ [] ∧ uniqueAt (records hist) p = false := by
        constructor
        · intro hp; exact h (.inl hp)
        · cases hu : uniqueAt (records hist) p
          · rfl
          · exact absurd (.inr hu) h
      by_cases he : entered (records hist) p
      · have : ¬ overfull (records hist) p := fun h => hp ((hm p).2 h)
        have : ¬ sizeAt (records hist) p < childrenAt (records hist) p := fun hlt => this ⟨h'.1, he, h'.2, hlt⟩
        omega
      · have : childrenAt (records hist) p = 0 := by
          apply FlameGraph.sum_eq_zero_of
          intro r hr
          rw [if_neg]
          intro hch
          simp only [isChild, bne_iff_ne, ne_eq, Bool.and_eq_true, decide_eq_true_eq] at hch
          rcases (records_closed hist).parent r hr with h0 | h0
          · exact h'.1 (hch.2.symm.trans h0)
          · exact he (hch.2 ▸ h0)
        omega

/-- C16. Without warnings every byte is attributed exactly once; with warnings the total is never smaller. -/
theorem C16_conservation (hist : List (Prog × Fate)) (hl : NoLeaks hist) (ord : HashOrder TreeId) :
    ∃ out, run ord hist = .ok out ∧ attributed (records hist) ≤ out.flamegraph.totalSize ∧
      (out.warnings = [] → out.flamegraph.totalSize = attributed (records hist)) := by
  obtain ⟨out, ws, e, hw, hn, hm, ht⟩ := C16_conservation_exact hist hl ord
  refine ⟨out, e, by omega, fun h0 => ?_⟩
  have : ws = [] := by
    cases ws with
    | nil => rfl
    | cons p ws =>
      rw [hw, List.flatMap_cons] at h0
      simp [renderWarning] at h0
  rw [ht, this]; rfl

example : attributed (records Ex.hist1) = 24 + 100 + 40 + 10 + 24 + 24 + 100 ∧ ¬ overfull (records Ex.hist1) [Ex.k "S"] ∧
    overfull (records Ex.hist1) [Ex.k "M"] := by
  refine ⟨by decide, fun h => by have := h.2.2.2; revert this; decide, ⟨by decide, by decide, by decide, by decide⟩⟩

/-- C19. If every visit declares its inline nodes large enough, `finish` has no warnings, whatever is merged into the same stacks. -/
theorem C19_consistent_no_warnings (hist : List (Prog × Fate)) (hl : NoLeaks hist) (hc : ∀ x ∈ hist, x.1.Consistent)
    (ord : HashOrder TreeId) : ∃ out, run ord hist = .ok out ∧ out.warnings = [] := by
  obtain ⟨out, ws, e, _, _, hw, _, hm, _⟩ := run_spec (Q := fun _ => True) hl (fun x _ => Prog.KeysAre.trivial x.1) ord
  refine ⟨out, e, ?_⟩
  cases ws with
  | nil => rw [hw]; rfl
  | cons p ws =>
    obtain ⟨h1, _, h3, h4⟩ := (hm p).1 (by simp)
    have := traceRoots_consistent hist [] hc p h1 h3
    unfold records at h4
    omega

example : (∀ x ∈ [(Ex.prog1, Fate.exit), (Ex.prog1, Fate.drop)], x.1.Consistent) ∧ NoLeaks [(Ex.prog1, Fate.exit), (Ex.prog1, Fate.drop)] := by
  refine ⟨?_, by decide⟩
  simp [Ex.prog1, Prog.Consistent, Prog.direct, Ex.leaf]

/-- C22. Two histories without common addresses, without warnings and with the same unique stacks where they overlap: merging their
flame graphs is the same as one builder doing both. -/
theorem C22_merge_disjoint (h1 h2 : List (Prog × Fate)) (hl1 : NoLeaks h1) (hl2 : NoLeaks h2)
    (hk1 : ProperKeys h1) (hk2 : ProperKeys h2)
    (hd : ∀ p, p ∈ histPtrs h1 → p ∉ histPtrs h2)
    (hu : ∀ p, entered (records h1) p → entered (records h2) p → uniqueAt (records h1) p = uniqueAt (records h2) p)
    (o1 o2 o : HashOrder TreeId) :
    ∃ out1 out2 out, run o1 h1 = .ok out1 ∧ run o2 h2 = .ok out2 ∧ run o (h1 ++ h2) = .ok out ∧
      (out1.warnings = [] → out2.warnings = [] → out.warnings = [] ∧
        (∀ w w', (out1.flamegraph.add out2.flamegraph).write w = out.flamegraph.write w') ∧
        (out1.flamegraph.add out2.flamegraph).totalSize = out.flamegraph.totalSize) := by
  obtain ⟨hrec, hnl⟩ := records_append_disjoint hd
  have hl := hnl hl1 hl2
  have hk : ProperKeys (h1 ++ h2) := fun x hx => (List.mem_append.1 hx).elim (hk1 x) (hk2 x)
  obtain ⟨out1, ws1, e1, b1, s1, w1, n1, m1, so1⟩ := run_spec hl1 hk1 o1
  obtain ⟨out2, ws2, e2, b2, s2, w2, n2, m2, so2⟩ := run_spec hl2 hk2 o2
  obtain ⟨out, ws, e, b, s, w, n, m, so⟩ := run_spec hl hk o
  refine ⟨out1, out2, out, e1, e2, e, fun hw1 hw2 => ?_⟩
  have nowarn : ∀ {ws : List Path} {recs : List Rec}, ws.flatMap (renderWarning recs) = [] → ws = [] := by
    intro ws recs h
    cases ws with
    | nil => rfl
    | cons p ws => rw [List.flatMap_cons] at h; simp [renderWarning] at h
  have no1 : ∀ p, ¬ overfull (records h1) p := fun p hp => by
    have := (m1 p).2 hp; rw [nowarn (w1.symm.trans hw1)] at this; cases this
  have no2 : ∀ p, ¬ overfull (records h2) p := fun p hp => by
    have := (m2 p).2 hp; rw [nowarn (w2.symm.trans hw2)] at this; cases this
  have hz : ∀ {hist : List (Prog × Fate)} {p : Path}, p ≠ [] → ¬ entered (records hist) p →
      sizeAt (records hist) p = 0 ∧ childrenAt (records hist) p = 0 ∧ uniqueAt (records hist) p = false := by
    intro hist p hp he
    refine ⟨FlameGraph.sum_eq_zero_of _ _ fun r hr => ?_, FlameGraph.sum_eq_zero_of _ _ fun r hr => ?_, ?_⟩
    · rw [if_neg]; intro hh; exact he ⟨r, hr, hh⟩
    · rw [if_neg]
      intro hch
      simp only [isChild, bne_iff_ne, ne_eq, Bool.and_eq_true, decide_eq_true_eq] at hch
      rcases (records_closed hist).parent r hr with h0 | h0
      · exact hp (hch.2.symm.trans h0)
      · exact he (hch.2 ▸ h0)
    · unfold uniqueAt
      rw [List.any_eq_false]
      intro r hr
      simp only [Bool.and_eq_true, decide_eq_true_eq, not_and]
      intro hh; exact absurd ⟨r, hr, hh⟩ he
  have ov : ∀ {hist : List (Prog × Fate)} {p : Path}, p ≠ [] → (∀ p, ¬ overfull (records hist) p) → uniqueAt (records hist) p = false →
      childrenAt (records hist) p ≤ sizeAt (records hist) p := by
    intro hist p hp hno hu
    by_cases he : entered (records hist) p
    · have := hno p
      simp only [overfull, hp, he, hu, ne_eq, not_false_eq_true, true_and] at this
      omega
    · have := hz hp he; omega
  have hent : ∀ p, entered (records (h1 ++ h2)) p ↔ entered (records h1) p ∨ entered (records h2) p := by
    intro p
    rw [hrec]
    unfold entered
    simp only [List.mem_append]
    constructor
    · rintro ⟨r, h | h, he⟩
      · exact .inl ⟨r, h, he⟩
      · exact .inr ⟨r, h, he⟩
    · rintro (⟨r, h, he⟩ | ⟨r, h, he⟩)
      · exact ⟨r, .inl h, he⟩
      · exact ⟨r, .inr h, he⟩
  have hself : ∀ p, p ≠ [] → selfSpec (records (h1 ++ h2)) p = selfSpec (records h1) p + selfSpec (records h2) p ∧
      ¬ overfull (records (h1 ++ h2)) p := by
    intro p hp
    have hS : sizeAt (records (h1 ++ h2)) p = sizeAt (records h1) p + sizeAt (records h2) p := by
      rw [hrec]; exact sizeAt_append _ _ _
    have hC : childrenAt (records (h1 ++ h2)) p = childrenAt (records h1) p + childrenAt (records h2) p := by
      rw [hrec]; unfold childrenAt; rw [List.map_append, List.sum_append_nat]
    have hU : uniqueAt (records (h1 ++ h2)) p = (uniqueAt (records h1) p || uniqueAt (records h2) p) := by
      rw [hrec]; exact uniqueAt_append _ _ _
    have c1 := ov hp no1
    have c2 := ov hp no2
    have key : ∀ u1 u2 : Bool, uniqueAt (records h1) p = u1 → uniqueAt (records h2) p = u2 →
        ((u1 = u2) ∨ (childrenAt (records h2) p = 0 ∧ u2 = false) ∨ (childrenAt (records h1) p = 0 ∧ u1 = false)) →
        selfSpec (records (h1 ++ h2)) p = selfSpec (records h1) p + selfSpec (records h2) p ∧ ¬ overfull (records (h1 ++ h2)) p := by
      intro u1 u2 hu1 hu2 hcase
      rw [hu1] at c1 hU
      rw [hu2] at c2 hU
      simp only [selfSpec, if_neg hp, remAt, hS, hC, hU, hu1, hu2, overfull]
      cases u1 <;> cases u2 <;> simp at hcase c1 c2 ⊢
      · refine ⟨by omega, fun _ _ => by omega⟩
      · simp only [hcase] at *
        omega
      · simp only [hcase] at *
        omega
      · omega
    by_cases he1 : entered (records h1) p
    · by_cases he2 : entered (records h2) p
      · exact key _ _ rfl rfl (.inl (hu p he1 he2))
      · have := hz hp he2
        exact key _ _ rfl rfl (.inr (.inl ⟨this.2.1, this.2.2⟩))
    · have := hz hp he1
      exact key _ _ rfl rfl (.inr (.inr ⟨this.2.1, this.2.2⟩))
  have hsum : ∀ p, (out1.flamegraph.add out2.flamegraph).selfAt p = out.flamegraph.selfAt p := by
    intro p
    rw [FlameGraph.selfAt_add _ _ b2.ok, s1, s2, s]
    by_cases hp : p = []
    · subst hp; simp [FlameGraph.optAdd, selfSpec]
    · simp only [hp, false_or, hent]
      have hs := (hself p hp).1
      by_cases he1 : entered (records h1) p <;> by_cases he2 : entered (records h2) p <;>
        simp only [he1, he2, if_true, if_false, or_true, true_or, or_false, FlameGraph.optAdd, hs]
      · have := hz hp he2
        simp [selfSpec, remAt, this, hp]
      · have := hz hp he1
        simp [selfSpec, remAt, this, hp]
  have hok := (FlameGraph.Built.add b1 b2).ok
  refine ⟨?_, fun a b' => write_congr hok b.ok (fun p n _ _ => by rw [hsum]) a b', FlameGraph.totalSize_congr hok b.ok hsum⟩
  cases ws with
  | nil => rw [w]; rfl
  | cons p ws =>
    have := (m p).1 (by simp)
    exact absurd this (hself p this.1).2

example : NoLeaks [(Ex.prog1, .exit)] ∧ (∀ p, p ∈ histPtrs [(Ex.prog1, .exit)] → p ∉ histPtrs [(Ex.leaf "S" 3, .exit)]) ∧
    entered (records [(Ex.prog1, .exit)]) [Ex.k "S"] ∧ entered (records [(Ex.leaf "S" 3, .exit)]) [Ex.k "S"] := by decide

/-- C23. For a visit that ends its visitors, `size_of_unique_allocated_data` is the sum of the sizes of the `enter` calls made
on visitors that come from `enter_unique`; the log is that of the run; no shared pointer is ever entered. -/
theorem C23_sum_behind_unique (prog : Prog) (hc : prog.Closes) :
    ∃ ctl log, exec SizeOf.visitorImpl.logged prog .root (0, [.root]) =
        .ok ((sumCalls (fun c => c.parent = .unique && c.kind = .inline) (calls [] log), log), ctl) ∧
      SizeOf.sizeOfUniqueAllocatedData prog = .ok (match ctl with
        | .returned => some (sumCalls (fun c => c.parent = .unique && c.kind = .inline) (calls [] log))
        | .unwinding => none) ∧
      ∀ k n p r, Event.shared k n p r ∈ log → r = false := by
  obtain ⟨new, ctl, rs, e, hr, hs⟩ := sizeOf_logged prog .root [⟨.root, Key.new []⟩] 0 [.root] hc (by simp) rfl
  refine ⟨ctl, .root :: new, ?_, ?_, ?_⟩
  · rw [e]; simp [heapCalls, calls]
  · have := exec_logged_erase SizeOf.visitorImpl prog .root 0 [.root]
    rw [e] at this
    simp only [eraseLog] at this
    simp only [SizeOf.sizeOfUniqueAllocatedData, ← this, finishChild_closes SizeOf.visitorImpl .root (closes_leaks (f := .exit) (.inl rfl) ctl),
      so_exit _ .root (by simp)]
    cases ctl <;> simp [heapCalls, calls]
  · intro k n p r hm
    simp at hm
    exact hs _ _ _ _ hm

/-- C23. Keys and addresses do not matter. -/
theorem C23_rename (f : Key → Key) (g : Ptr → Ptr) (prog : Prog) :
    SizeOf.sizeOfUniqueAllocatedData (prog.rename f g) = SizeOf.sizeOfUniqueAllocatedData prog := by
  simp only [SizeOf.sizeOfUniqueAllocatedData, sizeOf_rename]

/-- C24. No visit whatever (leaking, panicking) makes `size_of_unique_allocated_data` reach `unreachable!`. -/
theorem C24_no_unreachable (prog : Prog) : ∃ r, SizeOf.sizeOfUniqueAllocatedData prog = .ok r := by
  obtain ⟨⟨s, ctl⟩, e⟩ := sizeOf_ok prog .root 0
  simp only [SizeOf.sizeOfUniqueAllocatedData, e, finishChild_closes SizeOf.visitorImpl .root (closes_leaks (f := .exit) (.inl rfl) ctl),
    so_exit _ .root (by simp)]
  cases ctl
  · exact ⟨_, rfl⟩
  · exact ⟨_, rfl⟩

example : Ex.prog1.Closes ∧ SizeOf.sizeOfUniqueAllocatedData Ex.prog1 = .ok (some 100) := by
  refine ⟨?_, rfl⟩
  simp [Ex.prog1, Prog.Closes, Ex.leaf]

/-- C45. Exact accounting by calls: without warnings, `total_size()` is the sum of the sizes of the calls made on root, shared and
unique visitors (each byte once), plus an overcount: the sizes of calls made on inline visitors whose stack was also entered with
`enter_unique`. -/
theorem C45_overcount_exact (hist : List (Prog × Fate)) (hl : NoLeaks hist) (ord : HashOrder TreeId) :
    ∃ out b log, run ord hist = .ok out ∧ Builder.default.useRootsLogged [] hist = .ok (b, log) ∧
      (out.warnings = [] → out.flamegraph.totalSize =
        sumCalls (fun c => c.parent ≠ .inline) (calls [] log) +
        sumCalls (fun c => c.parent = .inline && uniqueAt (records hist) c.stack) (calls [] log)) := by
  obtain ⟨out, e, _, h⟩ := C16_conservation hist hl ord
  obtain ⟨b, log, el, _, hr⟩ := C11_stacks_of_calls hist hl
  exact ⟨out, b, log, e, el, fun h0 => by rw [h h0, attributed_calls hr]⟩

-- the overcount happens: 8 declared bytes of inline `f` (with a 8 byte child) and a unique `f`, total 16 + 5
example : ∃ out, run (HashOrder.id _)
      [(.enter (Ex.k "f") 8 .exit (Ex.leaf "x" 8) .done, .exit), (.enterUnique (Ex.k "f") 0 .exit (Ex.leaf "y" 5) .done, .exit)] = .ok out ∧
    out.warnings = [] ∧ out.flamegraph.totalSize = 8 + 8 + 5 := ⟨_, rfl, rfl, rfl⟩

/-- C25. For a value without shared pointers, if `finish` has no warnings, no stack is entered both as unique and not, and
`enter_unique` is not called directly on a unique visitor, the flame graph total is the top-level sizes plus
`size_of_unique_allocated_data`. -/
theorem C25_utilities_agree (prog : Prog) (hn : prog.NoShared) (hc : prog.Closes) (ha : prog.UniqueApart false)
    (hmix : ∀ r ∈ records [(prog, .exit)], r.unique = uniqueAt (records [(prog, .exit)]) r.path) (ord : HashOrder TreeId) :
    ∃ out, run ord [(prog, .exit)] = .ok out ∧
      (out.warnings = [] → ∀ n, SizeOf.sizeOfUniqueAllocatedData prog = .ok (some n) →
        out.flamegraph.totalSize = ((records [(prog, .exit)]).map fun r => if r.path.length = 1 then r.size else 0).sum + n) := by
  have hl : NoLeaks [(prog, .exit)] := by
    simp only [NoLeaks, traceRoots, closes_noLeak prog _ _ hc]
    cases (prog.trace [] []).ctl <;> rfl
  obtain ⟨out, e, _, h⟩ := C16_conservation _ hl ord
  refine ⟨out, e, fun h0 n hsz => ?_⟩
  obtain ⟨b, log, el, _, hr⟩ := C11_stacks_of_calls _ hl
  -- the two logs agree
  obtain ⟨ctl, log', es, hs, _⟩ := C23_sum_behind_unique prog hc
  have h1 := exec_log _ prog _ _ _ _ _ _ hn hc es
  have h2 : log = .root :: prog.log.1 ++ [.exit .root] := by
    simp only [Builder.useRootsLogged, Builder.useRootLogged] at el
    cases h3 : Builder.default.rootVisitor with
    | error e => rw [h3] at el; cases el
    | ok b1 =>
      rw [h3] at el
      simp only at el
      cases h4 : exec Builder.visitorImpl.logged prog .root (b1, [] ++ [.root]) with
      | error e => rw [h4] at el; cases el
      | ok r =>
        obtain ⟨⟨b2, evs2⟩, ctl2⟩ := r
        obtain ⟨rfl, rfl⟩ := exec_log _ prog _ _ _ _ _ _ hn hc h4
        rw [h4] at el
        simp only [logged_finishChild] at el
        cases h5 : Builder.visitorImpl.finishChild .root .exit prog.log.2 b2 with
        | error e => rw [h5] at el; cases el
        | ok b3 =>
          rw [h5] at el
          simp only [closes_leaks (f := .exit) (.inl rfl), ↓reduceIte, Except.ok.injEq, Prod.mk.injEq] at el
          rw [← el.2]; simp
  have hcalls : calls [] log = calls [] log' := by
    obtain ⟨rs, hrs⟩ := log_replay prog hn hc [⟨.root, Key.new []⟩] (by simp)
    rw [h2, h1.1]
    have := calls_append (b := [.exit .root]) hrs
    simp only [List.cons_append, List.nil_append, calls] at this ⊢
    rw [this]; simp [calls]
  have hn' : n = sumCalls (fun c => c.parent = .unique && c.kind = .inline) (calls [] log) := by
    rw [hs] at hsz
    rw [hcalls]
    cases ctl with
    | returned => simp only [Except.ok.injEq, Option.some.injEq] at hsz; exact hsz.symm
    | unwinding => simp at hsz
  have hkinds : ∀ c ∈ calls [] log, (c.parent = .unique → c.kind = .inline) ∧ c.parent ≠ .shared := by
    intro c hcm
    rw [hcalls, h1.1] at hcm
    simp only [List.cons_append, List.nil_append, calls] at hcm
    have := log_calls prog [⟨.root, Key.new []⟩] hn hc (by simp) (by simpa [parentKind] using ha) c hcm
    exact ⟨this.1, fun h => NodeKind.noConfusion (this.2.1 h)⟩
  have hok := calls_ok (pre := []) (fs := []) trivial hr
  rw [h h0, attributed_calls hr, hn']
  conv => rhs; rw [← calls_rec hr]
  unfold sumCalls
  rw [List.map_map, ← sum_map_add, ← sum_map_add]
  apply sum_map_congr
  intro c hcm
  have ok := hok c hcm
  have hk := hkinds c hcm
  simp only [List.nil_append] at ok
  simp only [Function.comp, Call.toRec]
  obtain ⟨parent, st, nm, sz, kd⟩ := c
  cases parent with
  | inline =>
    obtain ⟨h3, r, hr1, hr2, hr3⟩ := ok.inl rfl
    have : uniqueAt (records [(prog, .exit)]) st = false := by
      have := hmix r hr1
      simp only at hr2
      rw [hr3, hr2] at this; exact this.symm
    simp only at h3
    simp [this, h3]
  | unique =>
    have h3 := (ok.uniq rfl).2
    have h4 := hk.1 rfl
    simp only at h3 h4
    simp [h3, h4]
  | shared => exact absurd rfl hk.2
  | root => have : st = [] := ok.top (.inl rfl)
            simp [this]

/-- C25, for a value that enters itself once: the flame graph total is `size_of_unique`. -/
theorem C25_size_of_unique (k : Key) (sizeT : Nat) (f : Fate) (body : Prog) (hf : f = .exit ∨ f = .drop) (hn : body.NoShared) (hc : body.Closes)
    (ha : body.UniqueApart false)
    (hmix : ∀ r ∈ records [(.enter k sizeT f body .done, .exit)], r.unique = uniqueAt (records [(.enter k sizeT f body .done, .exit)]) r.path)
    (ord : HashOrder TreeId) :
    ∃ out, run ord [(.enter k sizeT f body .done, .exit)] = .ok out ∧
      (out.warnings = [] → ∀ n, SizeOf.sizeOfUnique sizeT (.enter k sizeT f body .done) = .ok (some n) → out.flamegraph.totalSize = n) := by
  obtain ⟨out, e, h⟩ := C25_utilities_agree (.enter k sizeT f body .done) ⟨hn, trivial⟩ ⟨hf, hc, trivial⟩ ⟨ha, trivial⟩ hmix ord
  refine ⟨out, e, fun h0 n hsz => ?_⟩
  simp only [SizeOf.sizeOfUnique] at hsz
  cases h1 : SizeOf.sizeOfUniqueAllocatedData (.enter k sizeT f body .done) with
  | error e => rw [h1] at hsz; cases hsz
  | ok r =>
    rw [h1] at hsz
    cases r with
    | none => simp at hsz
    | some m =>
      simp only [Option.map_some, Except.ok.injEq, Option.some.injEq] at hsz
      rw [h h0 m h1, ← hsz]
      congr 1
      have long : ∀ (P : Prog) cur vis, P.NoShared → ∀ r ∈ (P.trace cur vis).recs, cur.length < r.path.length := by
        intro P
        induction P with
        | done => intro cur vis _ r hr; simp [Prog.trace] at hr
        | panic => intro cur vis _ r hr; simp [Prog.trace] at hr
        | enter k n f b rest ih1 ih2 =>
          intro cur vis hn r hr
          have hb := fun r hr => ih1 (cur ++ [k]) vis hn.1 r hr
          simp only [List.length_append, List.length_singleton] at hb
          simp only [Prog.trace] at hr
          split at hr
          · rcases List.mem_cons.1 hr with rfl | hr
            · simp
            · have := hb r hr; omega
          · simp only [List.cons_append, List.mem_cons, List.mem_append] at hr
            rcases hr with rfl | hr | hr
            · simp
            · have := hb r hr; omega
            · exact ih2 _ _ hn.2 r hr
        | enterUnique k n f b rest ih1 ih2 =>
          intro cur vis hn r hr
          have hb := fun r hr => ih1 (cur ++ [k]) vis hn.1 r hr
          simp only [List.length_append, List.length_singleton] at hb
          simp only [Prog.trace] at hr
          split at hr
          · rcases List.mem_cons.1 hr with rfl | hr
            · simp
            · have := hb r hr; omega
          · simp only [List.cons_append, List.mem_cons, List.mem_append] at hr
            rcases hr with rfl | hr | hr
            · simp
            · have := hb r hr; omega
            · exact ih2 _ _ hn.2 r hr
        | enterShared => intro cur vis hn; exact absurd hn (by simp [Prog.NoShared])
        | catchUnwind b rest ih1 ih2 =>
          intro cur vis hn r hr
          simp only [Prog.trace, List.mem_append] at hr
          exact hr.elim (ih1 _ _ hn.1 r) (ih2 _ _ hn.2 r)
      have : ∃ l, records [(.enter k sizeT f body .done, .exit)] = ⟨[k], sizeT, false⟩ :: l ∧ ∀ r ∈ l, 1 < r.path.length := by
        refine ⟨(body.trace [k] []).recs, ?_, fun r hr => long body [k] [] hn r hr⟩
        simp only [records, traceRoots, Prog.trace, List.nil_append, List.append_nil]
        split <;> simp
      obtain ⟨l, hl, hlong⟩ := this
      rw [hl, List.map_cons, List.sum_cons, FlameGraph.sum_eq_zero_of _ l (fun r hr => by rw [if_neg]; have := hlong r hr; omega)]
      simp

/-- A value with a boxed field, without shared pointers. -/
def Ex.boxed : Prog :=
  .enter (Ex.k "a") 8 .drop .done (.enterUnique (Ex.k "b") 8 .exit (Ex.leaf "T" 100) .done)

example : Ex.boxed.NoShared ∧ Ex.boxed.Closes ∧ Ex.boxed.UniqueApart false ∧
    (∀ r ∈ records [(.enter (Ex.k "S") 16 .exit Ex.boxed .done, .exit)],
      r.unique = uniqueAt (records [(.enter (Ex.k "S") 16 .exit Ex.boxed .done, .exit)]) r.path) ∧
    SizeOf.sizeOfUnique 16 (.enter (Ex.k "S") 16 .exit Ex.boxed .done) = .ok (some 116) := by
  refine ⟨?_, ?_, ?_, by decide, rfl⟩ <;> simp [Ex.boxed, Ex.leaf, Prog.NoShared, Prog.Closes, Prog.UniqueApart]

/-- C43. Once an address has been entered, a later root whose (different) pointee lives at the same address contributes only the
pointer: its contents `body` are never recorded. -/
theorem C43_address_reuse (pre : List (Prog × Fate)) (k : Key) (n : Nat) (ptr : Ptr) (f fate : Fate) (body rs : Prog)
    (hv : ptr ∈ (traceRoots pre []).visited) :
    records (pre ++ [(.enterShared k n ptr f body rs .done, fate)]) = records pre ++ [⟨[k], n, false⟩] := by
  unfold records
  rw [(traceRoots_append _ _ _).1]
  simp [traceRoots, Prog.trace, hv]

example : 7 ∈ (traceRoots Ex.hist1 []).visited := by decide

/-! The theorems of this file with a concrete case of their hypotheses. -/

theorem Ex.prog1_consistent : ∀ x ∈ [(Ex.prog1, Fate.exit), (Ex.prog1, Fate.drop)], x.1.Consistent := by
  simp [Ex.prog1, Prog.Consistent, Prog.direct, Ex.leaf]

theorem Ex.prog1_proper (f : Fate) : ProperKeys [(Ex.prog1, f)] := by
  simp [ProperKeys, Ex.prog1, Ex.leaf, Ex.k, Prog.KeysAre, Key.Proper, Key.new, Key.newUnchecked]

theorem Ex.leaf_proper (f : Fate) : ProperKeys [(Ex.leaf "S" 3, f)] := by
  simp [ProperKeys, Ex.leaf, Ex.k, Prog.KeysAre, Key.Proper, Key.new, Key.newUnchecked]

theorem Ex.boxed_props : Ex.boxed.NoShared ∧ Ex.boxed.Closes ∧ Ex.boxed.UniqueApart false ∧ (Prog.enter (Ex.k "S") 16 .exit Ex.boxed .done).NoShared ∧
    (Prog.enter (Ex.k "S") 16 .exit Ex.boxed .done).Closes ∧ (Prog.enter (Ex.k "S") 16 .exit Ex.boxed .done).UniqueApart false := by
  refine ⟨?_, ?_, ?_, ?_, ?_, ?_⟩ <;> simp [Ex.boxed, Ex.leaf, Prog.NoShared, Prog.Closes, Prog.UniqueApart]

example := C16_conservation_exact Ex.hist1 Ex.hist1_noLeaks
example := C16_conservation Ex.hist1 Ex.hist1_noLeaks
example := C19_consistent_no_warnings [(Ex.prog1, .exit), (Ex.prog1, .drop)] (by decide) Ex.prog1_consistent
example := C22_merge_disjoint [(Ex.prog1, .exit)] [(Ex.leaf "S" 3, .exit)] (by decide) (by decide) (Ex.prog1_proper _) (Ex.leaf_proper _) (by decide) (by
  intro p _ h2
  have : p = [Ex.k "S"] := by obtain ⟨r, hr, rfl⟩ := h2; revert hr; simp [records, traceRoots, Ex.leaf, Prog.trace]; rintro rfl; rfl
  subst this; decide)
example := C23_sum_behind_unique Ex.prog1 (by simp [Ex.prog1, Prog.Closes, Ex.leaf])
example := C45_overcount_exact Ex.hist1 Ex.hist1_noLeaks
example := C25_utilities_agree (.enter (Ex.k "S") 16 .exit Ex.boxed .done) Ex.boxed_props.2.2.2.1 Ex.boxed_props.2.2.2.2.1 Ex.boxed_props.2.2.2.2.2 (by decide)
example := C25_size_of_unique (Ex.k "S") 16 .exit Ex.boxed (.inl rfl) Ex.boxed_props.1 Ex.boxed_props.2.1 Ex.boxed_props.2.2.1 (by decide)
-- the conclusion is not empty either: no warnings, 116 bytes
example : (run (HashOrder.id _) [(.enter (Ex.k "S") 16 .exit Ex.boxed .done, .exit)]).toOption.map (fun o => (o.warnings, o.flamegraph.totalSize)) = some ([], 116) := by
  set_option maxRecDepth 100000 in decide
example := C43_address_reuse Ex.hist1 (Ex.k "d") 8 7 .exit .exit (Ex.leaf "Other" 1000) .done (by decide)

end Allocative
