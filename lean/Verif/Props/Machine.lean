import Verif.Spec.Machine
import Verif.Lemmas.Machine
import Verif.Lemmas.Totals
import Verif.Props.Examples
/-
C42, C46: machine arithmetic.  `Machine.run`, `Machine.add`, ... (Verif/Model/Machine.lean) are the operations of the code with
`usize`/`isize` arithmetic, with overflow checks (`.on`, debug) or without (`.off`, release); `run`, `FlameGraph.add`, ... are
the same over unbounded numbers, which all other theorems are about.
-/
set_option linter.unusedSimpArgs false
namespace Allocative

theorem sizeAt_le_declared (recs : List Rec) (p : Path) : sizeAt recs p ≤ (recs.map Rec.size).sum := by
  induction recs with
  | nil => simp [sizeAt]
  | cons r l ih =>
    rw [Machine.sizeAt_cons, List.map_cons, List.sum_cons]
    split <;> omega

theorem childrenAt_le_declared (recs : List Rec) (p : Path) : childrenAt recs p ≤ (recs.map Rec.size).sum := by
  induction recs with
  | nil => simp [childrenAt]
  | cons r l ih =>
    have : childrenAt (r :: l) p = (if isChild p r.path then r.size else 0) + childrenAt l p := by simp [childrenAt]
    rw [this, List.map_cons, List.sum_cons]
    split <;> omega

theorem total_le_declared {hist : List (Prog × Fate)} (hl : NoLeaks hist) {ord out} (h : run ord hist = .ok out) :
    out.flamegraph.totalSize ≤ declared hist := by
  obtain ⟨out', ws, e, hb, hs, _⟩ := run_spec (Q := fun _ => True) hl (fun x _ => Prog.KeysAre.trivial x.1) ord
  rw [h] at e
  cases e
  have hok := hb.ok
  have hl' : ∀ p, p ∈ FlameGraph.allPaths out.flamegraph ↔ p = [] ∨ entered (records hist) p := by
    intro p
    rw [FlameGraph.mem_allPaths _ hok, hs p]
    split <;> simp_all
  have hnd := FlameGraph.nodup_allPaths _ hok
  rw [hok.totalSize_eq_sum hnd (fun p hp => (FlameGraph.mem_allPaths _ hok p).2 hp)]
  have h1 : ∀ p, (out.flamegraph.selfAt p).getD 0 ≤ sizeAt (records hist) p := by
    intro p
    rw [hs p]
    split
    · simp only [Option.getD_some, selfSpec, remAt]
      split
      · omega
      · split <;> omega
    · simp
  have h2 : ((FlameGraph.allPaths out.flamegraph).map (sizeAt (records hist))).sum = declared hist :=
    sum_fiber Rec.path Rec.size _ hnd (records hist) (fun r hr => (hl' _).2 (.inr ⟨r, hr, rfl⟩))
  rw [← h2]
  generalize FlameGraph.allPaths out.flamegraph = l
  clear hl' hnd h2
  induction l with
  | nil => simp
  | cons p l ih => simp only [List.map_cons, List.sum_cons]; have := h1 p; omega

/-- C42. If the declared sizes of a history sum to less than `isize::MAX + 1`, debug and release builds compute exactly what the model over
unbounded numbers computes: flame graph and warnings. -/
theorem C42_exact [Target] (hist : List (Prog × Fate)) (hl : NoLeaks hist) (h : declared hist < Usize.half) (c : Machine.Checks) (ord : HashOrder TreeId) :
    Machine.run c ord hist = run ord hist := by
  obtain ⟨b, paths, e, hi⟩ := useRoots_default hl
  have hs : ∀ q, sizeAt (records hist) q < Usize.half := fun q => Nat.lt_of_le_of_lt (sizeAt_le_declared _ q) h
  have hc : ∀ q, childrenAt (records hist) q < Usize.half := fun q => Nat.lt_of_le_of_lt (childrenAt_le_declared _ q) h
  have e' := Machine.useRoots_fits c Idle.default (hist := hist) hl (by
    intro q
    have : sizeAt ([] ++ (traceRoots hist Builder.default.visitedShared).recs) q = sizeAt (records hist) q := rfl
    rw [this]; have := hs q; word_omega)
  obtain ⟨out, _, er, _⟩ := run_spec (Q := fun _ => True) hl (fun x _ => Prog.KeysAre.trivial x.1) ord
  have ht := total_le_declared hl er
  rw [er]
  simp only [run, e] at er
  simp only [Machine.run, e', e]
  exact (Machine.finish_both hi (fun p => ⟨hs p, hc p⟩) c ord).1 out er (by word_omega)

-- the hypotheses hold for a history with a cycle, a warning and a caught panic
example : NoLeaks Ex.hist1 ∧ declared Ex.hist1 = 400 := ⟨by decide, by decide⟩

/-- C42. The bound is needed: one declared size of `isize::MAX + 1` vanishes from the flame graph and is reported as an over-full node, in debug
and in release builds. -/
theorem C42_bound_needed [t : Target] : ∃ hist, NoLeaks hist ∧ declared hist = Usize.half ∧ ∀ c, ∃ out,
    Machine.run c (HashOrder.id _) hist = .ok out ∧ out.flamegraph.totalSize = 0 ∧ out.warnings ≠ [] ∧
    ∃ out', run (HashOrder.id _) hist = .ok out' ∧ out'.flamegraph.totalSize = Usize.half ∧ out'.warnings = [] := by
  obtain ⟨w⟩ := t
  refine ⟨[(Ex.leaf "a" (@Usize.half ⟨w⟩), .exit)], by cases w <;> decide, by cases w <;> decide, ?_⟩
  intro c
  cases w <;> cases c <;> exact ⟨_, rfl, by decide, by decide, _, rfl, by decide, by decide⟩

/-- C42. Merging flame graphs: `add`, `add_child`, `add_self` and `total_size` are exact in both kinds of builds as long as the total
fits in a `usize`. -/
theorem C42_flamegraph [Target] {Q} (a b : FlameGraph) (ha : a.Built Q) (hb : b.Built Q) (k : Key) (c : Machine.Checks)
    (h : a.totalSize + b.totalSize < Usize.modulus) :
    Machine.add c a b = .ok (a.add b) ∧ Machine.addChild c a k b = .ok (a.addChild k b) ∧
    Machine.totalSize c a = .ok a.totalSize ∧ (∀ n, a.totalSize + n < Usize.modulus → Machine.addSelf c a n = .ok (a.addSelf n)) := by
  refine ⟨Machine.add_fits b a ha.ok hb.ok (by rw [FlameGraph.totalSize_add _ _ hb.ok.sum]; exact h),
    Machine.addChild_fits ha.ok hb.ok (by rw [Machine.totalSize_addChild]; exact h), ?_, fun n hn => Machine.addSelf_fits ?_⟩
  · simp only [Machine.totalSize, FlameGraph.totalSize] at *; exact Machine.addUsize_fits (by omega)
  · cases a; simp only [FlameGraph.addSelf, FlameGraph.totalSize, FlameGraph.mk_nodeSize, FlameGraph.mk_childrenSize] at *; omega

/-- C42. In debug builds these operations return the exact result or panic. -/
theorem C42_flamegraph_debug [Target] (a b r : FlameGraph) (k : Key) :
    (Machine.add .on a b = .ok r → r = a.add b) ∧ (Machine.addChild .on a k b = .ok r → r = a.addChild k b) ∧
    (∀ n, Machine.totalSize .on a = .ok n → n = a.totalSize) ∧ (∀ n, Machine.addSelf .on a n = .ok r → r = a.addSelf n) :=
  ⟨Machine.add_sound b a r, Machine.addChild_sound, fun _ => Machine.totalSize_sound, fun _ => Machine.addSelf_sound⟩

/-- `add` on usize panics only with overflow checks, and then because of an overflow. -/
theorem Machine.addUsize_error [Target] {c : Machine.Checks} {a b : Nat} {e : Panic} (h : Machine.addUsize c a b = .error e) : c = .on ∧ e = .arithOverflow := by
  simp only [Machine.addUsize] at h
  split at h
  · cases h
  · cases c
    · cases h; exact ⟨rfl, rfl⟩
    · cases h

theorem Machine.upsert_error {α : Type} {k : Key} {f : α → Except Panic α} {v : α} {P : Panic → Prop} (hf : ∀ x e, f x = .error e → P e) :
    ∀ {m : HMap α} {e}, Machine.upsert k f v m = .error e → P e
  | [], e, h => by simp only [Machine.upsert] at h; cases h
  | (k', v') :: rest, e, h => by
    simp only [Machine.upsert] at h
    split at h
    · cases hv : f v' with
      | error _ => simp only [hv] at h; cases h; exact hf _ _ hv
      | ok r' => simp only [hv] at h; cases h
    · cases hv : Machine.upsert k f v rest with
      | error _ => simp only [hv] at h; cases h; exact Machine.upsert_error hf hv
      | ok r' => simp only [hv] at h; cases h

theorem Machine.addSelf_error [Target] {c : Machine.Checks} {a : FlameGraph} {n : Nat} {e : Panic} (h : Machine.addSelf c a n = .error e) : c = .on ∧ e = .arithOverflow := by
  simp only [Machine.addSelf] at h
  split at h
  · cases h; exact Machine.addUsize_error (by assumption)
  · cases h

theorem Machine.addChild_error_aux [Target] {c : Machine.Checks} {a b : FlameGraph} {k : Key} {e : Panic} (ih : ∀ a e, Machine.add c a b = .error e → c = .on ∧ e = .arithOverflow)
    (h : Machine.addChild c a k b = .error e) : c = .on ∧ e = .arithOverflow := by
  simp only [Machine.addChild] at h
  split at h
  · cases h; exact Machine.addUsize_error (by assumption)
  · split at h
    · cases h; exact Machine.addUsize_error (by assumption)
    · split at h
      · rename_i hu
        cases h
        exact Machine.upsert_error (P := fun e => c = .on ∧ e = .arithOverflow) ih hu
      · cases h

theorem Machine.add_error [Target] {c : Machine.Checks} (b : FlameGraph) : ∀ (a : FlameGraph) (e : Panic), Machine.add c a b = .error e → c = .on ∧ e = .arithOverflow := by
  induction b using FlameGraph.induct with
  | h ch cs n ih =>
    intro a e h
    rw [Machine.add] at h
    split at h
    · cases h; exact Machine.addSelf_error (by assumption)
    · rename_i s hs
      have key : ∀ (l : List (Key × FlameGraph)), (∀ kc ∈ l, kc ∈ ch) → ∀ s, Machine.addAll c s l = .error e → c = .on ∧ e = .arithOverflow := by
        intro l
        induction l with
        | nil => intro _ s h; rw [Machine.addAll] at h; cases h
        | cons kc rest ihl =>
          obtain ⟨k, b⟩ := kc
          intro hl s h
          rw [Machine.addAll_cons] at h
          split at h
          · cases h; exact Machine.addChild_error_aux (fun a e => ih (k, b) (hl _ (by simp)) a e) (by assumption)
          · exact ihl (fun x hx => hl x (by simp [hx])) _ h
      exact key ch (fun _ h => h) s h

/-- C42. These operations panic only if overflow checks are on, and only because an addition overflows. -/
theorem C42_flamegraph_panic [Target] (c : Machine.Checks) (a b : FlameGraph) (k : Key) (e : Panic) :
    (Machine.add c a b = .error e → c = .on ∧ e = .arithOverflow) ∧ (Machine.addChild c a k b = .error e → c = .on ∧ e = .arithOverflow) ∧
    (Machine.totalSize c a = .error e → c = .on ∧ e = .arithOverflow) ∧ (∀ n, Machine.addSelf c a n = .error e → c = .on ∧ e = .arithOverflow) :=
  ⟨Machine.add_error b a e, Machine.addChild_error_aux (Machine.add_error b), Machine.addUsize_error, fun _ => Machine.addSelf_error⟩

-- two graphs that fit
attribute [local instance] Target.x64 in
example : (FlameGraph.default.addSelf (Usize.half)).totalSize + (FlameGraph.default.addSelf (Usize.half - 1)).totalSize < Usize.modulus := by decide
-- and a merge that overflows
attribute [local instance] Target.x64 in
example : Machine.add .on (FlameGraph.default.addSelf (Usize.half)) (FlameGraph.default.addSelf (Usize.half)) = .error .arithOverflow ∧
    Machine.add .off (FlameGraph.default.addSelf (Usize.half)) (FlameGraph.default.addSelf (Usize.half)) = .ok (FlameGraph.default) := ⟨rfl, rfl⟩

theorem sizeOf_both [Target] (prog : Prog) : ∀ (kind : NodeKind) (s : Nat), ∃ (s' : Nat) (ctl : Ctl), exec SizeOf.visitorImpl prog kind s = .ok (s', ctl) ∧ s ≤ s' ∧
    Machine.sizeOfExec .off prog kind (s % Usize.modulus) = (s' % Usize.modulus, ctl) ∧
    (s' < Usize.modulus → Machine.sizeOfExec .on prog kind s = (s', ctl)) ∧
    (prog.NoCatch → s < Usize.modulus → ¬ s' < Usize.modulus → (Machine.sizeOfExec .on prog kind s).2 = .unwinding) := by
  induction prog with
  | done => intro kind s; exact ⟨s, .returned, rfl, Nat.le_refl _, rfl, fun _ => rfl, fun _ h h' => absurd h h'⟩
  | panic => intro kind s; exact ⟨s, .unwinding, rfl, Nat.le_refl _, rfl, fun _ => rfl, fun _ h h' => absurd h h'⟩
  | enter k n f body rest ih1 ih2 =>
    intro kind s
    let s1 : Nat := match kind with | .unique => s + n | _ => s
    have hle : s ≤ s1 := by simp only [s1]; split <;> omega
    have he : SizeOf.visitorImpl.enterInlineImpl s k n kind = .ok s1 := rfl
    have hoff : Machine.sizeOfInline .off (s % Usize.modulus) n kind = (s1 % Usize.modulus, .returned) := by
      cases kind <;> first | rfl | skip
      simp only [Machine.sizeOfInline, Machine.addUsize, s1]
      split
      · rename_i h
        split at h
        · cases h
        · cases h
      · rename_i h
        split at h
        · cases h; rename_i h'; simp only [Prod.mk.injEq, and_true]; word_omega
        · cases h; simp only [Prod.mk.injEq, and_true]; word_omega
    have hon : s1 < Usize.modulus → Machine.sizeOfInline .on s n kind = (s1, .returned) := by
      intro h
      cases kind <;> first | rfl | skip
      simp only [Machine.sizeOfInline, s1] at h ⊢
      rw [Machine.addUsize_fits h]
    have hov : s < Usize.modulus → ¬ s1 < Usize.modulus → Machine.sizeOfInline .on s n kind = (s, .unwinding) := by
      intro h0 h
      cases kind <;> first | exact absurd h0 h | skip
      simp only [s1] at h
      simp only [Machine.sizeOfInline, Machine.addUsize, if_neg h]
    obtain ⟨s2, c2, e2, l2, o2, n2, v2⟩ := ih1 .inline s1
    have hfin : ∀ s : Nat, SizeOf.visitorImpl.finishChild .inline f c2 s = .ok s := by
      intro s; cases f <;> cases c2 <;> rfl
    obtain ⟨s3, c3, e3, l3, o3, n3, v3⟩ := ih2 kind s2
    cases c2 with
    | unwinding =>
      refine ⟨s2, .unwinding, by simp only [exec, he, e2, hfin], by omega, by simp only [Machine.sizeOfExec, hoff, o2], ?_, ?_⟩
      · intro h; simp only [Machine.sizeOfExec, hon (by omega), n2 h]
      · intro hc h0 h
        by_cases h1 : s1 < Usize.modulus
        · simp only [Machine.sizeOfExec, hon h1]
          have := v2 hc.1 h1 h
          generalize Machine.sizeOfExec .on body .inline s1 = x at this
          obtain ⟨a, b⟩ := x
          simp only at this; subst this; rfl
        · simp only [Machine.sizeOfExec, hov h0 h1]
    | returned =>
      refine ⟨s3, c3, by simp only [exec, he, e2, hfin, e3], by omega, by simp only [Machine.sizeOfExec, hoff, o2, o3], ?_, ?_⟩
      · intro h; simp only [Machine.sizeOfExec, hon (by omega), n2 (by omega), n3 h]
      · intro hc h0 h
        by_cases h1 : s1 < Usize.modulus
        · simp only [Machine.sizeOfExec, hon h1]
          by_cases h2 : s2 < Usize.modulus
          · simp only [n2 h2]; exact v3 hc.2 h2 h
          · have := v2 hc.1 h1 h2
            generalize Machine.sizeOfExec .on body .inline s1 = x at this
            obtain ⟨a, b⟩ := x
            simp only at this; subst this; rfl
        · simp only [Machine.sizeOfExec, hov h0 h1]
  | enterUnique k n f body rest ih1 ih2 =>
    intro kind s
    have he : SizeOf.visitorImpl.enterUniqueImpl s k n kind = .ok s := rfl
    obtain ⟨s2, c2, e2, l2, o2, n2, v2⟩ := ih1 .unique s
    have hfin : ∀ s : Nat, SizeOf.visitorImpl.finishChild .unique f c2 s = .ok s := by
      intro s; cases f <;> cases c2 <;> rfl
    obtain ⟨s3, c3, e3, l3, o3, n3, v3⟩ := ih2 kind s2
    cases c2 with
    | unwinding =>
      refine ⟨s2, .unwinding, by simp only [exec, he, e2, hfin], by omega, by simp only [Machine.sizeOfExec, o2], ?_, ?_⟩
      · intro h; simp only [Machine.sizeOfExec, n2 h]
      · intro hc h0 h
        simp only [Machine.sizeOfExec]
        have := v2 hc.1 h0 h
        generalize Machine.sizeOfExec .on body .unique s = x at this
        obtain ⟨a, b⟩ := x
        simp only at this; subst this; rfl
    | returned =>
      refine ⟨s3, c3, by simp only [exec, he, e2, hfin, e3], by omega, by simp only [Machine.sizeOfExec, o2, o3], ?_, ?_⟩
      · intro h; simp only [Machine.sizeOfExec, n2 (by omega), n3 h]
      · intro hc h0 h
        simp only [Machine.sizeOfExec]
        by_cases h2 : s2 < Usize.modulus
        · simp only [n2 h2]; exact v3 hc.2 h2 h
        · have := v2 hc.1 h0 h2
          generalize Machine.sizeOfExec .on body .unique s = x at this
          obtain ⟨a, b⟩ := x
          simp only at this; subst this; rfl
  | enterShared k n p f body rs rn ih1 ih2 ih3 =>
    intro kind s
    obtain ⟨s3, c3, e3, l3, o3, n3, v3⟩ := ih3 kind s
    have he : SizeOf.visitorImpl.enterSharedImpl s k n p kind = .ok (false, s) := rfl
    exact ⟨s3, c3, by simp only [exec, he, e3], l3, by simp only [Machine.sizeOfExec, o3], fun h => by simp only [Machine.sizeOfExec, n3 h],
      fun hc h0 h => by simp only [Machine.sizeOfExec]; exact v3 hc.2.2 h0 h⟩
  | catchUnwind body rest ih1 ih2 =>
    intro kind s
    obtain ⟨s2, c2, e2, l2, o2, n2, v2⟩ := ih1 kind s
    obtain ⟨s3, c3, e3, l3, o3, n3, v3⟩ := ih2 kind s2
    exact ⟨s3, c3, by simp only [exec, e2, e3], by omega, by simp only [Machine.sizeOfExec, o2, o3],
      fun h => by simp only [Machine.sizeOfExec, n2 (by omega), n3 h], fun hc => by simp [Prog.NoCatch] at hc⟩

/-- C42. `size_of_unique_allocated_data` and `size_of_unique` in release builds: the exact value modulo `usize::MAX + 1`, for every visit. -/
theorem C42_size_of_release [Target] (prog : Prog) (sizeOfT : Nat) :
    SizeOf.sizeOfUniqueAllocatedData prog ≠ .error .unreachableShared ∧
    (∀ r, SizeOf.sizeOfUniqueAllocatedData prog = .ok r → Machine.sizeOfUniqueAllocatedData .off prog = r.map (· % Usize.modulus)) ∧
    (∀ r, SizeOf.sizeOfUnique sizeOfT prog = .ok r → Machine.sizeOfUnique .off sizeOfT prog = r.map (· % Usize.modulus)) := by
  obtain ⟨s, c, e, _, ho, _⟩ := sizeOf_both prog .root 0
  have hf : ∀ s, SizeOf.visitorImpl.finishChild .root .exit c s = .ok s := by intro s; cases c <;> rfl
  have ho : Machine.sizeOfExec .off prog .root 0 = (s % Usize.modulus, c) := ho
  cases c with
  | unwinding =>
    simp only [SizeOf.sizeOfUnique, SizeOf.sizeOfUniqueAllocatedData, e, hf, Machine.sizeOfUnique, Machine.sizeOfUniqueAllocatedData, ho]
    refine ⟨by simp, ?_, ?_⟩ <;> (intro r h; cases h; rfl)
  | returned =>
    simp only [SizeOf.sizeOfUnique, SizeOf.sizeOfUniqueAllocatedData, e, hf, Machine.sizeOfUnique, Machine.sizeOfUniqueAllocatedData, ho]
    refine ⟨by simp, ?_, ?_⟩
    · intro r h; cases h; rfl
    · intro r h
      cases h
      simp only [Option.map_some, Machine.addUsize]
      split
      · rename_i h; split at h <;> cases h
      · rename_i h
        split at h
        · cases h; congr 1; word_omega
        · cases h; congr 1; word_omega

/-- C42. In debug builds, for a visit that does not catch panics: the exact value if it fits, a panic if it does not. -/
theorem C42_size_of_debug [Target] (prog : Prog) (hc : prog.NoCatch) (r : Option Nat) (h : SizeOf.sizeOfUniqueAllocatedData prog = .ok r) :
    Machine.sizeOfUniqueAllocatedData .on prog = r.bind fun n => if n < Usize.modulus then some n else none := by
  obtain ⟨s, c, e, _, _, hn, hv⟩ := sizeOf_both prog .root 0
  have hf : ∀ s, SizeOf.visitorImpl.finishChild .root .exit c s = .ok s := by intro s; cases c <;> rfl
  simp only [SizeOf.sizeOfUniqueAllocatedData, e, hf] at h
  have hres : ¬ s < Usize.modulus → Machine.sizeOfUniqueAllocatedData .on prog = none := by
    intro hs
    have := hv hc Usize.modulus_pos hs
    simp only [Machine.sizeOfUniqueAllocatedData]
    generalize Machine.sizeOfExec .on prog .root 0 = x at this
    obtain ⟨a, b⟩ := x
    simp only at this; subst this; rfl
  cases c with
  | unwinding =>
    cases h
    by_cases hs : s < Usize.modulus
    · simp only [Machine.sizeOfUniqueAllocatedData, hn hs, Option.bind_none]
    · exact hres hs
  | returned =>
    cases h
    simp only [Option.bind_some]
    by_cases hs : s < Usize.modulus
    · rw [if_pos hs]; simp only [Machine.sizeOfUniqueAllocatedData, hn hs]
    · rw [if_neg hs]; exact hres hs

/-- C42. `size_of_unique` in debug builds, for a visit that does not catch panics: the exact value if it fits, a panic if it does not. -/
theorem C42_size_of_unique_debug [Target] (prog : Prog) (hc : prog.NoCatch) (sizeOfT : Nat) (r : Option Nat)
    (h : SizeOf.sizeOfUnique sizeOfT prog = .ok r) :
    Machine.sizeOfUnique .on sizeOfT prog = r.bind fun n => if n < Usize.modulus then some n else none := by
  unfold SizeOf.sizeOfUnique at h
  cases hd : SizeOf.sizeOfUniqueAllocatedData prog with
  | error e => rw [hd] at h; cases h
  | ok r' =>
    have := C42_size_of_debug prog hc r' hd
    rw [hd] at h
    unfold Machine.sizeOfUnique
    rw [this]
    cases r' with
    | none => cases h; rfl
    | some n =>
      cases h
      simp only [Option.bind_some, Option.map_some]
      by_cases hn : n < Usize.modulus
      · rw [if_pos hn]
        simp only [Machine.addUsize]
        by_cases hm : sizeOfT + n < Usize.modulus
        · rw [if_pos hm, if_pos hm]
        · rw [if_neg hm, if_neg hm]
      · rw [if_neg hn, if_neg (by omega)]

attribute [local instance] Target.x64 in
example : Machine.sizeOfUnique .on (Usize.modulus - 9) (.enterUnique (Ex.k "p") 8 .exit (Ex.leaf "a" 8) .done) = some (Usize.modulus - 1) ∧
    Machine.sizeOfUnique .on (Usize.modulus - 8) (.enterUnique (Ex.k "p") 8 .exit (Ex.leaf "a" 8) .done) = none := ⟨by decide, by decide⟩

-- a box of 2^64 - 1 bytes, and one of 2^64 bytes in two parts
attribute [local instance] Target.x64 in
example : (Prog.enterUnique (Ex.k "p") 8 .exit (Ex.leaf "a" (Usize.modulus - 1)) .done).NoCatch ∧
    Machine.sizeOfUniqueAllocatedData .on (.enterUnique (Ex.k "p") 8 .exit (Ex.leaf "a" (Usize.modulus - 1)) .done) = some (Usize.modulus - 1) ∧
    Machine.sizeOfUniqueAllocatedData .on (.enterUnique (Ex.k "p") 8 .exit (Ex.leaf "a" (Usize.half) (Ex.leaf "b" (Usize.half))) .done) = none ∧
    Machine.sizeOfUniqueAllocatedData .off (.enterUnique (Ex.k "p") 8 .exit (Ex.leaf "a" (Usize.half) (Ex.leaf "b" (Usize.half))) .done) = some 0 :=
  ⟨by simp [Prog.NoCatch, Ex.leaf], by decide, by decide, by decide⟩

/-- C46. Debug builds: if at the end of a history some stack would have been declared with `usize::MAX + 1` bytes or more, then somewhere in it
`size += size` overflowed and panicked, inside an enter call.  Whatever the visits catch and whatever is visited afterwards, no flame
graph is returned: either a later `root_visitor` panics or `finish` does. -/
theorem C46_fail_stop [Target] (hist : List (Prog × Fate)) (p : Path) (h : Usize.modulus ≤ sizeAt (records hist) p) (ord : HashOrder TreeId) :
    Machine.run .on ord hist = .error .assertRootNotEntered ∨ Machine.run .on ord hist = .error .assertFinish := by
  rcases Machine.useRoots_on hist Idle.default (Machine.Fits.default : Machine.Fits Builder.default) with h1 | ⟨b, n, h1, hl⟩ | ⟨b, h1, h2, hf, hl⟩
  · left; simp only [Machine.run, h1]
  · right; simp only [Machine.run, h1, (Machine.Live.dead hl).2.1]
  · exfalso
    obtain ⟨b', paths, e, hi⟩ := useRoots_default (hist := hist) hl
    rw [h2] at e
    cases e
    have hm : p ∈ paths := by
      rw [hi.rep.mem]
      right
      refine Decidable.byContradiction fun hne => ?_
      rw [Rep.sizeAt_eq_zero hne] at h; exact absurd Usize.modulus_pos (by omega)
    obtain ⟨i, hp⟩ := List.mem_iff_getElem?.1 hm
    obtain ⟨d, hd⟩ := hi.rep.get hp
    have := hf d (List.mem_of_getElem? hd)
    rw [hi.rep.size hp hd] at this
    omega

/-- C46. The other way round: what `finish` returns in a debug build is exact, if no stack and no set of siblings is declared with more
than `isize::MAX` bytes. -/
theorem C46_exact_or_panic [Target] (hist : List (Prog × Fate)) (ord : HashOrder TreeId) (out : Builder.Output)
    (h : Machine.run .on ord hist = .ok out) (hb : ∀ p, sizeAt (records hist) p < Usize.half ∧ childrenAt (records hist) p < Usize.half) :
    run ord hist = .ok out := by
  rcases Machine.useRoots_on hist Idle.default (Machine.Fits.default : Machine.Fits Builder.default) with h1 | ⟨b, n, h1, hl⟩ | ⟨b, h1, h2, hf, hl⟩
  · simp only [Machine.run, h1] at h; cases h
  · simp only [Machine.run, h1, (Machine.Live.dead hl).2.1] at h; cases h
  · obtain ⟨b', paths, e, hi⟩ := useRoots_default (hist := hist) hl
    rw [h2] at e
    cases e
    simp only [Machine.run, h1] at h
    simp only [run, h2]
    exact (Machine.finish_both hi hb .on ord).2 out h

attribute [local instance] Target.x64 in
/-- An overflowing history: the second `a` does not fit; the visit itself catches the panic and goes on. -/
def Ex.overflow : List (Prog × Fate) :=
  [(.enter (Ex.k "S") 8 .exit (Ex.leaf "a" (Usize.modulus - 1) (.catchUnwind (Ex.leaf "a" 1) (Ex.leaf "b" 5))) .done, .exit)]

attribute [local instance] Target.x64 in
example : Usize.modulus ≤ sizeAt (records Ex.overflow) [Ex.k "S", Ex.k "a"] ∧
    Machine.run .on (HashOrder.id _) Ex.overflow = .error .assertFinish ∧
    Machine.run .on (HashOrder.id _) (Ex.overflow ++ Ex.hist1) = .error .assertRootNotEntered :=
  ⟨by decide, rfl, rfl⟩

-- without overflow the debug build returns
attribute [local instance] Target.x64 in
example : ∃ out, Machine.run .on (HashOrder.id _) Ex.hist1 = .ok out ∧ out.flamegraph.totalSize ≠ 0 := ⟨_, rfl, by decide⟩

/-! The theorems of this file with a concrete case of their hypotheses. -/

attribute [local instance] Target.x64 in
example (c : Machine.Checks) (ord : HashOrder TreeId) := C42_exact Ex.hist1 (by decide) (by decide) c ord
/-- A root of `2^62` bytes with a child of 5. -/
def Ex.heavy : FlameGraph := (FlameGraph.default.addSelf (2 ^ 62)).addChild (Ex.k "a") (FlameGraph.default.addSelf 5)
theorem Ex.heavy_built : Ex.heavy.Built fun _ => True := .addChild _ trivial (.addSelf _ .default) (.addSelf _ .default)
attribute [local instance] Target.x64 in
example (c : Machine.Checks) := C42_flamegraph Ex.heavy Ex.heavy Ex.heavy_built Ex.heavy_built (Ex.k "x") c (by decide)
attribute [local instance] Target.x64 in
example := C42_size_of_debug (.enterUnique (Ex.k "p") 8 .exit (Ex.leaf "a" (Usize.half) (Ex.leaf "b" (Usize.half))) .done) (by simp [Prog.NoCatch, Ex.leaf]) _ rfl
attribute [local instance] Target.x64 in
example := C42_size_of_unique_debug (.enterUnique (Ex.k "p") 8 .exit (Ex.leaf "a" 8) .done) (by simp [Prog.NoCatch, Ex.leaf]) (Usize.modulus - 9) _ rfl
attribute [local instance] Target.x64 in
example (ord : HashOrder TreeId) := C46_fail_stop Ex.overflow [Ex.k "S", Ex.k "a"] (by decide) ord
attribute [local instance] Target.x64 in
example : run (HashOrder.id _) Ex.hist1 = Machine.run .on (HashOrder.id _) Ex.hist1 := by
  obtain ⟨out, h⟩ : ∃ out, Machine.run .on (HashOrder.id _) Ex.hist1 = .ok out := ⟨_, rfl⟩
  rw [h]
  have hd : declared Ex.hist1 = 400 := by decide
  exact C46_exact_or_panic Ex.hist1 (HashOrder.id _) out h fun p =>
    ⟨Nat.lt_of_le_of_lt (sizeAt_le_declared _ p) (by show declared Ex.hist1 < _; rw [hd]; decide), Nat.lt_of_le_of_lt (childrenAt_le_declared _ p) (by show declared Ex.hist1 < _; rw [hd]; decide)⟩

end Allocative
