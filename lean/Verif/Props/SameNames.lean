import Verif.Spec.SameNames
import Verif.Props.Nested
set_option linter.unusedSimpArgs false
/-
C77: things with the same name are merged.
-/
namespace Allocative

/-- The same call, with other names. -/
def Rec.renamed (f : Str → Str) (r : Rec) : Rec := { r with path := Path.renamed f r.path }

theorem Path.renamed_snoc (f : Str → Str) (p : Path) (k : Key) : Path.renamed f (p ++ [k]) = Path.renamed f p ++ [k.renamed f] := by simp [Path.renamed]

@[simp] theorem Path.renamed_nil (f : Str → Str) : Path.renamed f [] = [] := rfl

theorem Path.renamed_eq_nil {f : Str → Str} {p : Path} : Path.renamed f p = [] ↔ p = [] := by simp [Path.renamed]

theorem Path.renamed_dropLast (f : Str → Str) (p : Path) : Path.renamed f p.dropLast = (Path.renamed f p).dropLast := by simp [Path.renamed, List.map_dropLast]

theorem trace_renamed (f : Str → Str) (prog : Prog) : ∀ cur vis, (prog.rename (Key.renamed f) fun a => a).trace (Path.renamed f cur) vis =
    { prog.trace cur vis with recs := (prog.trace cur vis).recs.map (Rec.renamed f) } := by
  induction prog with
  | done => intro cur vis; rfl
  | panic => intro cur vis; rfl
  | enter k n fate body rest ih1 ih2 =>
    intro cur vis
    simp only [Prog.rename, Prog.trace, ← Path.renamed_snoc, ih1]
    split <;> simp_all [Rec.renamed]
  | enterUnique k n fate body rest ih1 ih2 =>
    intro cur vis
    simp only [Prog.rename, Prog.trace, ← Path.renamed_snoc, ih1]
    split <;> simp_all [Rec.renamed]
  | enterShared k n p fate body rs rn ih1 ih2 ih3 =>
    intro cur vis
    have := ih1 [] (p :: vis)
    rw [Path.renamed_nil] at this
    simp only [Prog.rename, Prog.trace, ← Path.renamed_snoc, this]
    split
    · simp_all [Rec.renamed]
    · split <;> simp_all [Rec.renamed]
  | catchUnwind body rest ih1 ih2 =>
    intro cur vis
    simp [Prog.rename, Prog.trace, ih1, ih2]

theorem traceRoots_renamed (f : Str → Str) (hist : List (Prog × Fate)) : ∀ vis, traceRoots (renamedHist f hist) vis =
    { traceRoots hist vis with recs := (traceRoots hist vis).recs.map (Rec.renamed f) } := by
  induction hist with
  | nil => intro vis; rfl
  | cons x rest ih =>
    intro vis
    obtain ⟨prog, fate⟩ := x
    have h := trace_renamed f prog [] vis
    rw [Path.renamed_nil] at h
    have : renamedHist f ((prog, fate) :: rest) = (prog.rename (Key.renamed f) fun a => a, fate) :: renamedHist f rest := rfl
    rw [this]
    simp [traceRoots, h, ih]

theorem records_renamed (f : Str → Str) (hist : List (Prog × Fate)) : records (renamedHist f hist) = (records hist).map (Rec.renamed f) := by
  simp [records, traceRoots_renamed]

theorem noLeaks_renamed (f : Str → Str) (hist : List (Prog × Fate)) : NoLeaks (renamedHist f hist) ↔ NoLeaks hist := by
  simp [NoLeaks, traceRoots_renamed]

theorem keysAre_renamed (f : Str → Str) (prog : Prog) : (prog.rename (Key.renamed f) fun a => a).KeysAre Key.Proper := by
  induction prog <;> simp_all [Prog.rename, Prog.KeysAre, Key.renamed, Key.Proper, Key.new, Key.newUnchecked]

theorem properKeys_renamed (f : Str → Str) (hist : List (Prog × Fate)) : ProperKeys (renamedHist f hist) := by
  intro x hx
  obtain ⟨y, -, rfl⟩ := List.mem_map.1 hx
  exact keysAre_renamed f y.1

theorem isProfile {hist : List (Prog × Fate)} (hl : NoLeaks hist) (hk : ProperKeys hist) (ord : HashOrder TreeId) (ord' : HashOrder (List Str)) :
    ∃ lines ws total, observe ord ord' hist = .ok ⟨lines.flatMap renderLine, total, ws.flatMap Warning.text⟩ ∧ IsProfile hist lines ws total := by
  obtain ⟨out, ws, e, b, s, w, wn, wm, wso⟩ := run_spec hl hk ord
  have hlm : ∀ p n, (p, n) ∈ FlameGraph.entries out.flamegraph [] ↔ p ≠ [] ∧ n ≠ 0 ∧ out.flamegraph.selfAt p = some n := by
    intro p n
    rw [FlameGraph.mem_entries _ b.ok]
    constructor
    · rintro ⟨q, e, h⟩; simp only [List.nil_append] at e; subst e; exact h
    · intro h; exact ⟨p, rfl, h⟩
  refine ⟨FlameGraph.entries out.flamegraph [], ws.map fun p => ⟨p, sizeAt (records hist) p, childrenAt (records hist) p⟩, out.flamegraph.totalSize, ?_,
    FlameGraph.entries_sorted _ b.ok _, fun p n => ?_, ?_, fun p m n => ?_, ?_⟩
  · simp only [observe, e, FlameGraph.write_eq _ _ b.ok, w, List.flatMap_map]
    rfl
  · rw [hlm, s]
    constructor
    · rintro ⟨h1, h2, h3⟩
      split at h3
      · rename_i h
        exact ⟨h1, h2, h.resolve_left h1, (Option.some.inj h3).symm⟩
      · cases h3
    · rintro ⟨h1, h2, h3, rfl⟩
      exact ⟨h1, h2, by rw [if_pos (.inr h3)]⟩
  · rw [List.pairwise_map]
    exact wso fun k hk => hk
  · rw [← wm p]
    constructor
    · intro h
      obtain ⟨q, hq, e⟩ := List.mem_map.1 h
      cases e
      exact ⟨hq, rfl, rfl⟩
    · rintro ⟨h, rfl, rfl⟩
      exact List.mem_map.2 ⟨p, h, rfl⟩
  · have : out.flamegraph.nodeSize = 0 := by
      have := s []
      simpa [FlameGraph.selfAt_nil, selfSpec] using this
    rw [FlameGraph.entries_sum, if_pos rfl, b.ok.totalSize_eq, this]
    omega

/-- The bytes at a stack are its self size. -/
theorem IsProfile.bytesAt_eq {hist lines ws total} (h : IsProfile hist lines ws total) (p : Path) : bytesAt lines p = selfSpec (records hist) p := by
  obtain ⟨i1, i2⟩ := bytesAt_sorted lines h.sorted p
  by_cases hz : selfSpec (records hist) p = 0
  · rw [hz]
    refine i2 fun n hn => ?_
    obtain ⟨-, h2, -, h4⟩ := (h.lines_iff p n).1 hn
    exact h2 (h4.trans hz)
  · refine i1 _ ((h.lines_iff p _).2 ⟨?_, hz, ?_, rfl⟩)
    · rintro rfl; exact hz rfl
    · exact Decidable.byContradiction fun x => hz (selfSpec_eq_zero x)

theorem size_renamed (f : Str → Str) {R : List Rec} {l : List Path} (hn : l.Nodup) (hl : ∀ r ∈ R, r.path ∈ l) (p : Path) :
    sizeAt (R.map (Rec.renamed f)) p = (l.map fun q => if Path.renamed f q = p then sizeAt R q else 0).sum := by
  rw [sizeAt, List.map_map]
  rw [← sum_fiber Rec.path ((fun r => if r.path = p then r.size else 0) ∘ Rec.renamed f) l hn R hl]
  apply sum_map_congr
  intro q _
  by_cases h : Path.renamed f q = p
  · rw [if_pos h, sizeAt]
    apply sum_map_congr
    intro r _
    by_cases e : r.path = q
    · simp [e, Rec.renamed, h]
    · simp [e]
  · rw [if_neg h]
    apply FlameGraph.sum_eq_zero_of
    intro r _
    by_cases e : r.path = q
    · simp [e, Rec.renamed, h]
    · simp [e]

theorem children_renamed (f : Str → Str) {R : List Rec} (hne : ∀ r ∈ R, r.path ≠ []) {l : List Path} (hn : l.Nodup) (hl : ∀ r ∈ R, r.path.dropLast ∈ l) (p : Path) :
    childrenAt (R.map (Rec.renamed f)) p = (l.map fun q => if Path.renamed f q = p then childrenAt R q else 0).sum := by
  rw [childrenAt, List.map_map]
  rw [← sum_fiber (fun r : Rec => r.path.dropLast) ((fun r => if isChild p r.path = true then r.size else 0) ∘ Rec.renamed f) l hn R hl]
  apply sum_map_congr
  intro q _
  have key : ∀ r ∈ R, r.path.dropLast = q → isChild p (Path.renamed f r.path) = decide (Path.renamed f q = p) := by
    intro r hr e
    simp [isChild, Path.renamed_eq_nil, hne r hr, ← Path.renamed_dropLast, e]
  by_cases h : Path.renamed f q = p
  · rw [if_pos h, childrenAt]
    apply sum_map_congr
    intro r hr
    by_cases e : r.path.dropLast = q
    · simp only [Function.comp, Rec.renamed, key r hr e, if_pos e, h]
      simp [isChild, hne r hr, e]
    · simp [e, isChild]
  · rw [if_neg h]
    apply FlameGraph.sum_eq_zero_of
    intro r hr
    by_cases e : r.path.dropLast = q
    · simp [Rec.renamed, key r hr e, h, e]
    · simp [e]

theorem unique_renamed (f : Str → Str) (R : List Rec) (p : Path) :
    uniqueAt (R.map (Rec.renamed f)) p = true ↔ ∃ q, Path.renamed f q = p ∧ uniqueAt R q = true := by
  simp only [uniqueAt, List.any_map, List.any_eq_true, Bool.and_eq_true, decide_eq_true_eq, Function.comp, Rec.renamed]
  constructor
  · rintro ⟨r, h1, h2, h3⟩; exact ⟨r.path, of_decide_eq_true h2, r, h1, rfl, h3⟩
  · rintro ⟨q, rfl, r, h1, rfl, h3⟩; exact ⟨r, h1, decide_eq_true rfl, h3⟩

theorem entered_renamed (f : Str → Str) (R : List Rec) (p : Path) : entered (R.map (Rec.renamed f)) p ↔ ∃ q, Path.renamed f q = p ∧ entered R q := by
  constructor
  · rintro ⟨r, hr, rfl⟩
    obtain ⟨r', h, rfl⟩ := List.mem_map.1 hr
    exact ⟨r'.path, rfl, r', h, rfl⟩
  · rintro ⟨q, rfl, r, hr, rfl⟩
    exact ⟨r.renamed f, List.mem_map_of_mem hr, rfl⟩

/-- A nodup list of all stacks of records and their parents. -/
theorem exists_stacks (R : List Rec) : ∃ l : List Path, l.Nodup ∧ (∀ r ∈ R, r.path ∈ l) ∧ ∀ r ∈ R, r.path.dropLast ∈ l := by
  obtain ⟨l, hn, h⟩ := exists_nodup (R.map Rec.path ++ R.map fun r => r.path.dropLast)
  exact ⟨l, hn, fun r hr => h _ (List.mem_append_left _ (List.mem_map.2 ⟨r, hr, rfl⟩)), fun r hr => h _ (List.mem_append_right _ (List.mem_map.2 ⟨r, hr, rfl⟩))⟩

theorem merged_eq {f : Str → Str} {hist lines ws total} (h : IsProfile hist lines ws total) {l : List Path} (hn : l.Nodup) (hl : ∀ r ∈ records hist, r.path ∈ l) (p : Path) :
    mergedAt f lines p = (l.map fun q => if Path.renamed f q = p then selfSpec (records hist) q else 0).sum := by
  unfold mergedAt
  rw [← sum_fiber Prod.fst (fun x : Path × Nat => if Path.renamed f x.1 = p then x.2 else 0) l hn lines fun x hx => by
    obtain ⟨-, -, ⟨r, hr, e⟩, -⟩ := (h.lines_iff x.1 x.2).1 hx
    exact e ▸ hl r hr]
  apply sum_map_congr
  intro q _
  rw [← h.bytesAt_eq, bytesAt]
  by_cases hq : Path.renamed f q = p
  · rw [if_pos hq]
    apply sum_map_congr
    intro x _
    by_cases e : x.1 = q
    · simp [e, hq]
    · simp [e]
  · rw [if_neg hq]
    apply FlameGraph.sum_eq_zero_of
    intro x _
    by_cases e : x.1 = q
    · simp [e, hq]
    · simp [e]

theorem sum_le_sum {α : Type} {f g : α → Nat} {l : List α} (h : ∀ a ∈ l, f a ≤ g a) : (l.map f).sum ≤ (l.map g).sum := by
  induction l with
  | nil => exact Nat.le_refl _
  | cons a l ih =>
    simp only [List.map_cons, List.sum_cons]
    have := h a (by simp)
    have := ih fun b hb => h b (by simp [hb])
    omega

/-- An over-full stack with other names comes from an over-full stack. -/
theorem overfull_renamed (f : Str → Str) {R : List Rec} (hc : Closed R) {p : Path} (h : overfull (R.map (Rec.renamed f)) p) : ∃ q, Path.renamed f q = p ∧ overfull R q := by
  obtain ⟨h1, h2, h3, h4⟩ := h
  obtain ⟨l, hn, hl, hl'⟩ := exists_stacks R
  rw [size_renamed f hn hl, children_renamed f hc.ne hn hl'] at h4
  refine Classical.byContradiction fun hno => ?_
  refine Nat.lt_irrefl _ (Nat.lt_of_lt_of_le h4 (sum_le_sum fun q _ => ?_))
  by_cases e : Path.renamed f q = p
  · rw [if_pos e, if_pos e]
    refine Nat.le_of_not_lt fun hlt => hno ⟨q, e, ?_⟩
    have hq0 : q ≠ [] := by rintro rfl; exact h1 e.symm
    refine ⟨hq0, entered_of_children hc hq0 (by omega), ?_, hlt⟩
    cases hu : uniqueAt R q with
    | false => rfl
    | true =>
      rw [(unique_renamed f R p).2 ⟨q, e, hu⟩] at h3
      cases h3
  · rw [if_neg e, if_neg e]; exact Nat.le_refl _

theorem IsProfile.not_warned {hist lines ws total} (h : IsProfile hist lines ws total) {q : Path} : (∀ w ∈ ws, w.stack ≠ q) ↔ ¬ overfull (records hist) q := by
  constructor
  · intro hw ho
    exact hw _ ((h.ws_iff q _ _).2 ⟨ho, rfl, rfl⟩) rfl
  · rintro ho ⟨p, m, n⟩ hw rfl
    exact ho ((h.ws_iff p m n).1 hw).1

theorem le_of_not_overfull {R : List Rec} (hc : Closed R) {q : Path} (hq : q ≠ []) (h : ¬ overfull R q) (hu : uniqueAt R q = false) : childrenAt R q ≤ sizeAt R q := by
  refine Nat.le_of_not_lt fun hlt => h ⟨hq, entered_of_children hc hq (by omega), hu, hlt⟩

/-- What is at one stack, before and after. -/
theorem merged_at {f : Str → Str} {hist lines ws total lines' ws' total'} (h : IsProfile hist lines ws total) (h' : IsProfile (renamedHist f hist) lines' ws' total') (p : Path) :
    ((∀ w ∈ ws, Path.renamed f w.stack ≠ p) → mergedAt f lines p ≤ bytesAt lines' p) ∧
    ((∀ q, Path.renamed f q = p → uniqueAt (records hist) q = false) → bytesAt lines' p ≤ mergedAt f lines p) ∧
    ((∀ w ∈ ws, Path.renamed f w.stack ≠ p) → SameKind f hist p → bytesAt lines' p = mergedAt f lines p) := by
  obtain ⟨l, hn, hl, hl'⟩ := exists_stacks (records hist)
  have hc := records_closed hist
  have hno : (∀ w ∈ ws, Path.renamed f w.stack ≠ p) → ∀ q, Path.renamed f q = p → ¬ overfull (records hist) q := by
    intro hw q hq ho
    exact hw _ ((h.ws_iff q _ _).2 ⟨ho, rfl, rfl⟩) hq
  rw [merged_eq h hn hl, h'.bytesAt_eq, records_renamed]
  by_cases hp : p = []
  · subst hp
    have hz : (l.map fun q => if Path.renamed f q = [] then selfSpec (records hist) q else 0).sum = 0 := by
      apply FlameGraph.sum_eq_zero_of
      intro q _
      by_cases e : Path.renamed f q = []
      · rw [if_pos e, Path.renamed_eq_nil.1 e]; rfl
      · rw [if_neg e]
    rw [hz]
    exact ⟨fun _ => Nat.zero_le _, fun _ => Nat.le_refl _, fun _ _ => rfl⟩
  · have hq0 : ∀ q, Path.renamed f q = p → q ≠ [] := by rintro q e rfl; exact hp e.symm
    simp only [selfSpec, remAt, hp, if_false]
    rw [size_renamed f hn hl, children_renamed f hc.ne hn hl']
    cases hu : uniqueAt ((records hist).map (Rec.renamed f)) p with
    | true =>
      obtain ⟨q1, e1, u1⟩ := (unique_renamed f _ p).1 hu
      have key : ∀ q ∈ l, (if Path.renamed f q = p then (if q = [] then 0 else ((sizeAt (records hist) q : Int) - (if uniqueAt (records hist) q = true then 0 else (childrenAt (records hist) q : Int))).toNat) else 0)
          ≤ if Path.renamed f q = p then sizeAt (records hist) q else 0 := by
        intro q _
        by_cases e : Path.renamed f q = p
        · simp only [if_pos e, hq0 q e, if_false]; split <;> omega
        · simp [if_neg e]
      refine ⟨fun _ => by simpa using sum_le_sum key, fun hall => ?_, fun _ hs => ?_⟩
      · rw [hall q1 e1] at u1; cases u1
      · simp only [if_pos trivial, Int.sub_zero, Int.toNat_natCast]
        apply sum_map_congr
        intro q _
        by_cases e : Path.renamed f q = p
        · simp only [if_pos e, hq0 q e, if_false]
          by_cases he : entered (records hist) q
          · rw [hs q q1 he (entered_of_unique u1) e e1, u1]; simp
          · have : sizeAt (records hist) q = 0 := Decidable.byContradiction fun h' => he (entered_of_size h')
            rw [this]; split <;> omega
        · simp [if_neg e]
    | false =>
      have hall : ∀ q, Path.renamed f q = p → uniqueAt (records hist) q = false := by
        intro q e
        cases h1 : uniqueAt (records hist) q with
        | false => rfl
        | true => rw [(unique_renamed f _ p).2 ⟨q, e, h1⟩] at hu; cases hu
      let T : Path → Nat := fun q => if Path.renamed f q = p then (if q = [] then 0 else ((sizeAt (records hist) q : Int) - (if uniqueAt (records hist) q = true then 0 else (childrenAt (records hist) q : Int))).toNat) else 0
      have up : (l.map fun q => if Path.renamed f q = p then sizeAt (records hist) q else 0).sum ≤ (l.map T).sum + (l.map fun q => if Path.renamed f q = p then childrenAt (records hist) q else 0).sum := by
        rw [← sum_map_add]
        apply sum_le_sum
        intro q _
        by_cases e : Path.renamed f q = p
        · simp only [T, if_pos e, hq0 q e, if_false, hall q e]
          simp; omega
        · simp [T, if_neg e]
      have down : (∀ q, Path.renamed f q = p → ¬ overfull (records hist) q) →
          (l.map fun q => if Path.renamed f q = p then sizeAt (records hist) q else 0).sum = (l.map T).sum + (l.map fun q => if Path.renamed f q = p then childrenAt (records hist) q else 0).sum := by
        intro hov
        rw [← sum_map_add]
        apply sum_map_congr
        intro q _
        by_cases e : Path.renamed f q = p
        · have := le_of_not_overfull hc (hq0 q e) (hov q e) (hall q e)
          simp only [T, if_pos e, hq0 q e, if_false, hall q e]
          simp; omega
        · simp [T, if_neg e]
      refine ⟨fun hw => ?_, fun _ => ?_, fun hw _ => ?_⟩
      · have := down (hno hw)
        simp only [T] at this
        simp; omega
      · simp only [T] at up
        simp; omega
      · have := down (hno hw)
        simp only [T] at this
        simp; omega

theorem merged_sum {f : Str → Str} {lines : List (Path × Nat)} {l : List Path} (hn : l.Nodup) (hl : ∀ x ∈ lines, Path.renamed f x.1 ∈ l) :
    (lines.map Prod.snd).sum = (l.map (mergedAt f lines)).sum :=
  (sum_fiber (fun x : Path × Nat => Path.renamed f x.1) Prod.snd l hn lines hl).symm

theorem bytes_sum {lines : List (Path × Nat)} {l : List Path} (hn : l.Nodup) (hl : ∀ x ∈ lines, x.1 ∈ l) :
    (lines.map Prod.snd).sum = (l.map (bytesAt lines)).sum :=
  (sum_fiber (fun x : Path × Nat => x.1) Prod.snd l hn lines hl).symm

/-- C77. The same calls are made with other names, perhaps the same name for different things.  Every warning comes from a warning that was there before.  The bytes of a stack are those of
all the stacks that become this stack together, if none of them has a warning and they are of one kind; never less if none of them has a warning; never more if none of them was
entered with `enter_unique`.  Without warnings, the total does not become smaller, and it is the same if stacks of different kinds are not merged. -/
theorem C77_merged (f : Str → Str) (hist : List (Prog × Fate)) (hl : NoLeaks hist) (hk : ProperKeys hist) (o1 o2 : HashOrder TreeId) (o1' o2' : HashOrder (List Str)) :
    ∃ (lines lines' : List (Path × Nat)) (ws ws' : List Warning) (total total' : Nat),
      observe o1 o1' hist = .ok ⟨lines.flatMap renderLine, total, ws.flatMap Warning.text⟩ ∧ IsProfile hist lines ws total ∧
      observe o2 o2' (renamedHist f hist) = .ok ⟨lines'.flatMap renderLine, total', ws'.flatMap Warning.text⟩ ∧ IsProfile (renamedHist f hist) lines' ws' total' ∧
      (∀ w' ∈ ws', ∃ w ∈ ws, w'.stack = Path.renamed f w.stack) ∧
      (∀ p, (∀ w ∈ ws, Path.renamed f w.stack ≠ p) → SameKind f hist p → bytesAt lines' p = mergedAt f lines p) ∧
      (∀ p, (∀ w ∈ ws, Path.renamed f w.stack ≠ p) → mergedAt f lines p ≤ bytesAt lines' p) ∧
      (∀ p, (∀ q, Path.renamed f q = p → uniqueAt (records hist) q = false) → bytesAt lines' p ≤ mergedAt f lines p) ∧
      (ws = [] → ws' = [] ∧ total ≤ total' ∧ ((∀ p, SameKind f hist p) → total = total')) := by
  obtain ⟨lines, ws, total, e, h⟩ := isProfile hl hk o1 o1'
  obtain ⟨lines', ws', total', e', h'⟩ := isProfile ((noLeaks_renamed f hist).2 hl) (properKeys_renamed f hist) o2 o2'
  have hw : ∀ w' ∈ ws', ∃ w ∈ ws, w'.stack = Path.renamed f w.stack := by
    rintro ⟨p, m, n⟩ hw'
    have ho := ((h'.ws_iff p m n).1 hw').1
    rw [records_renamed] at ho
    obtain ⟨q, hq, ho⟩ := overfull_renamed f (records_closed hist) ho
    exact ⟨_, (h.ws_iff q _ _).2 ⟨ho, rfl, rfl⟩, hq.symm⟩
  refine ⟨lines, lines', ws, ws', total, total', e, h, e', h', hw, fun p => (merged_at h h' p).2.2, fun p => (merged_at h h' p).1, fun p => (merged_at h h' p).2.1, ?_⟩
  rintro rfl
  obtain ⟨l, hn, hcov⟩ := exists_nodup (lines.map (fun x => Path.renamed f x.1) ++ lines'.map Prod.fst)
  have t1 : total = (l.map (mergedAt f lines)).sum := by
    rw [h.total_eq]
    exact merged_sum hn fun x hx => hcov _ (List.mem_append_left _ (List.mem_map.2 ⟨x, hx, rfl⟩))
  have t2 : total' = (l.map (bytesAt lines')).sum := by
    rw [h'.total_eq]
    exact bytes_sum hn fun x hx => hcov _ (List.mem_append_right _ (List.mem_map.2 ⟨x, hx, rfl⟩))
  refine ⟨?_, ?_, fun hs => ?_⟩
  · cases ws' with
    | nil => rfl
    | cons w' r => obtain ⟨w, hw, -⟩ := hw w' (by simp); cases hw
  · rw [t1, t2]
    exact sum_le_sum fun p _ => (merged_at h h' p).1 (by simp)
  · rw [t1, t2]
    exact sum_map_congr fun p _ => ((merged_at h h' p).2.2 (by simp) (hs p)).symm

/-- Stacks whose names are changed to different ones remain different. -/
theorem Path.renamed_inj {f : Str → Str} {N : Str → Prop} (hf : ∀ a b, N a → N b → f a = f b → a = b) :
    ∀ {p q : Path}, (∀ k ∈ p, k.Proper ∧ N k.s) → (∀ k ∈ q, k.Proper ∧ N k.s) → Path.renamed f p = Path.renamed f q → p = q
  | [], [], _, _, _ => rfl
  | [], _ :: _, _, _, h => by cases h
  | _ :: _, [], _, _, h => by cases h
  | a :: p, b :: q, hp, hq, h => by
    simp only [Path.renamed, List.map_cons, List.cons.injEq] at h
    have ha := hp a (by simp)
    have hb := hq b (by simp)
    have e : a.s = b.s := hf _ _ ha.2 hb.2 (congrArg Key.s h.1)
    have : a = b := by rw [ha.1, hb.1, e]
    rw [this, Path.renamed_inj hf (fun k hk => hp k (by simp [hk])) (fun k hk => hq k (by simp [hk])) h.2]

/-- Other names, and different ones remain different. -/
structure Faithful (f : Str → Str) (R : List Rec) : Prop where
  inj : ∀ p q, (entered R p ∨ ∃ r ∈ R, p = r.path.dropLast) → (entered R q ∨ ∃ r ∈ R, q = r.path.dropLast) → Path.renamed f p = Path.renamed f q → p = q

theorem size_faithful {f : Str → Str} {R : List Rec} (h : Faithful f R) {q : Path} (hq : entered R q) : sizeAt (R.map (Rec.renamed f)) (Path.renamed f q) = sizeAt R q := by
  rw [sizeAt, List.map_map, sizeAt]
  apply sum_map_congr
  intro r hr
  by_cases e : r.path = q
  · simp [Rec.renamed, e]
  · have : Path.renamed f r.path ≠ Path.renamed f q := fun x => e (h.inj _ _ (.inl ⟨r, hr, rfl⟩) (.inl hq) x)
    simp [Rec.renamed, e, this]

theorem children_faithful {f : Str → Str} {R : List Rec} (h : Faithful f R) (hne : ∀ r ∈ R, r.path ≠ []) {q : Path} (hq : entered R q) :
    childrenAt (R.map (Rec.renamed f)) (Path.renamed f q) = childrenAt R q := by
  rw [childrenAt, List.map_map, childrenAt]
  apply sum_map_congr
  intro r hr
  have key : isChild (Path.renamed f q) (Path.renamed f r.path) = isChild q r.path := by
    by_cases e : r.path.dropLast = q
    · simp [isChild, Path.renamed_eq_nil, hne r hr, ← Path.renamed_dropLast, e]
    · have : Path.renamed f r.path.dropLast ≠ Path.renamed f q := fun x => e (h.inj _ _ (.inr ⟨r, hr, rfl⟩) (.inl hq) x)
      simp [isChild, Path.renamed_eq_nil, hne r hr, ← Path.renamed_dropLast, e, this]
  simp only [Function.comp, Rec.renamed, key]

theorem unique_faithful {f : Str → Str} {R : List Rec} (h : Faithful f R) {q : Path} (hq : entered R q) : uniqueAt (R.map (Rec.renamed f)) (Path.renamed f q) = uniqueAt R q := by
  rw [Bool.eq_iff_iff, unique_renamed]
  constructor
  · rintro ⟨p, e, hu⟩
    exact (h.inj _ _ (.inl (entered_of_unique hu)) (.inl hq) e) ▸ hu
  · exact fun hu => ⟨q, rfl, hu⟩

theorem nodup_of_sorted {α : Type} (g : α → List Str) {l : List α} (h : l.Pairwise fun a b => pathLt (g a) (g b)) : l.Nodup :=
  List.Pairwise.imp (fun {a b} hab (e : a = b) => by subst e; exact pathLt_irrefl _ hab) h

/-- C77, if different names remain different: the profile is the same, only with the other names (and in the order of the other names). -/
theorem C77_renamed (f : Str → Str) (N : Str → Prop) (hf : ∀ a b, N a → N b → f a = f b → a = b) (hist : List (Prog × Fate)) (hl : NoLeaks hist)
    (hk : ProperKeys hist) (hN : ∀ x ∈ hist, x.1.KeysAre fun k => N k.s) (o1 o2 : HashOrder TreeId) (o1' o2' : HashOrder (List Str)) :
    ∃ (lines lines' : List (Path × Nat)) (ws ws' : List Warning) (total : Nat),
      observe o1 o1' hist = .ok ⟨lines.flatMap renderLine, total, ws.flatMap Warning.text⟩ ∧ IsProfile hist lines ws total ∧
      observe o2 o2' (renamedHist f hist) = .ok ⟨lines'.flatMap renderLine, total, ws'.flatMap Warning.text⟩ ∧ IsProfile (renamedHist f hist) lines' ws' total ∧
      lines'.Perm (lines.map fun x => (Path.renamed f x.1, x.2)) ∧ ws'.Perm (ws.map fun w => ⟨Path.renamed f w.stack, w.size, w.inside⟩) := by
  obtain ⟨lines, ws, total, e, h⟩ := isProfile hl hk o1 o1'
  obtain ⟨lines', ws', total', e', h'⟩ := isProfile ((noLeaks_renamed f hist).2 hl) (properKeys_renamed f hist) o2 o2'
  have hc := records_closed hist
  have hrk : ∀ r ∈ records hist, ∀ k ∈ r.path, k.Proper ∧ N k.s := fun r hr k hkr => ⟨records_keys hk r hr k hkr, records_keys hN r hr k hkr⟩
  have hfa : Faithful f (records hist) := by
    have hkk : ∀ p, (entered (records hist) p ∨ ∃ r ∈ records hist, p = r.path.dropLast) → ∀ k ∈ p, k.Proper ∧ N k.s := by
      rintro p (⟨r, hr, rfl⟩ | ⟨r, hr, rfl⟩) k hk
      · exact hrk r hr k hk
      · exact hrk r hr k (List.dropLast_subset _ hk)
    exact ⟨fun p q hp hq => Path.renamed_inj hf (hkk p hp) (hkk q hq)⟩
  have hself : ∀ q, entered (records hist) q → selfSpec (records (renamedHist f hist)) (Path.renamed f q) = selfSpec (records hist) q := by
    intro q hq
    simp only [selfSpec, remAt, Path.renamed_eq_nil, records_renamed, size_faithful hfa hq, children_faithful hfa hc.ne hq, unique_faithful hfa hq]
  have pl : lines'.Perm (lines.map fun x => (Path.renamed f x.1, x.2)) := by
    refine (List.perm_ext_iff_of_nodup (nodup_of_sorted (fun x : Path × Nat => x.1.names) h'.sorted) ?_).2 ?_
    · refine List.Pairwise.map _ (R := fun a b => a ≠ b ∧ a ∈ lines ∧ b ∈ lines) ?_ ?_
      · rintro a b ⟨h1, h2, h3⟩ heq
        simp only [Prod.mk.injEq] at heq
        exact h1 (Prod.ext (hfa.inj _ _ (.inl ((h.lines_iff a.1 a.2).1 h2).2.2.1) (.inl ((h.lines_iff b.1 b.2).1 h3).2.2.1) heq.1) heq.2)
      · refine List.Pairwise.imp_of_mem (fun ha hb hab => ⟨hab, ha, hb⟩) (nodup_of_sorted (fun x : Path × Nat => x.1.names) h.sorted)
    · rintro ⟨p, n⟩
      rw [h'.lines_iff, List.mem_map]
      constructor
      · rintro ⟨h1, h2, h3, h4⟩
        rw [records_renamed, entered_renamed] at h3
        obtain ⟨q, rfl, hq⟩ := h3
        rw [hself q hq] at h4
        exact ⟨(q, n), (h.lines_iff q n).2 ⟨fun x => h1 (Path.renamed_eq_nil.2 x), h2, hq, h4⟩, rfl⟩
      · rintro ⟨⟨q, m⟩, hm, he⟩
        cases he
        obtain ⟨h1, h2, h3, h4⟩ := (h.lines_iff q m).1 hm
        refine ⟨fun x => h1 (Path.renamed_eq_nil.1 x), h2, ?_, ?_⟩
        · rw [records_renamed, entered_renamed]; exact ⟨q, rfl, h3⟩
        · rw [hself q h3]; exact h4
  have hover : ∀ q, entered (records hist) q → (overfull (records (renamedHist f hist)) (Path.renamed f q) ↔ overfull (records hist) q) := by
    intro q hq
    have : entered ((records hist).map (Rec.renamed f)) (Path.renamed f q) := (entered_renamed f _ _).2 ⟨q, rfl, hq⟩
    simp only [overfull, records_renamed, ne_eq, Path.renamed_eq_nil, size_faithful hfa hq, children_faithful hfa hc.ne hq, unique_faithful hfa hq, this, hq]
  have pw : ws'.Perm (ws.map fun w => ⟨Path.renamed f w.stack, w.size, w.inside⟩) := by
    refine (List.perm_ext_iff_of_nodup (nodup_of_sorted (fun x : Warning => x.stack.names) h'.ws_sorted) ?_).2 ?_
    · refine List.Pairwise.map _ (R := fun a b => a ≠ b ∧ a ∈ ws ∧ b ∈ ws) ?_ ?_
      · rintro ⟨p, m, n⟩ ⟨p', m', n'⟩ ⟨h1, h2, h3⟩ heq
        simp only [Warning.mk.injEq] at heq
        obtain ⟨h4, rfl, rfl⟩ := heq
        exact h1 (by rw [hfa.inj _ _ (.inl ((h.ws_iff _ _ _).1 h2).1.2.1) (.inl ((h.ws_iff _ _ _).1 h3).1.2.1) h4])
      · refine List.Pairwise.imp_of_mem (fun ha hb hab => ⟨hab, ha, hb⟩) (nodup_of_sorted (fun x : Warning => x.stack.names) h.ws_sorted)
    · rintro ⟨p, m, n⟩
      rw [h'.ws_iff, List.mem_map]
      constructor
      · rintro ⟨h1, h2, h3⟩
        have h0 := h1.2.1
        rw [records_renamed, entered_renamed] at h0
        obtain ⟨q, rfl, hq⟩ := h0
        rw [records_renamed, size_faithful hfa hq] at h2
        rw [records_renamed, children_faithful hfa hc.ne hq] at h3
        exact ⟨⟨q, m, n⟩, (h.ws_iff q m n).2 ⟨(hover q hq).1 h1, h2, h3⟩, rfl⟩
      · rintro ⟨⟨q, m', n'⟩, hm, he⟩
        cases he
        obtain ⟨h1, h2, h3⟩ := (h.ws_iff q _ _).1 hm
        have hq := h1.2.1
        refine ⟨(hover q hq).2 h1, ?_, ?_⟩
        · rw [records_renamed, size_faithful hfa hq]; exact h2
        · rw [records_renamed, children_faithful hfa hc.ne hq]; exact h3
  have ht : total' = total := by
    rw [h'.total_eq, h.total_eq, (pl.map Prod.snd).sum_nat, List.map_map]
    rfl
  subst ht
  exact ⟨lines, lines', ws, ws', total', e, h, e', h', pl, pw⟩

/-- The panic of a history with a leaked visitor: at the next root, or at `finish`. -/
theorem leak_panic {hist : List (Prog × Fate)} (h : ¬ NoLeaks hist) : ∃ pre x post, hist = pre ++ x :: post ∧ NoLeaks pre ∧ ¬ NoLeaks (pre ++ [x]) ∧
    ∀ ord, run ord hist = .error (if post = [] then .assertFinish else .assertRootNotEntered) := by
  have split : ∀ (post pre : List (Prog × Fate)), NoLeaks pre → ¬ NoLeaks (pre ++ post) →
      ∃ pre' x post', pre ++ post = pre' ++ x :: post' ∧ NoLeaks pre' ∧ ¬ NoLeaks (pre' ++ [x]) := by
    intro post
    induction post with
    | nil => intro pre h1 h2; rw [List.append_nil] at h2; exact absurd h1 h2
    | cons x post ih =>
      intro pre h1 h2
      by_cases hx : NoLeaks (pre ++ [x])
      · obtain ⟨a, b, c, e, h⟩ := ih (pre ++ [x]) hx (by simpa using h2)
        exact ⟨a, b, c, by simpa using e, h⟩
      · exact ⟨pre, x, post, rfl, h1, hx⟩
  obtain ⟨pre, x, post, e, hpre, hx⟩ := split hist [] (by decide) (by simpa using h)
  rw [List.nil_append] at e
  subst e
  refine ⟨pre, x, post, rfl, hpre, hx, fun ord => ?_⟩
  obtain ⟨b, e, hr, hf, -⟩ := C13_leak_blocks_builder pre x hpre hx
  cases post with
  | nil => simp only [run, e, hf, if_pos]
  | cons y post =>
    obtain ⟨prog, fate⟩ := y
    have : Builder.default.useRoots (pre ++ x :: (prog, fate) :: post) = .error .assertRootNotEntered := by
      rw [show pre ++ x :: (prog, fate) :: post = (pre ++ [x]) ++ (prog, fate) :: post by simp, useRoots_append, e]
      simp only [Builder.useRoots, Builder.useRoot, hr]
    simp [run, this]

/-- C77. A history with other names, merged or not, panics exactly if the history does, with the same panic. -/
theorem C77_panics (f : Str → Str) (hist : List (Prog × Fate)) (o1 o2 : HashOrder TreeId) (o1' o2' : HashOrder (List Str)) (e : Panic) :
    observe o2 o2' (renamedHist f hist) = .error e ↔ observe o1 o1' hist = .error e := by
  by_cases hl : NoLeaks hist
  · have nok : ∀ {h : List (Prog × Fate)} {o : HashOrder TreeId} {o' : HashOrder (List Str)}, NoLeaks h → observe o o' h ≠ .error e := by
      intro h o o' hl he
      obtain ⟨out, ws, e', -⟩ := run_spec hl (Q := fun _ => True) (fun x _ => Prog.KeysAre.trivial x.1) o
      simp [observe, e'] at he
    exact ⟨fun h => absurd h (nok ((noLeaks_renamed f hist).2 hl)), fun h => absurd h (nok hl)⟩
  · obtain ⟨pre, x, post, rfl, h1, h2, h3⟩ := leak_panic hl
    obtain ⟨pre', x', post', e', h1', h2', h3'⟩ := leak_panic (hist := renamedHist f (pre ++ x :: post)) (fun h => hl ((noLeaks_renamed f _).1 h))
    have hsame : post' = [] ↔ post = [] := by
      have e2 : renamedHist f (pre ++ x :: post) = renamedHist f pre ++ renamedHist f [x] ++ renamedHist f post := by simp [renamedHist]
      have n1 : NoLeaks (renamedHist f pre) := (noLeaks_renamed f pre).2 h1
      have n2 : ¬ NoLeaks (renamedHist f pre ++ renamedHist f [x]) := by
        have := fun h => h2 ((noLeaks_renamed f (pre ++ [x])).1 h)
        simpa [renamedHist] using this
      have mono : ∀ {a b : List (Prog × Fate)}, a <+: b → NoLeaks b → NoLeaks a := by
        rintro a b ⟨c, rfl⟩ hb
        unfold NoLeaks at hb ⊢
        rw [(traceRoots_append _ _ _).2.2] at hb
        omega
      -- the first leaking root is at the same position
      have l1 : pre'.length = (renamedHist f pre).length := by
        have p1 : pre' <+: renamedHist f (pre ++ x :: post) := ⟨_, e'.symm⟩
        have p2 : renamedHist f pre <+: renamedHist f (pre ++ x :: post) := by rw [e2, List.append_assoc]; exact ⟨_, rfl⟩
        have p3 : pre' ++ [x'] <+: renamedHist f (pre ++ x :: post) := ⟨post', by rw [e']; simp⟩
        have p4 : renamedHist f pre ++ renamedHist f [x] <+: renamedHist f (pre ++ x :: post) := ⟨_, e2.symm⟩
        have c1 : ¬ pre'.length < (renamedHist f pre).length := fun hlt =>
          h2' (mono (List.prefix_of_prefix_length_le p3 p2 (by simpa using Nat.succ_le_of_lt hlt)) n1)
        have c2 : ¬ (renamedHist f pre).length < pre'.length := fun hlt =>
          n2 (mono (List.prefix_of_prefix_length_le p4 p1 (by simpa [renamedHist] using Nat.succ_le_of_lt hlt)) h1')
        omega
      have l2 : (renamedHist f (pre ++ x :: post)).length = (pre' ++ x' :: post').length := by rw [e']
      simp only [renamedHist, List.length_map, List.length_append, List.length_cons] at l1 l2
      rw [← List.length_eq_zero_iff, ← List.length_eq_zero_iff]
      omega
    simp only [observe, h3, h3', hsame]

namespace SameNamesExamples

/-- `b` becomes `a`. -/
def f (s : Str) : Str := if s = ascii "b" then ascii "a" else s

/-- A struct with two fields of 8 and 16 bytes, and something else. -/
def fields : List (Prog × Fate) :=
  [(.enter (Ex.k "S") 24 .exit (.enter (Ex.k "a") 8 .exit .done (.enter (Ex.k "b") 16 .exit .done .done)) (.enter (Ex.k "T") 7 .exit .done .done), .exit)]

/-- A box with 16 bytes, and a struct with a field. -/
def boxed : List (Prog × Fate) :=
  [(.enterUnique (Ex.k "a") 8 .exit (.enter (Ex.k "b") 16 .exit .done .done) (.enter (Ex.k "b") 12 .exit (.enter (Ex.k "c") 4 .exit .done .done) .done), .exit)]

/-- A struct that declares too little, and one that declares more than its fields. -/
def warned : List (Prog × Fate) :=
  [(.enter (Ex.k "a") 8 .exit (.enter (Ex.k "c") 10 .exit .done .done) (.enter (Ex.k "b") 12 .exit (.enter (Ex.k "c") 4 .exit .done .done) .done), .exit)]

/-- What is seen. -/
def seen (hist : List (Prog × Fate)) : Option (Str × Nat × Str) := (observe (HashOrder.id _) (HashOrder.rev _) hist).toOption.map fun o => (o.text, o.total, o.warnings)

theorem proper : ∀ h ∈ [fields, boxed, warned], NoLeaks h ∧ ProperKeys h := by
  refine List.forall_mem_cons.2 ⟨⟨by decide, ?_⟩, List.forall_mem_cons.2 ⟨⟨by decide, ?_⟩, List.forall_mem_cons.2 ⟨⟨by decide, ?_⟩, by simp⟩⟩⟩ <;>
  · intro x hx
    simp only [fields, boxed, warned, List.mem_singleton] at hx
    subst hx
    simp [Prog.KeysAre, Key.Proper, Key.new, Key.newUnchecked, Ex.k]

-- two lines become one
example : seen fields = some (ascii "S;a 8\nS;b 16\nT 7\n", 31, []) ∧ seen (renamedHist f fields) = some (ascii "S;a 24\nT 7\n", 31, []) := by
  decide +kernel

-- stacks of different kinds: what the struct contains is no longer taken off, and the total is larger
example : seen boxed = some (ascii "a 8\na;b 16\nb 8\nb;c 4\n", 36, []) ∧ seen (renamedHist f boxed) = some (ascii "a 20\na;a 16\na;c 4\n", 40, []) := by
  decide +kernel

-- a warning can disappear, and then the total is smaller
example : seen warned = some (ascii "a;c 10\nb 8\nb;c 4\n", 22, ascii "Incorrect size declaration for node `a`, size of self: 8, size of inline children: 10\n") ∧
    seen (renamedHist f warned) = some (ascii "a 6\na;c 14\n", 20, []) := by
  decide +kernel

example (o1 o2 : HashOrder TreeId) (o1' o2' : HashOrder (List Str)) := C77_merged f fields (proper _ (by simp)).1 (proper _ (by simp)).2 o1 o2 o1' o2'

-- stacks of one kind
theorem fields_sameKind : ∀ p, SameKind f fields p := by
  have h : ∀ r ∈ records fields, r.unique = false := by decide
  have : ∀ q, uniqueAt (records fields) q = false := by
    intro q
    simp only [uniqueAt, List.any_eq_false, Bool.and_eq_true, not_and, Bool.not_eq_true]
    exact fun r hr _ => h r hr
  intro p q q' _ _ _ _
  rw [this, this]

-- a leaked visitor
example (o1 o2 : HashOrder TreeId) (o1' o2' : HashOrder (List Str)) : observe o1 o1' (renamedHist f [(.done, .leak)]) = .error .assertFinish :=
  (C77_panics f _ o2 o1 o2' o1' _).2 rfl

-- all names get a prefix: nothing is merged
example (o1 o2 : HashOrder TreeId) (o1' o2' : HashOrder (List Str)) :=
  C77_renamed (fun s => ascii "my::" ++ s) (fun _ => True) (fun _ _ _ _ h => List.append_cancel_left h) warned (proper _ (by simp)).1 (proper _ (by simp)).2
    (by intro x hx; simp only [warned, List.mem_singleton] at hx; subst hx; simp [Prog.KeysAre]) o1 o2 o1' o2'

end SameNamesExamples

end Allocative
