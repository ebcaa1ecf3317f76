import Verif.Spec.Frames
import Verif.Props.Names
import Verif.Props.CarryOver
import Verif.Props.Rebuild
import Verif.Props.Showcase
set_option linter.unusedSimpArgs false
/-
C73: the width of frames.
-/
namespace Allocative

theorem prefix_dropLast {p q : Path} (hp : p ≠ []) (hq : q ≠ []) : p <+: q ↔ q = p ∨ p <+: q.dropLast := by
  constructor
  · intro h
    obtain ⟨s, rfl⟩ := h
    cases hs : s with
    | nil => left; simp
    | cons a s' =>
      right
      rw [List.dropLast_append_of_ne_nil (by simp)]
      exact ⟨_, rfl⟩
  · rintro (rfl | h)
    · exact List.prefix_refl _
    · exact h.trans (List.dropLast_prefix q)

/-- The sum of the self sizes at a stack and below. -/
theorem frame_sum {recs : List Rec} (hne : ∀ r ∈ recs, r.path ≠ []) {l : List Path} (hn : l.Nodup) (hl : ∀ r ∈ recs, r.path ∈ l ∧ r.path.dropLast ∈ l) {p : Path} (hp : p ≠ []) :
    (l.map fun q => if p <+: q then selfSpec recs q else 0).sum =
      sizeAt recs p + behindUnique recs p + (l.map fun q => if p <+: q then excessAt recs q else 0).sum := by
  let inl : Path → Nat := fun q => if uniqueAt recs q = true then 0 else childrenAt recs q
  have hnil : ∀ q : Path, p <+: q → q ≠ [] := by
    rintro q h rfl; exact hp (List.prefix_nil.1 h)
  have hpt : ∀ q ∈ l, (if p <+: q then selfSpec recs q else 0) + (if p <+: q then inl q else 0) = (if p <+: q then sizeAt recs q else 0) + (if p <+: q then excessAt recs q else 0) := by
    intro q _
    by_cases h : p <+: q
    · simp only [if_pos h, selfSpec, remAt, inl, excessAt, hnil q h, if_false, false_or]
      by_cases hu : uniqueAt recs q = true
      · simp [hu]
      · simp [hu]; omega
    · simp [h]
  have h1 : (l.map fun q => if p <+: q then selfSpec recs q else 0).sum + (l.map fun q => if p <+: q then inl q else 0).sum =
      (l.map fun q => if p <+: q then sizeAt recs q else 0).sum + (l.map fun q => if p <+: q then excessAt recs q else 0).sum := by
    rw [← sum_map_add, ← sum_map_add]; exact sum_map_congr hpt
  have h2 : (l.map fun q => if p <+: q then sizeAt recs q else 0).sum = (recs.map fun r => if p <+: r.path then r.size else 0).sum := by
    rw [← sum_fiber Rec.path (fun r => if p <+: r.path then r.size else 0) l hn recs fun r hr => (hl r hr).1]
    apply sum_map_congr
    intro q _
    by_cases h : p <+: q
    · rw [if_pos h, sizeAt]
      apply sum_map_congr
      intro r _
      by_cases e : r.path = q
      · rw [if_pos e, if_pos e, e, if_pos h]
      · rw [if_neg e, if_neg e]
    · rw [if_neg h]
      symm
      apply FlameGraph.sum_eq_zero_of
      intro r _
      by_cases e : r.path = q
      · rw [if_pos e, e, if_neg h]
      · rw [if_neg e]
  have h3 : (l.map fun q => if p <+: q then inl q else 0).sum =
      (recs.map fun r => if p <+: r.path.dropLast ∧ ¬ uniqueAt recs r.path.dropLast = true then r.size else 0).sum := by
    rw [← sum_fiber (fun r : Rec => r.path.dropLast) (fun r => if p <+: r.path.dropLast ∧ ¬ uniqueAt recs r.path.dropLast = true then r.size else 0) l hn recs
      fun r hr => (hl r hr).2]
    apply sum_map_congr
    intro q _
    by_cases h : p <+: q ∧ ¬ uniqueAt recs q = true
    · rw [if_pos h.1]
      simp only [inl, if_neg h.2, childrenAt]
      apply sum_map_congr
      intro r hr
      by_cases e : r.path.dropLast = q
      · rw [if_pos e, e, if_pos h]; simp [isChild, hne r hr, e]
      · rw [if_neg e]; simp [isChild, e]
    · have : (if p <+: q then inl q else 0) = 0 := by
        by_cases h' : p <+: q
        · rw [if_pos h']; simp only [inl]; rw [if_pos]; exact Decidable.byContradiction fun x => h ⟨h', x⟩
        · rw [if_neg h']
      rw [this]
      symm
      apply FlameGraph.sum_eq_zero_of
      intro r _
      by_cases e : r.path.dropLast = q
      · rw [if_pos e, e, if_neg h]
      · rw [if_neg e]
  have h4 : (recs.map fun r => if p <+: r.path then r.size else 0).sum = sizeAt recs p + (behindUnique recs p +
      (recs.map fun r => if p <+: r.path.dropLast ∧ ¬ uniqueAt recs r.path.dropLast = true then r.size else 0).sum) := by
    unfold sizeAt behindUnique
    rw [← sum_map_add, ← sum_map_add]
    apply sum_map_congr
    intro r hr
    have := prefix_dropLast hp (hne r hr)
    by_cases e : r.path = p
    · have : ¬ p <+: r.path.dropLast := by
        intro h
        have := h.length_le
        rw [e, List.length_dropLast] at this
        have := List.length_pos_iff.2 hp
        omega
      rw [if_pos (e ▸ List.prefix_refl _), if_pos e]
      simp [this]
    · by_cases h : p <+: r.path.dropLast
      · rw [if_pos (this.2 (.inr h)), if_neg e]
        by_cases hu : uniqueAt recs r.path.dropLast = true <;> simp [h, hu]
      · rw [if_neg fun x => (this.1 x).elim e h, if_neg e]
        simp [h]
  omega

/-- Lines and warnings of the records determine the frames. -/
theorem frame_eq {recs : List Rec} (hc : Closed recs) {lines : List (Path × Nat)} {ws : List Path}
    (hs : lines.Pairwise (fun a b => pathLt a.1.names b.1.names)) (hm : ∀ q n, (q, n) ∈ lines ↔ entered recs q ∧ n = selfSpec recs q ∧ n ≠ 0)
    (hwn : ws.Nodup) (hw : ∀ q, q ∈ ws ↔ overfull recs q) {p : Path} (hp : p ≠ []) :
    frame lines p = sizeAt recs p + behindUnique recs p + (ws.map fun q => if p <+: q then childrenAt recs q - sizeAt recs q else 0).sum := by
  obtain ⟨l, hn, hcov⟩ := exists_nodup (recs.map Rec.path ++ recs.map fun r => r.path.dropLast)
  have hl : ∀ r ∈ recs, r.path ∈ l ∧ r.path.dropLast ∈ l := fun r hr =>
    ⟨hcov _ (List.mem_append_left _ (List.mem_map.2 ⟨r, hr, rfl⟩)), hcov _ (List.mem_append_right _ (List.mem_map.2 ⟨r, hr, rfl⟩))⟩
  have hent : ∀ {q}, entered recs q → q ∈ l := by rintro q ⟨r, hr, rfl⟩; exact (hl r hr).1
  have e1 : frame lines p = (l.map fun q => if p <+: q then selfSpec recs q else 0).sum := by
    unfold frame
    rw [← sum_fiber Prod.fst (fun x : Path × Nat => if p <+: x.1 then x.2 else 0) l hn lines fun x hx => hent ((hm x.1 x.2).1 hx).1]
    apply sum_map_congr
    intro q _
    by_cases h : p <+: q
    · rw [if_pos h]
      have hb : (lines.map fun x => if x.1 = q then (if p <+: x.1 then x.2 else 0) else 0).sum = bytesAt lines q := by
        apply sum_map_congr
        intro x _
        by_cases e : x.1 = q
        · rw [if_pos e, if_pos e, e, if_pos h]
        · rw [if_neg e, if_neg e]
      rw [hb]
      obtain ⟨i1, i2⟩ := bytesAt_sorted lines hs q
      by_cases hz : selfSpec recs q = 0
      · rw [hz]; exact i2 fun n hn => by
          obtain ⟨-, h2, h3⟩ := (hm q n).1 hn
          exact h3 (h2.trans hz)
      · refine i1 _ ((hm q _).2 ⟨?_, rfl, hz⟩)
        exact Decidable.byContradiction fun x => hz (selfSpec_eq_zero x)
    · rw [if_neg h]
      apply FlameGraph.sum_eq_zero_of
      intro x _
      by_cases e : x.1 = q
      · rw [if_pos e, e, if_neg h]
      · rw [if_neg e]
  rw [e1, frame_sum hc.ne hn hl hp]
  congr 1
  have hex : ∀ q, q ∉ ws → p <+: q → excessAt recs q = 0 := by
    intro q hq hpq
    have hq0 : q ≠ [] := by rintro rfl; exact hp (List.prefix_nil.1 hpq)
    unfold excessAt
    split
    · rfl
    · rename_i h
      have hu : uniqueAt recs q = false := by
        cases hu : uniqueAt recs q with
        | true => exact absurd (.inr hu) h
        | false => rfl
      by_cases hz : childrenAt recs q ≤ sizeAt recs q
      · omega
      · by_cases he : entered recs q
        · exact absurd ((hw q).2 ⟨hq0, he, hu, by omega⟩) hq
        · exact absurd (entered_of_children hc hq0 (by omega)) he
  rw [← FlameGraph.sum_eq_of_subset (fun q => if p <+: q then excessAt recs q else 0) hwn hn (fun q hq => hent ((hw q).1 hq).2.1) fun q hq => by
    by_cases h : p <+: q
    · rw [if_pos h, hex q hq h]
    · rw [if_neg h]]
  apply sum_map_congr
  intro q hq
  obtain ⟨h1, h2, h3, h4⟩ := (hw q).1 hq
  simp [excessAt, h1, h3]

/-- C73. The width of a frame: the sum of the lines at a stack and below it is what was declared at the stack, plus what was declared directly inside of unique stacks at or below it,
plus what the over-full stacks (those with a warning) at or below it have too much. -/
theorem C73_frame (hist : List (Prog × Fate)) (hl : NoLeaks hist) (hk : ProperKeys hist) (ord : HashOrder TreeId) (ord' : HashOrder (List Str)) :
    ∃ (lines : List (Path × Nat)) (ws : List Path) (total : Nat),
      observe ord ord' hist = .ok ⟨lines.flatMap renderLine, total, ws.flatMap (renderWarning (records hist))⟩ ∧ lines.Pairwise (fun a b => pathLt a.1.names b.1.names) ∧
      (∀ q, q ∈ ws ↔ overfull (records hist) q) ∧
      ∀ p, p ≠ [] → frame lines p = sizeAt (records hist) p + behindUnique (records hist) p +
        (ws.map fun q => if p <+: q then childrenAt (records hist) q - sizeAt (records hist) q else 0).sum := by
  obtain ⟨out, ws, e, b, s, w, wn, wm, -⟩ := run_spec hl hk ord
  obtain ⟨lines, l1, l2, l3⟩ := C02_text_exact_sorted _ b ord'
  refine ⟨lines, ws, out.flamegraph.totalSize, by simp only [observe, e, l1, w], l2, wm, fun p hp => ?_⟩
  refine frame_eq (records_closed hist) l2 (fun q n => ?_) wn wm hp
  rw [l3, s]
  constructor
  · rintro ⟨h1, h2, h3⟩
    split at h3
    · rename_i h
      exact ⟨h.resolve_left h1, (Option.some.inj h3).symm, h2⟩
    · cases h3
  · rintro ⟨⟨r, hr, rfl⟩, rfl, h3⟩
    exact ⟨(records_closed hist).ne r hr, h3, by rw [if_pos (.inr ⟨r, hr, rfl⟩)]⟩

/-- The visit of a value enters one name at most. -/
theorem visit_shape [Target] (d : Datum) : d.value.visit = .nil ∨ ∃ k n e i, d.value.visit = .inline k n e i .nil := by
  cases d <;> first | exact .inl rfl | exact .inr ⟨_, _, _, _, rfl⟩

theorem report_top [Target] (d : Datum) (h : d.WF) (cur : Path) : ∀ r ∈ d.report cur, ∃ k s, d.topFrame = some k ∧ r.path = cur ++ k :: s := by
  intro r hr
  have e : ∀ cur, d.report cur = d.value.visit.own cur := fun cur => ((C52_records d h cur).1).symm
  rcases visit_shape d with hv | ⟨k, n, f, i, hv⟩
  · rw [e, hv] at hr; cases hr
  · have ht : d.topFrame = some k := by simp [Datum.topFrame, e, hv, Obj.own]
    rw [e, hv] at hr
    simp only [Obj.own, List.append_nil, List.mem_cons] at hr
    rcases hr with rfl | hr
    · exact ⟨k, [], ht, rfl⟩
    · obtain ⟨k', s, h'⟩ := own_path i _ r hr
      exact ⟨k, k' :: s, ht, by simpa using h'⟩

theorem Cell.report_top [Target] (c : Cell) (h : c.datum.WF) : ∀ r ∈ c.report, ∃ k s, c.topFrame = some k ∧ r.path = k :: s := by
  have below : ∀ (d : Datum) (hd : d.WF) (k : Key) (cur : Path), ∀ r ∈ d.report (k :: cur), ∃ s, r.path = k :: s := by
    intro d hd k cur r hr
    obtain ⟨k', s, -, h⟩ := Allocative.report_top d hd _ r hr
    exact ⟨cur ++ k' :: s, by simpa using h⟩
  intro r hr
  cases c with
  | arc n v =>
    rcases List.mem_cons.1 hr with rfl | hr
    · exact ⟨_, [], rfl, rfl⟩
    · obtain ⟨s, h'⟩ := below v h _ _ r hr; exact ⟨_, s, rfl, h'⟩
  | rc n v =>
    rcases List.mem_cons.1 hr with rfl | hr
    · exact ⟨_, [], rfl, rfl⟩
    · obtain ⟨s, h'⟩ := below v h _ _ r hr; exact ⟨_, s, rfl, h'⟩
  | triomphe n v =>
    rcases List.mem_cons.1 hr with rfl | hr
    · exact ⟨_, [], rfl, rfl⟩
    · rcases List.mem_cons.1 hr with rfl | hr
      · exact ⟨_, _, rfl, rfl⟩
      · obtain ⟨s, h'⟩ := below v h _ _ r hr; exact ⟨_, s, rfl, h'⟩
  | thin T n v =>
    rcases List.mem_cons.1 hr with rfl | hr
    · exact ⟨_, [], rfl, rfl⟩
    · rcases List.mem_cons.1 hr with rfl | hr
      · exact ⟨_, _, rfl, rfl⟩
      · obtain ⟨s, h'⟩ := below v h _ _ r hr; exact ⟨_, s, rfl, h'⟩
  | future v =>
    obtain ⟨k, s, h1, h2⟩ := Allocative.report_top v h [] r hr
    exact ⟨k, s, h1, h2⟩

theorem sum_filter_if {α : Type} (P : α → Prop) [DecidablePred P] (f : α → Nat) (l : List α) : ((l.filter fun x => decide (P x)).map f).sum = (l.map fun x => if P x then f x else 0).sum := by
  induction l with
  | nil => rfl
  | cons a l ih => by_cases h : P a <;> simp [h, ih]

/-- What counts for a top frame. -/
def countedTop (P : Path → Bool) (k : Key) (recs : List Rec) : Nat := (recs.map fun r => if r.path.head? = some k then (if P r.path.dropLast then r.size else 0) else 0).sum

theorem countedTop_flatMap {α : Type} (P : Path → Bool) (k : Key) (l : List α) (f : α → List Rec) (top : α → Option Key)
    (h : ∀ x ∈ l, ∀ r ∈ f x, ∃ k s, top x = some k ∧ r.path = k :: s) : countedTop P k (l.flatMap f) = (l.map fun x => if top x = some k then countedBy P (f x) else 0).sum := by
  induction l with
  | nil => rfl
  | cons x l ih =>
    have ih := ih fun y hy => h y (by simp [hy])
    have hx : countedTop P k (f x) = if top x = some k then countedBy P (f x) else 0 := by
      have hx := h x (by simp)
      unfold countedTop countedBy
      by_cases ht : top x = some k
      · rw [if_pos ht]
        apply sum_map_congr
        intro r hr
        obtain ⟨k', s, e1, e2⟩ := hx r hr
        rw [ht] at e1
        rw [if_pos (by rw [e2, e1]; rfl)]
      · rw [if_neg ht]
        apply FlameGraph.sum_eq_zero_of
        intro r hr
        obtain ⟨k', s, e1, e2⟩ := hx r hr
        rw [if_neg]
        rw [e2, List.head?_cons, ← e1]; exact ht
    simp only [List.flatMap_cons, List.map_cons, List.sum_cons, ← hx, ← ih]
    simp [countedTop]

/-- What the profile of some values is, for the theorems below. -/
theorem Profilable.frames [Target] {ρ : Str → Role} (hρ : Reserved ρ) {allocs : Ptr → Alloc} {bytes : Ptr → Nat} {roots : List Datum} {L : List Ptr} (h : Profilable ρ allocs bytes roots L)
    {fuel : Nat} (hf : L.length ≤ fuel) (ord : HashOrder TreeId) (ord' : HashOrder (List Str)) :
    ∃ (recs : List Rec) (lines : List (Path × Nat)) (total : Nat), recs = roots.flatMap (fun d => d.report []) ++ L.flatMap (fun p => (allocs p).cell.report) ∧
      observe ord ord' (visits (fun p => (allocs p).cell.visit) fuel (roots.map fun d => d.value.visit)) = .ok ⟨lines.flatMap renderLine, total, []⟩ ∧
      lines.Pairwise (fun a b => pathLt a.1.names b.1.names) ∧ (∀ r ∈ recs, ∀ r' ∈ recs, r.path = r'.path → r.unique = r'.unique) ∧ Closed recs ∧
      (∀ p, p ≠ [] → frame lines p = sizeAt recs p + behindUnique recs p) ∧ (∀ p ∈ L, ((allocs p).cell).datum.WF) ∧
      (∀ d ∈ roots, countedBy (fun p => decide (p = [] ∨ uniqueAt recs p = true)) (d.report []) + d.unseen = d.footprint) ∧
      (∀ q ∈ L, countedBy (fun p => decide (p = [] ∨ uniqueAt recs p = true)) ((allocs q).cell.report) + (allocs q).unseen = bytes q + (allocs q).value.heapBytes) := by
  have hc : ∀ p ∈ L, ((allocs p).cell).datum.WF := fun p hp => by
    obtain ⟨h1, h2, -, h3, h4, h5⟩ := h.cells p hp
    rw [(Alloc.cell_heap h3 h4 h5 h1).2.2]; exact h1
  obtain ⟨recs, lines, ws, hrecs, eobs, l1, l2, l3, hws⟩ := C52_text (fun p => (allocs p).cell) roots (fun d hd => (h.values d hd).1) L h.nodup h.reachable hc fuel hf ord ord'
  have hmix := unmixed_names hρ roots (fun p => (allocs p).cell) L (fun d hd => (h.values d hd).2.2) (fun p hp => (h.cells p hp).2.2.1) recs hrecs
  obtain ⟨hno, hroot, hcell⟩ := accounting_parts (fun d hd => ⟨(h.values d hd).1, (h.values d hd).2.1⟩)
    (fun p hp => by obtain ⟨h1, h2, -, h5, h6, h7⟩ := h.cells p hp; exact ⟨h1, h2, h5, h6, h7⟩) hrecs hmix
  have hw0 : ws = [] := by
    cases ws with
    | nil => rfl
    | cons p ws => exact absurd ((hws p).1 (by simp)) (hno p)
  subst hw0
  have hclosed : Closed recs := by
    have hc' : ∀ p, ReachableCell (fun p => (allocs p).cell) roots p → ((fun p => (allocs p).cell) p).datum.WF := fun p hp => hc p ((h.reachable p).2 hp)
    have hp := (C08_counted_once_iff_reachable (fun p => (allocs p).cell.visit) (roots.map fun d => d.value.visit) L h.nodup
      (fun p => (h.reachable p).trans (reachable_iff (fun d hd => (h.values d hd).1) hc' p).symm) fuel hf).2
    have e1 : (roots.map fun d => d.value.visit).flatMap (fun o => o.own []) = roots.flatMap fun d => d.report [] := by
      rw [List.flatMap_map]
      exact flatMap_congr' fun d hd => reported d (h.values d hd).1 []
    have e2 : L.flatMap (fun p => (allocs p).cell.visit.own []) = L.flatMap fun p => (allocs p).cell.report :=
      flatMap_congr' fun p hp => cell_report _ (hc p hp)
    rw [e1, e2, ← hrecs] at hp
    have hcl := records_closed (visits (fun p => (allocs p).cell.visit) fuel (roots.map fun d => d.value.visit))
    exact ⟨fun r hr => hcl.ne r (hp.mem_iff.2 hr), fun r hr => (hcl.parent r (hp.mem_iff.2 hr)).imp id (entered_perm hp _).1⟩
  exact ⟨recs, lines, _, hrecs, eobs, l1, hmix, hclosed, fun p hp => by simpa using frame_eq hclosed l1 l2 List.nodup_nil hws hp, hc, hroot, hcell⟩

/-- C73. Some values and the shared allocations reachable from them are profiled with one builder.  There are no warnings, and each top frame is exactly as wide as the memory occupied by
the roots and by the allocations with this name, with what they own, except for the bytes that profiles do not see. -/
theorem C73_values [Target] {ρ : Str → Role} (hρ : Reserved ρ) (allocs : Ptr → Alloc) (bytes : Ptr → Nat) (roots : List Datum) (L : List Ptr) (h : Profilable ρ allocs bytes roots L)
    (fuel : Nat) (hf : L.length ≤ fuel) (ord : HashOrder TreeId) (ord' : HashOrder (List Str)) :
    ∃ (lines : List (Path × Nat)) (total : Nat),
      observe ord ord' (visits (fun p => (allocs p).cell.visit) fuel (roots.map fun d => d.value.visit)) = .ok ⟨lines.flatMap renderLine, total, []⟩ ∧
      lines.Pairwise (fun a b => pathLt a.1.names b.1.names) ∧
      ∀ k, frame lines [k] + (((roots.filter fun d => d.topFrame = some k).map Datum.unseen).sum + ((L.filter fun p => (allocs p).cell.topFrame = some k).map fun p => (allocs p).unseen).sum) =
        ((roots.filter fun d => d.topFrame = some k).map Datum.footprint).sum +
          ((L.filter fun p => (allocs p).cell.topFrame = some k).map fun p => bytes p + (allocs p).value.heapBytes).sum := by
  obtain ⟨recs, lines, total, hrecs, eobs, l1, hmix, hclosed, hfr, hc, hroot, hcell⟩ := h.frames hρ hf ord ord'
  refine ⟨lines, total, eobs, l1, fun k => ?_⟩
  have hfr := hfr [k] (by simp)
  have hct : frame lines [k] = countedTop (fun p => decide (p = [] ∨ uniqueAt recs p = true)) k recs := by
    rw [hfr]
    simp only [sizeAt, behindUnique, countedTop]
    rw [← sum_map_add]
    apply sum_map_congr
    intro r hr
    have := hclosed.ne r hr
    cases hp : r.path with
    | nil => exact absurd hp this
    | cons k' s =>
      cases s with
      | nil =>
        by_cases hk : k' = k <;> simp [hk]
      | cons k2 s =>
        by_cases hk : k' = k
        · subst hk; simp
        · simp [hk, Ne.symm hk]
  have sums : ∀ {α : Type} (l : List α) (Q : α → Prop) [DecidablePred Q] (f g h : α → Nat), (∀ x ∈ l, f x + g x = h x) →
      (l.map fun x => if Q x then f x else 0).sum + ((l.filter fun x => decide (Q x)).map g).sum = ((l.filter fun x => decide (Q x)).map h).sum := by
    intro α l Q _ f g h hx
    rw [sum_filter_if, sum_filter_if, ← sum_map_add]
    apply sum_map_congr
    intro x hm
    by_cases hq : Q x
    · simp [hq, hx x hm]
    · simp [hq]
  have hsplit : countedTop (fun p => decide (p = [] ∨ uniqueAt recs p = true)) k recs =
      (roots.map fun d => if d.topFrame = some k then countedBy (fun p => decide (p = [] ∨ uniqueAt recs p = true)) (d.report []) else 0).sum +
      (L.map fun p => if (allocs p).cell.topFrame = some k then countedBy (fun p => decide (p = [] ∨ uniqueAt recs p = true)) ((allocs p).cell.report) else 0).sum := by
    rw [← countedTop_flatMap _ k roots (fun d => d.report []) Datum.topFrame fun d hd r hr => by simpa using report_top d (h.values d hd).1 [] r hr,
      ← countedTop_flatMap _ k L (fun p => (allocs p).cell.report) (fun p => (allocs p).cell.topFrame) fun p hp r hr => Cell.report_top _ (hc p hp) r hr]
    conv => lhs; arg 3; rw [hrecs]
    simp [countedTop]
  have s1 := sums roots (fun d => d.topFrame = some k) _ _ _ hroot
  have s2 := sums L (fun p => (allocs p).cell.topFrame = some k) _ _ _ hcell
  omega

/-- What is at and below a stack, if all of it are some values below a label. -/
theorem frame_parts [Target] {recs : List Rec} (hmix : ∀ r ∈ recs, ∀ r' ∈ recs, r.path = r'.path → r.unique = r'.unique) {cur : Path} {k : Key} {xs : List Datum} (hx : ∀ x ∈ xs, x.WF)
    {rest : List Rec} (hp : recs.Perm (rest ++ xs.flatMap fun x => reportField k ⟨x.size, x.report⟩ cur)) (hrest : ∀ r ∈ rest, ¬ (cur ++ [k]) <+: r.path) :
    sizeAt recs (cur ++ [k]) + behindUnique recs (cur ++ [k]) + (xs.map Datum.missed).sum = (xs.map Datum.footprint).sum := by
  let w : Rec → Nat := fun r => (if r.path = cur ++ [k] then r.size else 0) +
    if (cur ++ [k]) <+: r.path.dropLast ∧ uniqueAt recs r.path.dropLast = true then r.size else 0
  have hw : sizeAt recs (cur ++ [k]) + behindUnique recs (cur ++ [k]) = (recs.map w).sum := by
    simp only [sizeAt, behindUnique, w]
    rw [← sum_map_add]
  have hzero : (rest.map w).sum = 0 := by
    apply FlameGraph.sum_eq_zero_of
    intro r hr
    have h := hrest r hr
    simp only [w]
    rw [if_neg (fun e => h (by rw [e]; exact List.prefix_refl _)), if_neg (fun e => h (e.1.trans (List.dropLast_prefix _)))]
  rw [hw, (hp.map w).sum_nat, List.map_append, List.sum_append, hzero, Nat.zero_add]
  have hin : ∀ x ∈ xs, ∀ r ∈ reportField k ⟨x.size, x.report⟩ cur, r ∈ recs := fun x hx r hr =>
    hp.mem_iff.2 (List.mem_append_right _ (List.mem_flatMap.2 ⟨x, hx, hr⟩))
  have hun : ∀ r ∈ recs, uniqueAt recs r.path = r.unique := by
    intro r hr
    cases hu : r.unique with
    | true => simp only [uniqueAt, List.any_eq_true]; exact ⟨r, hr, by simp [hu]⟩
    | false =>
      simp only [uniqueAt, List.any_eq_false]
      intro y hy hyp
      simp only [Bool.and_eq_true, decide_eq_true_eq] at hyp
      rw [hmix y hy r hr hyp.1, hu] at hyp
      exact absurd hyp.2 (by simp)
  have one : ∀ x ∈ xs, ((reportField k ⟨x.size, x.report⟩ cur).map w).sum + x.missed = x.footprint := by
    intro x hxs
    have hcur : uniqueAt recs (cur ++ [k]) = false := hun (inl (cur ++ [k]) x.size) (hin x hxs _ (by simp [reportField]))
    have e : x.report (cur ++ [k]) = x.value.visit.own (cur ++ [k]) := ((C52_records x (hx x hxs) _).1).symm
    have h1 : ((x.report (cur ++ [k])).map w).sum = countedBy (fun p => uniqueAt recs p) (x.report (cur ++ [k])) := by
      unfold countedBy
      apply sum_map_congr
      intro r hr
      obtain ⟨k', s, -, hp'⟩ := report_top x (hx x hxs) (cur ++ [k]) r hr
      have n1 : r.path ≠ cur ++ [k] := by rw [hp']; simp
      have n2 : (cur ++ [k]) <+: r.path.dropLast := by
        rw [hp', List.dropLast_append_of_ne_nil (by simp)]
        exact List.prefix_append _ _
      simp only [w, if_neg n1, n2, true_and, Nat.zero_add]
    have h2 : countedBy (fun p => uniqueAt recs p) (x.report (cur ++ [k])) = x.value.visit.heap false := by
      rw [e]
      exact counted_own _ _ false ((any x).at false) hcur fun r hr => hun r (hin x hxs r (by simp only [reportField, List.mem_cons]; exact .inr (by rw [e]; exact hr)))
    have h3 := accounted x (hx x hxs) false
    have h4 : w (inl (cur ++ [k]) x.size) = x.size := by
      simp only [w, inl, if_true]
      rw [if_neg (fun h => by have := h.1.length_le; simp at this; exact absurd this (Nat.not_succ_le_self _))]
      omega
    simp only [reportField, List.map_cons, List.sum_cons, h4, h1, h2, Datum.footprint]
    simp at h3
    omega
  clear hp hin hzero hw hrest
  induction xs with
  | nil => rfl
  | cons x xs ih =>
    have := ih (fun y hy => hx y (by simp [hy])) fun y hy => one y (by simp [hy])
    have := one x (by simp)
    simp only [List.flatMap_cons, List.map_append, List.sum_append, List.map_cons, List.sum_cons]
    omega

/-- C73, at any depth: if all that is reported at a stack and below it are the values `xs`, each below the label at the end of the stack (like the values of one field), then this frame is
exactly as wide as the memory they occupy, with what they own, except for the bytes that profiles do not see. -/
theorem C73_parts [Target] {ρ : Str → Role} (hρ : Reserved ρ) (allocs : Ptr → Alloc) (bytes : Ptr → Nat) (roots : List Datum) (L : List Ptr) (h : Profilable ρ allocs bytes roots L)
    (fuel : Nat) (hf : L.length ≤ fuel) (ord : HashOrder TreeId) (ord' : HashOrder (List Str)) (cur : Path) (k : Key) (xs : List Datum) (hx : ∀ x ∈ xs, x.WF) (rest : List Rec)
    (hp : (roots.flatMap (fun d => d.report []) ++ L.flatMap (fun p => (allocs p).cell.report)).Perm (rest ++ xs.flatMap fun x => reportField k ⟨x.size, x.report⟩ cur))
    (hrest : ∀ r ∈ rest, ¬ (cur ++ [k]) <+: r.path) :
    ∃ (lines : List (Path × Nat)) (total : Nat),
      observe ord ord' (visits (fun p => (allocs p).cell.visit) fuel (roots.map fun d => d.value.visit)) = .ok ⟨lines.flatMap renderLine, total, []⟩ ∧
      lines.Pairwise (fun a b => pathLt a.1.names b.1.names) ∧ frame lines (cur ++ [k]) + (xs.map Datum.missed).sum = (xs.map Datum.footprint).sum := by
  obtain ⟨recs, lines, total, hrecs, eobs, l1, hmix, -, hfr, -⟩ := h.frames hρ hf ord ord'
  refine ⟨lines, total, eobs, l1, ?_⟩
  rw [hfr _ (by simp)]
  subst hrecs
  exact frame_parts hmix hx hp hrest

/-- One field of a struct and the others. -/
theorem derived_split [Target] {labels : List (Str × Bool)} {fields : List Datum} {i : Nat} {name : Str} {x : Datum} (cur : Path) (hn : (labels.map Prod.fst).Nodup)
    (hl : labels[i]? = some (name, false)) (hx : fields[i]? = some x) (hw : Datum.WFAll fields) :
    ∃ rest, (reportDerived labels (Datum.parts fields) cur).Perm (rest ++ reportField (Key.new name) ⟨x.size, x.report⟩ cur) ∧
      ∀ r ∈ rest, ∃ k s, k ≠ Key.new name ∧ r.path = cur ++ k :: s := by
  have field : ∀ (l : Str) (d : Datum), d.WF → ∀ r ∈ reportField (Key.new l) ⟨d.size, d.report⟩ cur, ∃ s, r.path = cur ++ Key.new l :: s := by
    intro l d hd r hr
    rcases List.mem_cons.1 hr with rfl | hr
    · exact ⟨[], rfl⟩
    · obtain ⟨k, s, -, h⟩ := report_top d hd _ r hr
      exact ⟨k :: s, by simpa using h⟩
  have inj : ∀ {a b : Str}, Key.new a = Key.new b → a = b := fun h => congrArg Key.s h
  have others : ∀ (labels : List (Str × Bool)) (fields : List Datum), Datum.WFAll fields → (∀ l ∈ labels, l.1 ≠ name) →
      ∀ r ∈ reportDerived labels (Datum.parts fields) cur, ∃ k s, k ≠ Key.new name ∧ r.path = cur ++ k :: s := by
    intro labels
    induction labels with
    | nil => intro _ _ _ r hr; simp [reportDerived] at hr
    | cons l labels ih =>
      intro fields hw hne r hr
      cases fields with
      | nil => simp [reportDerived, Datum.parts] at hr
      | cons d fields =>
        simp only [reportDerived, Datum.parts, List.zip_cons_cons, List.flatMap_cons, List.mem_append] at hr
        rcases hr with hr | hr
        · split at hr
          · cases hr
          · obtain ⟨s, h⟩ := field l.1 d hw.1 r hr
            exact ⟨_, s, fun e => hne l (by simp) (inj e), h⟩
        · exact ih fields hw.2 (fun m hm => hne m (by simp [hm])) r hr
  induction i generalizing labels fields with
  | zero =>
    cases labels with
    | nil => cases hl
    | cons l labels =>
      cases fields with
      | nil => cases hx
      | cons d fields =>
        simp only [List.getElem?_cons_zero, Option.some.injEq] at hl hx
        subst hl; subst hx
        refine ⟨reportDerived labels (Datum.parts fields) cur, ?_, ?_⟩
        · simp only [reportDerived, Datum.parts, List.zip_cons_cons, List.flatMap_cons, Bool.false_eq_true, if_false]
          exact List.perm_append_comm
        · refine others labels fields hw.2 fun l hl' e => ?_
          simp only [List.map_cons, List.nodup_cons] at hn
          exact hn.1 (e ▸ List.mem_map_of_mem hl')
  | succ i ih =>
    cases labels with
    | nil => cases hl
    | cons l labels =>
      cases fields with
      | nil => cases hx
      | cons d fields =>
        simp only [List.getElem?_cons_succ] at hl hx
        simp only [List.map_cons, List.nodup_cons] at hn
        obtain ⟨rest, h1, h2⟩ := ih hn.2 hl hx hw.2
        refine ⟨(if l.2 then [] else reportField (Key.new l.1) ⟨d.size, d.report⟩ cur) ++ rest, ?_, ?_⟩
        · simp only [reportDerived, Datum.parts, List.zip_cons_cons, List.flatMap_cons, List.append_assoc]
          exact h1.append_left _
        · intro r hr
          rcases List.mem_append.1 hr with hr | hr
          · split at hr
            · cases hr
            · obtain ⟨s, h⟩ := field l.1 d hw.1 r hr
              refine ⟨_, s, fun e => ?_, h⟩
              have : (name, false) ∈ labels := List.mem_of_getElem? hl
              exact hn.1 (inj e ▸ List.mem_map_of_mem (f := Prod.fst) this)
          · exact h2 r hr

/-- Structs of one type: the records of one of their fields and all others. -/
theorem structs_split [Target] (S : Ty) (labels : List (Str × Bool)) (i : Nat) (name : Str) (hn : (labels.map Prod.fst).Nodup) (hl : labels[i]? = some (name, false)) :
    ∀ structs : List (Nat × List Datum), (∀ s ∈ structs, labels.length = s.2.length ∧ Datum.WFAll s.2) →
      ∃ rest, ((structs.map fun s => Datum.struct S s.1 labels s.2).flatMap fun d => d.report []).Perm
        (rest ++ (structs.filterMap fun s => s.2[i]?).flatMap fun x => reportField (Key.new name) ⟨x.size, x.report⟩ [ty S]) ∧
      (∀ r ∈ rest, ¬ [ty S, Key.new name] <+: r.path) ∧ ∀ x ∈ structs.filterMap fun s => s.2[i]?, x.WF := by
  intro structs
  induction structs with
  | nil => intro _; exact ⟨[], by simp, by simp, by simp⟩
  | cons s structs ih =>
    intro hs
    obtain ⟨rest, h1, h2, h3⟩ := ih fun t ht => hs t (by simp [ht])
    obtain ⟨hlen, hw⟩ := hs s (by simp)
    have hi : i < s.2.length := by
      have := (List.getElem?_eq_some_iff.1 hl).1
      omega
    obtain ⟨rest', g1, g2⟩ := derived_split (x := s.2[i]) [ty S] hn hl (List.getElem?_eq_getElem hi) hw
    refine ⟨inl [ty S] s.1 :: rest' ++ rest, ?_, ?_, ?_⟩
    · simp only [List.map_cons, List.flatMap_cons, List.filterMap_cons, List.getElem?_eq_getElem hi]
      show (inl [ty S] s.1 :: reportDerived labels (Datum.parts s.2) [ty S] ++ _).Perm _
      rw [List.cons_append, List.cons_append, List.cons_append]
      refine List.Perm.cons _ ?_
      refine ((g1.append h1).trans ?_)
      simp only [List.append_assoc]
      refine List.Perm.append_left _ ?_
      rw [← List.append_assoc, ← List.append_assoc]
      exact List.Perm.append_right _ List.perm_append_comm
    · intro r hr
      simp only [List.cons_append, List.mem_cons, List.mem_append] at hr
      rcases hr with rfl | hr | hr
      · intro hp
        have := hp.length_le
        simp [inl] at this
      · obtain ⟨k, s, hk, hp⟩ := g2 r hr
        rw [hp]
        rintro ⟨t, ht⟩
        simp only [List.cons_append, List.nil_append, List.cons.injEq, true_and] at ht
        exact hk ht.1.symm
      · exact h2 r hr
    · intro x hx
      simp only [List.filterMap_cons, List.getElem?_eq_getElem hi, List.mem_cons] at hx
      rcases hx with rfl | hx
      · have all : ∀ l : List Datum, Datum.WFAll l → ∀ x ∈ l, x.WF := by
          intro l
          induction l with
          | nil => intro _ x hx; cases hx
          | cons d l ih => intro hl x hx; rcases List.mem_cons.1 hx with rfl | hx; exact hl.1; exact ih hl.2 x hx
        exact all _ hw _ (List.getElem_mem hi)
      · exact h3 x hx

/-- C73, for fields: among the roots are values of a struct type with a derived implementation; nothing else has the name of this type at the top.  Then the frame of a field that is not
skipped is exactly as wide as the memory that the values of this field occupy, with what they own, except for the bytes that profiles do not see. -/
theorem C73_fields [Target] {ρ : Str → Role} (hρ : Reserved ρ) (allocs : Ptr → Alloc) (bytes : Ptr → Nat) (roots : List Datum) (L : List Ptr) (h : Profilable ρ allocs bytes roots L)
    (fuel : Nat) (hf : L.length ≤ fuel) (ord : HashOrder TreeId) (ord' : HashOrder (List Str))
    (S : Ty) (labels : List (Str × Bool)) (structs : List (Nat × List Datum)) (others : List Datum)
    (hroots : roots.Perm (structs.map (fun s => .struct S s.1 labels s.2) ++ others)) (hothers : ∀ d ∈ others, d.topFrame ≠ some (ty S))
    (hcells : ∀ p ∈ L, (allocs p).cell.topFrame ≠ some (ty S)) (hn : (labels.map Prod.fst).Nodup) (i : Nat) (name : Str) (hl : labels[i]? = some (name, false)) :
    ∃ (lines : List (Path × Nat)) (total : Nat),
      observe ord ord' (visits (fun p => (allocs p).cell.visit) fuel (roots.map fun d => d.value.visit)) = .ok ⟨lines.flatMap renderLine, total, []⟩ ∧
      lines.Pairwise (fun a b => pathLt a.1.names b.1.names) ∧
      frame lines [ty S, Key.new name] + ((structs.filterMap fun s => s.2[i]?).map Datum.missed).sum = ((structs.filterMap fun s => s.2[i]?).map Datum.footprint).sum := by
  have hc : ∀ p ∈ L, ((allocs p).cell).datum.WF := fun p hp => by
    obtain ⟨h1, h2, -, h3, h4, h5⟩ := h.cells p hp
    rw [(Alloc.cell_heap h3 h4 h5 h1).2.2]; exact h1
  have hsw : ∀ s ∈ structs, labels.length = s.2.length ∧ Datum.WFAll s.2 := by
    intro s hs
    have := (h.values _ (hroots.mem_iff.2 (List.mem_append_left _ (List.mem_map.2 ⟨s, hs, rfl⟩)))).1
    simpa only [Datum.WF] using this
  obtain ⟨rest, k1, k2, k3⟩ := structs_split S labels i name hn hl structs hsw
  refine C73_parts hρ allocs bytes roots L h fuel hf ord ord' [ty S] (Key.new name) _ k3
    (rest ++ others.flatMap (fun d => d.report []) ++ L.flatMap (fun p => (allocs p).cell.report)) ?_ ?_
  · refine ((hroots.flatMap_right (fun d => d.report [])).append_right _).trans ?_
    rw [List.flatMap_append]
    refine ((k1.append_right _).append_right _).trans ?_
    simp only [List.append_assoc]
    exact List.Perm.append_left _ (List.perm_append_comm.trans (by simp only [List.append_assoc]; exact List.Perm.refl _))
  · have top : ∀ {r : Rec} {t : Option Key}, (∃ k s, t = some k ∧ r.path = k :: s) → t ≠ some (ty S) → ¬ [ty S] ++ [Key.new name] <+: r.path := by
      rintro r t ⟨k, s, rfl, hp⟩ hne ⟨u, hu⟩
      rw [hp] at hu
      simp only [List.cons_append, List.nil_append, List.cons.injEq] at hu
      exact hne (by rw [hu.1])
    intro r hr
    rcases List.mem_append.1 hr with hr | hr
    · rcases List.mem_append.1 hr with hr | hr
      · exact k2 r hr
      · obtain ⟨d, hd, hr⟩ := List.mem_flatMap.1 hr
        exact top (by simpa using report_top d (h.values d (hroots.mem_iff.2 (List.mem_append_right _ hd))).1 [] r hr) (hothers d hd)
    · obtain ⟨p, hp, hr⟩ := List.mem_flatMap.1 hr
      exact top (Cell.report_top _ (hc p hp) r hr) (hcells p hp)

namespace FramesExamples
example := C73_frame Ex.hist1 Ex.hist1_noLeaks Ex.hist1_proper

attribute [local instance] Target.x64 in
/-- Every kind of value, with C73: each top frame of this profile is as wide as the memory behind it. -/
example := C73_values NamesExamples.reserved Showcase.allocs Showcase.bytes Showcase.values [1, 2, 3, 4, 5] Showcase.profilable 5 (by simp)

open MergeExamples NamesExamples FootprintExamples in
attribute [local instance] Target.x64 in
/-- A node and two shared ones behind it: the frame of the node has its 32 bytes and five bytes of text, the frame of the shared nodes two blocks of 48 bytes and two bytes of text. -/
example (ord : HashOrder TreeId) (ord' : HashOrder (List Str)) : ∃ (lines : List (Path × Nat)) (total : Nat),
    observe ord ord' (visits (fun p => (allocs p).cell.visit) 2 [(node 7 3 5).value.visit]) = .ok ⟨lines.flatMap renderLine, total, []⟩ ∧
    frame lines [ty tNode] = 32 + 5 ∧ frame lines [lbl "ArcInner"] = 48 + 2 + 48 := by
  obtain ⟨lines, total, e, -, h⟩ := C73_values reserved allocs (fun _ => 48) [node 7 3 5] [7, 9] (MergeExamples.profilable ord ⟨[node 7 3 5], [7, 9], ord⟩ (by simp [groups])) 2 (by simp) ord ord'
  refine ⟨lines, total, e, ?_, ?_⟩
  · have := h (ty tNode)
    have e1 : (node 7 3 5).topFrame = some (ty tNode) := rfl
    have e2 : ∀ p, (allocs p).cell.topFrame = some (lbl "ArcInner") := fun p => by unfold allocs; split <;> rfl
    have e3 : lbl "ArcInner" ≠ ty tNode := by decide +kernel
    simp only [List.filter_cons, List.filter_nil, e1, e2, Option.some.injEq, e3, decide_true, decide_false, if_true, Bool.false_eq_true, if_false] at this
    exact this
  · have := h (lbl "ArcInner")
    have e1 : (node 7 3 5).topFrame = some (ty tNode) := rfl
    have e2 : ∀ p, (allocs p).cell.topFrame = some (lbl "ArcInner") := fun p => by unfold allocs; split <;> rfl
    have e3 : ty tNode ≠ lbl "ArcInner" := by decide +kernel
    simp only [List.filter_cons, List.filter_nil, e1, e2, Option.some.injEq, e3, decide_true, decide_false, if_true, Bool.false_eq_true, if_false] at this
    exact this

open MergeExamples NamesExamples FootprintExamples in
attribute [local instance] Target.x64 in
/-- The frame of the field `text` of the node: the `String` (24 bytes) and its five bytes on the heap. -/
example (ord : HashOrder TreeId) (ord' : HashOrder (List Str)) : ∃ (lines : List (Path × Nat)) (total : Nat),
    observe ord ord' (visits (fun p => (allocs p).cell.visit) 2 [(node 7 3 5).value.visit]) = .ok ⟨lines.flatMap renderLine, total, []⟩ ∧
    frame lines [ty tNode, lbl "text"] = 24 + 5 := by
  obtain ⟨lines, total, e, -, h⟩ := C73_fields reserved allocs (fun _ => 48) [node 7 3 5] [7, 9] (MergeExamples.profilable ord ⟨[node 7 3 5], [7, 9], ord⟩ (by simp [groups])) 2 (by simp) ord ord'
    tNode [(ascii "next", false), (ascii "text", false)] [(32, [.arc tArcNode 8 7, .string DataExamples.tString 3 5])] [] (List.Perm.refl _) (by simp)
    (by intro p _; unfold allocs; split <;> decide +kernel) (by decide) 1 (ascii "text") rfl
  exact ⟨lines, total, e, h⟩
end FramesExamples

end Allocative
