import Verif.Spec.Local
import Verif.Props.Report
import Verif.Props.Reproducible
set_option linter.unusedSimpArgs false
/-
C75: a change of what is visited shows only where it was made.
-/
namespace Allocative

theorem sizeAt_untouched (c : List Rec) {x : List Rec} {p : Path} (h : ¬ touches x p) : sizeAt (c ++ x) p = sizeAt c p := by
  have : (x.map fun r => if r.path = p then r.size else 0).sum = 0 := by
    induction x with
    | nil => rfl
    | cons r x ih =>
      have h1 : r.path ≠ p := fun e => h ⟨r, by simp, .inl e⟩
      have := ih fun ⟨r, hr, hx⟩ => h ⟨r, by simp [hr], hx⟩
      simp [h1, this]
  simp [sizeAt, this]

theorem childrenAt_untouched (c : List Rec) {x : List Rec} {p : Path} (h : ¬ touches x p) : childrenAt (c ++ x) p = childrenAt c p := by
  have : (x.map fun r => if isChild p r.path then r.size else 0).sum = 0 := by
    induction x with
    | nil => rfl
    | cons r x ih =>
      have h1 : isChild p r.path = false := by
        rw [Bool.eq_false_iff]
        intro e
        obtain ⟨k, hk⟩ := isChild_iff.1 e
        exact h ⟨r, by simp, .inr ⟨k, hk⟩⟩
      have := ih fun ⟨r, hr, hx⟩ => h ⟨r, by simp [hr], hx⟩
      simp [h1, this]
  simp [childrenAt, this]

theorem uniqueAt_untouched (c : List Rec) {x : List Rec} {p : Path} (h : ¬ touches x p) : uniqueAt (c ++ x) p = uniqueAt c p := by
  have : (x.any fun r => r.path = p && r.unique) = false := by
    rw [List.any_eq_false]
    intro r hr e
    simp only [Bool.and_eq_true, decide_eq_true_eq] at e
    exact h ⟨r, hr, .inl e.1⟩
  simp only [uniqueAt, List.any_append, this, Bool.or_false]

theorem entered_untouched (c : List Rec) {x : List Rec} {p : Path} (h : ¬ touches x p) : entered (c ++ x) p ↔ entered c p := by
  constructor
  · rintro ⟨r, hr, e⟩
    rcases List.mem_append.1 hr with hr | hr
    · exact ⟨r, hr, e⟩
    · exact absurd ⟨r, hr, .inl e⟩ h
  · rintro ⟨r, hr, e⟩
    exact ⟨r, by simp [hr], e⟩

/-- What is observed after a history. -/
theorem observed {hist : List (Prog × Fate)} (hl : NoLeaks hist) (hk : ProperKeys hist) (ord : HashOrder TreeId) (ord' : HashOrder (List Str)) :
    ∃ (lines : List (Path × Nat)) (total : Nat) (ws : List (Path × Str)), observe ord ord' hist = .ok ⟨lines.flatMap renderLine, total, ws.flatMap Prod.snd⟩ ∧
      (∀ p n, (p, n) ∈ lines ↔ p ≠ [] ∧ n ≠ 0 ∧ entered (records hist) p ∧ n = selfSpec (records hist) p) ∧
      ∀ p t, (p, t) ∈ ws ↔ overfull (records hist) p ∧ t = renderWarning (records hist) p := by
  obtain ⟨out, ws, e, hb, hs, hw, hwn, hm, -⟩ := run_spec hl hk ord
  obtain ⟨lines, hlt, -, hlm⟩ := C02_text_exact_sorted out.flamegraph hb ord'
  refine ⟨lines, out.flamegraph.totalSize, ws.map fun p => (p, renderWarning (records hist) p), ?_, fun p n => ?_, fun p t => ?_⟩
  · simp only [observe, e, hlt, hw, List.flatMap_map]
  · rw [hlm, hs]
    constructor
    · rintro ⟨h1, h2, h3⟩
      by_cases he : entered (records hist) p
      · rw [if_pos (.inr he)] at h3
        exact ⟨h1, h2, he, (Option.some.inj h3).symm⟩
      · rw [if_neg (fun h => h.elim h1 he)] at h3
        exact nomatch h3
    · rintro ⟨h1, h2, h3, h4⟩
      exact ⟨h1, h2, by rw [if_pos (.inr h3), h4]⟩
  · rw [← hm p]
    constructor
    · intro h
      obtain ⟨q, hq, e⟩ := List.mem_map.1 h
      cases e
      exact ⟨hq, rfl⟩
    · rintro ⟨h, rfl⟩
      exact List.mem_map.2 ⟨p, h, rfl⟩

/-- C75. Two histories make the same records except that one makes `x` and the other `y` in addition: in their outputs every stack looks the same, unless `x` or `y` enter the
stack itself or one directly below it. -/
theorem C75_local (hist hist' : List (Prog × Fate)) (hl : NoLeaks hist) (hl' : NoLeaks hist') (hk : ProperKeys hist) (hk' : ProperKeys hist') (common x y : List Rec)
    (hx : (records hist).Perm (common ++ x)) (hy : (records hist').Perm (common ++ y)) (o1 o2 : HashOrder TreeId) (o1' o2' : HashOrder (List Str)) :
    ∃ (lines lines' : List (Path × Nat)) (ws ws' : List (Path × Str)) (total total' : Nat),
      observe o1 o1' hist = .ok ⟨lines.flatMap renderLine, total, ws.flatMap Prod.snd⟩ ∧ observe o2 o2' hist' = .ok ⟨lines'.flatMap renderLine, total', ws'.flatMap Prod.snd⟩ ∧
      (∀ p, ¬ touches x p → ¬ touches y p → SameAt p lines lines' ws ws') ∧
      -- `lines` and `ws` are what the output is made of
      (∀ p n, (p, n) ∈ lines ↔ p ≠ [] ∧ n ≠ 0 ∧ entered (records hist) p ∧ n = selfSpec (records hist) p) ∧
      (∀ p t, (p, t) ∈ ws ↔ overfull (records hist) p ∧ t = renderWarning (records hist) p) := by
  obtain ⟨lines, total, ws, e, h1, h2⟩ := observed hl hk o1 o1'
  obtain ⟨lines', total', ws', e', h1', h2'⟩ := observed hl' hk' o2 o2'
  refine ⟨lines, lines', ws, ws', total, total', e, e', fun p hpx hpy => ?_, h1, h2⟩
  have s1 : sizeAt (records hist) p = sizeAt (records hist') p := by
    rw [sizeAt_perm hx, sizeAt_perm hy, sizeAt_untouched _ hpx, sizeAt_untouched _ hpy]
  have s2 : childrenAt (records hist) p = childrenAt (records hist') p := by
    rw [childrenAt_perm hx, childrenAt_perm hy, childrenAt_untouched _ hpx, childrenAt_untouched _ hpy]
  have s3 : uniqueAt (records hist) p = uniqueAt (records hist') p := by
    rw [uniqueAt_perm hx, uniqueAt_perm hy, uniqueAt_untouched _ hpx, uniqueAt_untouched _ hpy]
  have s4 : entered (records hist) p ↔ entered (records hist') p := by
    rw [entered_perm hx, entered_perm hy, entered_untouched _ hpx, entered_untouched _ hpy]
  constructor
  · intro n
    rw [h1, h1', s4]
    simp only [selfSpec, remAt, s1, s2, s3]
  · intro t
    rw [h2, h2']
    simp only [overfull, renderWarning, s1, s2, s3, s4]

theorem touches_top {x : List Rec} {p : Path} (hp : p ≠ []) (h : touches x p) : topOf x p := by
  obtain ⟨r, hr, e | ⟨k, e⟩⟩ := h
  · exact ⟨r, hr, by rw [e]⟩
  · refine ⟨r, hr, ?_⟩
    rw [e]
    cases p with
    | nil => exact absurd rfl hp
    | cons a p => rfl

theorem values_hist [Target] (cells : Ptr → Cell) (roots : List Datum) (hr : ∀ d ∈ roots, d.WF) (L : List Ptr) (hn : L.Nodup)
    (hL : ∀ p, p ∈ L ↔ ReachableCell cells roots p) (hc : ∀ p ∈ L, (cells p).datum.WF) (fuel : Nat) (hf : L.length ≤ fuel) :
    NoLeaks (visits (fun p => (cells p).visit) fuel (roots.map fun d => d.value.visit)) ∧ ProperKeys (visits (fun p => (cells p).visit) fuel (roots.map fun d => d.value.visit)) ∧
      (records (visits (fun p => (cells p).visit) fuel (roots.map fun d => d.value.visit))).Perm
        (roots.flatMap (fun d => d.report []) ++ L.flatMap (fun p => (cells p).report)) := by
  have hc' : ∀ p, ReachableCell cells roots p → (cells p).datum.WF := fun p hp => hc p ((hL p).2 hp)
  have hp := (C08_counted_once_iff_reachable (fun p => (cells p).visit) (roots.map fun d => d.value.visit) L hn
    (fun p => (hL p).trans (reachable_iff hr hc' p).symm) fuel hf).2
  refine ⟨visits_noLeaks _ fuel _, ?_, ?_⟩
  · intro x hx
    simp only [visits, List.map_map, List.mem_map] at hx
    obtain ⟨d, hd, rfl⟩ := hx
    exact visit_keysAre (fun p => cell_proper (cells p)) fuel _ (proper d)
  · have h1 : (roots.map fun d => d.value.visit).flatMap (fun o => o.own []) = roots.flatMap fun d => d.report [] := by
      rw [List.flatMap_map]
      exact flatMap_congr' fun d hd => reported d (hr d hd) []
    have h2 : L.flatMap (fun p => (cells p).visit.own []) = L.flatMap fun p => (cells p).report :=
      flatMap_congr' fun p hp => cell_report _ (hc p hp)
    rw [h1, h2] at hp
    exact hp

/-- C75, for values. One of the roots is `old` in one profile and `new` in the other, and the shared allocations `gone` of the first are in the second replaced by those of `come` (so
are those whose contents have changed: they are in both lists); the allocations `stay` are the same in both.  Then every stack looks the same, unless its top name is that of
`old` or `new`, or of one of the allocations in `gone` or `come`. -/
theorem C75_values [Target] (cells cells' : Ptr → Cell) (before after : List Datum) (old new : Datum) (stay gone come : List Ptr)
    (hw : ∀ d ∈ before ++ old :: after, d.WF) (hw' : ∀ d ∈ before ++ new :: after, d.WF)
    (hn : (stay ++ gone).Nodup) (hn' : (stay ++ come).Nodup) (hL : ∀ p, p ∈ stay ++ gone ↔ ReachableCell cells (before ++ old :: after) p)
    (hL' : ∀ p, p ∈ stay ++ come ↔ ReachableCell cells' (before ++ new :: after) p) (hc : ∀ p ∈ stay ++ gone, (cells p).datum.WF) (hc' : ∀ p ∈ stay ++ come, (cells' p).datum.WF)
    (hs : ∀ p ∈ stay, cells p = cells' p) (fuel fuel' : Nat) (hf : (stay ++ gone).length ≤ fuel) (hf' : (stay ++ come).length ≤ fuel')
    (o1 o2 : HashOrder TreeId) (o1' o2' : HashOrder (List Str)) :
    ∃ (lines lines' : List (Path × Nat)) (ws ws' : List (Path × Str)) (total total' : Nat),
      observe o1 o1' (visits (fun p => (cells p).visit) fuel ((before ++ old :: after).map fun d => d.value.visit)) = .ok ⟨lines.flatMap renderLine, total, ws.flatMap Prod.snd⟩ ∧
      observe o2 o2' (visits (fun p => (cells' p).visit) fuel' ((before ++ new :: after).map fun d => d.value.visit)) = .ok ⟨lines'.flatMap renderLine, total', ws'.flatMap Prod.snd⟩ ∧
      (∀ p, p ≠ [] → ¬ topOf (old.report [] ++ new.report [] ++ gone.flatMap (fun p => (cells p).report) ++ come.flatMap (fun p => (cells' p).report)) p → SameAt p lines lines' ws ws') ∧
      ∃ recs, recs = (before ++ old :: after).flatMap (fun d => d.report []) ++ (stay ++ gone).flatMap (fun p => (cells p).report) ∧
        (∀ p n, (p, n) ∈ lines ↔ p ≠ [] ∧ n ≠ 0 ∧ entered recs p ∧ n = selfSpec recs p) ∧ (∀ p t, (p, t) ∈ ws ↔ overfull recs p ∧ t = renderWarning recs p) := by
  obtain ⟨hl, hk, hp⟩ := values_hist cells _ hw _ hn hL hc fuel hf
  obtain ⟨hl', hk', hp'⟩ := values_hist cells' _ hw' _ hn' hL' hc' fuel' hf'
  have hstay : stay.flatMap (fun p => (cells p).report) = stay.flatMap (fun p => (cells' p).report) := flatMap_congr' fun p hp => by rw [hs p hp]
  have perm : ∀ a b c d e : List Rec, (a ++ (b ++ c) ++ (d ++ e)).Perm (a ++ c ++ d ++ (b ++ e)) := by
    intro a b c d e
    have : (b ++ (c ++ d)).Perm ((c ++ d) ++ b) := List.perm_append_comm
    simpa [List.append_assoc] using (this.append_right e).append_left a
  have h1 := hp
  have h2 := hp'
  simp only [List.flatMap_append, List.flatMap_cons] at h1 h2
  have h1 := h1.trans (perm _ _ _ _ _)
  have h2 := h2.trans (perm _ _ _ _ _)
  rw [← hstay] at h2
  obtain ⟨lines, lines', ws, ws', total, total', e, e', same, m1, m2⟩ := C75_local _ _ hl hl' hk hk' _ _ _ h1 h2 o1 o2 o1' o2'
  refine ⟨lines, lines', ws, ws', total, total', e, e', fun p hp0 ht => same p (fun h => ht ?_) (fun h => ht ?_), _, rfl, fun p n => ?_, fun p t => ?_⟩
  · obtain ⟨r, hr, e⟩ := touches_top hp0 h
    refine ⟨r, ?_, e⟩
    simp only [List.mem_append] at hr ⊢
    rcases hr with hr | hr <;> simp [hr]
  · obtain ⟨r, hr, e⟩ := touches_top hp0 h
    refine ⟨r, ?_, e⟩
    simp only [List.mem_append] at hr ⊢
    rcases hr with hr | hr <;> simp [hr]
  · rw [m1, entered_perm hp]; simp only [selfSpec, remAt, sizeAt_perm hp, childrenAt_perm hp, uniqueAt_perm hp]
  · rw [m2]; simp only [overfull, renderWarning, sizeAt_perm hp, childrenAt_perm hp, uniqueAt_perm hp, entered_perm hp]

namespace LocalExamples

attribute [local instance] Target.x64
open ReproducibleExamples

/-- An `Arc` of a set and a number; the number is replaced by a vector. -/
def vector : Datum := .vec ⟨ascii "Vec<u8>", 24, true⟩ ⟨ascii "u8", 1, false⟩ [byte 0] 4

theorem reach_arc (d : Datum) (h : d.pointers = []) (p : Ptr) : p ∈ [7] ++ [] ↔ ReachableCell (cells false) ([arc 7] ++ d :: []) p := by
  constructor
  · intro hp
    obtain rfl := List.mem_singleton.1 hp
    exact .root (d := arc 7) (by simp) (by decide)
  · intro hp
    induction hp with
    | root hd hp =>
      simp only [List.cons_append, List.nil_append, List.mem_cons, List.not_mem_nil, or_false] at hd
      rcases hd with rfl | rfl
      · simpa [arc, Datum.pointers] using hp
      · rw [h] at hp; exact nomatch hp
    | step _ hp _ => simp [cells, ReproducibleExamples.set, byte, Cell.datum, Datum.pointers, Datum.pointersEach] at hp

example (o1 o2 : HashOrder TreeId) (o1' o2' : HashOrder (List Str)) := C75_values (cells false) (cells false) [arc 7] [] (byte 1) vector [7] [] []
  (by intro d hd; simp at hd; rcases hd with rfl | rfl <;> simp [arc, byte, Datum.WF])
  (by intro d hd; simp at hd; rcases hd with rfl | rfl <;> simp [arc, byte, vector, Datum.WF, Datum.WFAll, Datum.AllOf, Datum.size, Datum.value, Impl.plain, Impl.sized])
  (by decide) (by decide) (reach_arc _ (by simp [byte, Datum.pointers])) (reach_arc _ (by simp [vector, byte, Datum.pointers, pointersElements]))
  (fun p _ => cells_wf p) (fun p _ => cells_wf p) (fun _ _ => rfl) 1 3 (by decide) (by decide) o1 o2 o1' o2'

/-- The stacks of the set in the `Arc` are among those that look the same. -/
example : ¬ topOf ((byte 1).report [] ++ vector.report [] ++ [] ++ []) [lbl "ArcInner", ty ⟨ascii "HashSet<u8>", 48, true⟩] := by
  rintro ⟨r, hr, e⟩
  revert e
  simp [byte, vector, Datum.report, Datum.parts, reportElements, inl, uniq] at hr
  rcases hr with rfl | rfl | rfl | rfl | rfl <;> simp <;> decide

def two (n : Nat) : List (Prog × Fate) := [(.enter (Ex.k "a") 9 .exit (.enter (Ex.k "b") n .exit .done .done) (.enter (Ex.k "c") 1 .drop .done .done), .exit)]

theorem two_proper (n : Nat) : ProperKeys (two n) := by simp [ProperKeys, two, Ex.k, Prog.KeysAre, Key.Proper, Key.new, Key.newUnchecked]

/-- The histories of two programs that differ in one call. -/
example (o1 o2 : HashOrder TreeId) (o1' o2' : HashOrder (List Str)) := C75_local
  (two 4)
  (two 7)
  (by decide) (by decide) (two_proper 4) (two_proper 7) [⟨[Ex.k "a"], 9, false⟩, ⟨[Ex.k "c"], 1, false⟩] [⟨[Ex.k "a", Ex.k "b"], 4, false⟩] [⟨[Ex.k "a", Ex.k "b"], 7, false⟩]
  (by decide) (by decide) o1 o2 o1' o2'

end LocalExamples

end Allocative
