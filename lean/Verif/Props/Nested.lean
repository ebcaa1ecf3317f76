import Verif.Spec.Nested
import Verif.Props.Local
import Verif.Props.Frames
set_option linter.unusedSimpArgs false
/-
C76: the profile of a part is found in the profile of the whole.
-/
namespace Allocative

theorem under_size (q p : Path) (B : List Rec) : sizeAt (B.map (Rec.under q)) (q ++ p) = sizeAt B p := by
  simp only [sizeAt, List.map_map]
  congr 1
  refine List.map_congr_left fun r _ => ?_
  simp [Rec.under]

theorem isChild_under (q p r : Path) : isChild (q ++ p) (q ++ r) = isChild p r := by
  rw [Bool.eq_iff_iff, isChild_iff, isChild_iff]
  simp [List.append_assoc]

theorem under_children (q p : Path) (B : List Rec) : childrenAt (B.map (Rec.under q)) (q ++ p) = childrenAt B p := by
  simp only [childrenAt, List.map_map]
  congr 1
  refine List.map_congr_left fun r _ => ?_
  simp [Rec.under, isChild_under]

theorem under_unique (q p : Path) (B : List Rec) : uniqueAt (B.map (Rec.under q)) (q ++ p) = uniqueAt B p := by
  simp only [uniqueAt, List.any_map]
  congr 1
  funext r
  simp [Rec.under]

theorem under_entered (q p : Path) (B : List Rec) : entered (B.map (Rec.under q)) (q ++ p) ↔ entered B p := by
  constructor
  · rintro ⟨r, hr, e⟩
    obtain ⟨r', hr', rfl⟩ := List.mem_map.1 hr
    exact ⟨r', hr', List.append_cancel_left e⟩
  · rintro ⟨r, hr, e⟩
    exact ⟨r.under q, List.mem_map_of_mem hr, by simp [Rec.under, e]⟩

/-- What is observed after a history. -/
theorem observedW {hist : List (Prog × Fate)} (hl : NoLeaks hist) (hk : ProperKeys hist) (ord : HashOrder TreeId) (ord' : HashOrder (List Str)) :
    ∃ (lines : List (Path × Nat)) (total : Nat) (ws : List Warning), observe ord ord' hist = .ok ⟨lines.flatMap renderLine, total, ws.flatMap Warning.text⟩ ∧
      (∀ p n, (p, n) ∈ lines ↔ p ≠ [] ∧ n ≠ 0 ∧ entered (records hist) p ∧ n = selfSpec (records hist) p) ∧
      ∀ p m n, ⟨p, m, n⟩ ∈ ws ↔ overfull (records hist) p ∧ m = sizeAt (records hist) p ∧ n = childrenAt (records hist) p := by
  obtain ⟨out, ws, e, hb, hs, hw, hwn, hm, -⟩ := run_spec hl hk ord
  obtain ⟨lines, total, ws0, e', hlm, -⟩ := observed hl hk ord ord'
  have e'' := e'
  simp only [observe, e, Except.ok.injEq, Obs.mk.injEq] at e'
  refine ⟨lines, total, ws.map fun p => ⟨p, sizeAt (records hist) p, childrenAt (records hist) p⟩, ?_, hlm, fun p m n => ?_⟩
  · rw [e'', ← e'.2.2, hw, List.flatMap_map]
    rfl
  · rw [← hm p]
    constructor
    · intro h
      obtain ⟨q, hq, e⟩ := List.mem_map.1 h
      cases e
      exact ⟨hq, rfl, rfl⟩
    · rintro ⟨h, rfl, rfl⟩
      exact List.mem_map.2 ⟨p, h, rfl⟩

/-- C76, for any calls.  In `whole` the calls `part` are made below the stack `q`, and no others are made below `q`; in `alone` they are made at the top, beside `others`.  Then what is
seen at the stack `q ++ p` of `whole` is seen at the stack `p` of `alone`, unless `others` enter `p` or a stack directly below it. -/
theorem C76_calls (whole alone : List (Prog × Fate)) (hl : NoLeaks whole) (hl' : NoLeaks alone) (hk : ProperKeys whole) (hk' : ProperKeys alone) (q : Path)
    (part rest others : List Rec) (hw : (records whole).Perm (rest ++ part.map (Rec.under q))) (hrest : ∀ r ∈ rest, q <+: r.path → r.path = q)
    (ha : (records alone).Perm (part ++ others)) (o1 o2 : HashOrder TreeId) (o1' o2' : HashOrder (List Str)) :
    ∃ (lines lines' : List (Path × Nat)) (ws ws' : List Warning) (total total' : Nat),
      observe o1 o1' whole = .ok ⟨lines.flatMap renderLine, total, ws.flatMap Warning.text⟩ ∧ observe o2 o2' alone = .ok ⟨lines'.flatMap renderLine, total', ws'.flatMap Warning.text⟩ ∧
      (∀ p, p ≠ [] → ¬ touches others p → SameUnder q p lines lines' ws ws') ∧
      -- `lines` and `ws` are what the outputs are made of
      (∀ p n, (p, n) ∈ lines ↔ p ≠ [] ∧ n ≠ 0 ∧ entered (records whole) p ∧ n = selfSpec (records whole) p) ∧
      (∀ p m n, ⟨p, m, n⟩ ∈ ws ↔ overfull (records whole) p ∧ m = sizeAt (records whole) p ∧ n = childrenAt (records whole) p) := by
  obtain ⟨lines, total, ws, e, h1, h2⟩ := observedW hl hk o1 o1'
  obtain ⟨lines', total', ws', e', h1', h2'⟩ := observedW hl' hk' o2 o2'
  refine ⟨lines, lines', ws, ws', total, total', e, e', fun p hp0 hp => ?_, h1, h2⟩
  have ht : ¬ touches rest (q ++ p) := by
    rintro ⟨r, hr, e | ⟨k, e⟩⟩
    · have := hrest r hr ⟨p, e.symm⟩
      rw [this] at e
      simp [hp0] at e
    · have := hrest r hr ⟨p ++ [k], by rw [e, List.append_assoc]⟩
      rw [this] at e
      simp at e
  have hw' : (records whole).Perm (part.map (Rec.under q) ++ rest) := hw.trans List.perm_append_comm
  have s1 : sizeAt (records whole) (q ++ p) = sizeAt (records alone) p := by
    rw [sizeAt_perm hw', sizeAt_perm ha, sizeAt_untouched _ ht, sizeAt_untouched _ hp, under_size]
  have s2 : childrenAt (records whole) (q ++ p) = childrenAt (records alone) p := by
    rw [childrenAt_perm hw', childrenAt_perm ha, childrenAt_untouched _ ht, childrenAt_untouched _ hp, under_children]
  have s3 : uniqueAt (records whole) (q ++ p) = uniqueAt (records alone) p := by
    rw [uniqueAt_perm hw', uniqueAt_perm ha, uniqueAt_untouched _ ht, uniqueAt_untouched _ hp, under_unique]
  have s4 : entered (records whole) (q ++ p) ↔ entered (records alone) p := by
    rw [entered_perm hw', entered_perm ha, entered_untouched _ ht, entered_untouched _ hp, under_entered]
  have hq : q ++ p ≠ [] := by simp [hp0]
  constructor
  · intro n
    rw [h1, h1', s4]
    simp only [selfSpec, remAt, s1, s2, s3, hq, hp0, ne_eq]
  · intro m n
    rw [h2, h2']
    simp only [overfull, s1, s2, s3, s4, hq, hp0, ne_eq]

theorem own_under (o : Obj) : ∀ q cur, o.own (q ++ cur) = (o.own cur).map (Rec.under q) := by
  induction o with
  | nil => intro q cur; rfl
  | inline k n e i r ih1 ih2 => intro q cur; simp [Obj.own, Rec.under, List.append_assoc, ih2, ih1 q (cur ++ [k])]
  | unique k n e i r ih1 ih2 => intro q cur; simp [Obj.own, Rec.under, List.append_assoc, ih2, ih1 q (cur ++ [k])]
  | shared k n p e r ih => intro q cur; simp [Obj.own, Rec.under, List.append_assoc, ih]

theorem report_under [Target] (d : Datum) (h : d.WF) (q : Path) : d.report q = (d.report []).map (Rec.under q) := by
  rw [← reported d h q, ← reported d h [], ← own_under, List.append_nil]

/-- C76. Among the roots are derived structs of type `S` (and no other root or shared allocation with that name); `name` is one of its fields.  In the profile of the whole, the lines
and warnings below `S;name` are those of the profile of the values of this field alone (visited as roots, with another builder), apart from what is at the top there because it is
in shared allocations. -/
theorem C76_fields [Target] (cells : Ptr → Cell) (S : Ty) (labels : List (Str × Bool)) (structs : List (Nat × List Datum)) (others : List Datum) (L L' : List Ptr)
    (hw : ∀ d ∈ structs.map (fun s => Datum.struct S s.1 labels s.2) ++ others, d.WF) (hn : L.Nodup)
    (hL : ∀ p, p ∈ L ↔ ReachableCell cells (structs.map (fun s => Datum.struct S s.1 labels s.2) ++ others) p) (hc : ∀ p ∈ L, (cells p).datum.WF)
    (hothers : ∀ d ∈ others, d.topFrame ≠ some (ty S)) (hcells : ∀ p ∈ L, (cells p).topFrame ≠ some (ty S)) (hd : (labels.map Prod.fst).Nodup)
    (i : Nat) (name : Str) (hl : labels[i]? = some (name, false)) (values : List Datum) (hv : values = structs.filterMap fun s => s.2[i]?)
    (hn' : L'.Nodup) (hL' : ∀ p, p ∈ L' ↔ ReachableCell cells values p)
    (hc' : ∀ p ∈ L', (cells p).datum.WF) (fuel fuel' : Nat) (hf : L.length ≤ fuel) (hf' : L'.length ≤ fuel') (o1 o2 : HashOrder TreeId) (o1' o2' : HashOrder (List Str)) :
    ∃ (lines lines' : List (Path × Nat)) (ws ws' : List Warning) (total total' : Nat),
      observe o1 o1' (visits (fun p => (cells p).visit) fuel ((structs.map (fun s => Datum.struct S s.1 labels s.2) ++ others).map fun d => d.value.visit)) =
        .ok ⟨lines.flatMap renderLine, total, ws.flatMap Warning.text⟩ ∧
      observe o2 o2' (visits (fun p => (cells p).visit) fuel' (values.map fun d => d.value.visit)) = .ok ⟨lines'.flatMap renderLine, total', ws'.flatMap Warning.text⟩ ∧
      (∀ p, p ≠ [] → (∀ a ∈ L', (cells a).topFrame ≠ p.head?) → SameUnder [ty S, Key.new name] p lines lines' ws ws') ∧
      ∃ recs, recs = (structs.map (fun s => Datum.struct S s.1 labels s.2) ++ others).flatMap (fun d => d.report []) ++ L.flatMap (fun p => (cells p).report) ∧
        (∀ p n, (p, n) ∈ lines ↔ p ≠ [] ∧ n ≠ 0 ∧ entered recs p ∧ n = selfSpec recs p) ∧
        (∀ p m n, ⟨p, m, n⟩ ∈ ws ↔ overfull recs p ∧ m = sizeAt recs p ∧ n = childrenAt recs p) := by
  have hsw : ∀ s ∈ structs, labels.length = s.2.length ∧ Datum.WFAll s.2 := by
    intro s hs
    have := hw _ (List.mem_append_left _ (List.mem_map.2 ⟨s, hs, rfl⟩))
    simpa only [Datum.WF] using this
  obtain ⟨rest, k1, k2, k3⟩ := structs_split S labels i name hd hl structs hsw
  rw [← hv] at k1 k3
  obtain ⟨n1, pk1, r1⟩ := values_hist cells _ hw L hn hL hc fuel hf
  obtain ⟨n2, pk2, r2⟩ := values_hist cells values k3 L' hn' hL' hc' fuel' hf'
  have hin : ∀ s : List Datum, (s.flatMap fun x => reportField (Key.new name) ⟨x.size, x.report⟩ [ty S]).Perm
      ((s.map fun x => inl [ty S, Key.new name] x.size) ++ s.flatMap fun x => x.report [ty S, Key.new name]) := by
    intro s
    induction s with
    | nil => exact List.Perm.refl _
    | cons x s ih =>
      simp only [List.flatMap_cons, List.map_cons, reportField, List.cons_append, List.nil_append]
      refine List.Perm.cons _ ((List.Perm.append_left _ ih).trans ?_)
      rw [← List.append_assoc, ← List.append_assoc]
      exact List.Perm.append_right _ List.perm_append_comm
  have hun : (values.flatMap fun x => x.report [ty S, Key.new name]) = (values.flatMap fun x => x.report []).map (Rec.under [ty S, Key.new name]) := by
    rw [List.map_flatMap]
    exact flatMap_congr' fun x hx => report_under x (k3 x hx) _
  have hk1 := k1.trans (List.Perm.append_left rest (hin values))
  rw [hun] at hk1
  have perm : ∀ a b c d e : List Rec, (a ++ (b ++ c) ++ (d ++ e)).Perm (a ++ b ++ d ++ e ++ c) := by
    intro a b c d e
    have : (c ++ (d ++ e)).Perm ((d ++ e) ++ c) := List.perm_append_comm
    simpa [List.append_assoc] using (this.append_left b).append_left a
  have r0 := r1
  rw [List.flatMap_append, List.append_assoc] at r1
  have r1 := r1.trans ((List.Perm.append_right _ hk1).trans (perm _ _ _ _ _))
  have hrest : ∀ r ∈ rest ++ (values.map fun x => inl [ty S, Key.new name] x.size) ++ (others.flatMap fun d => d.report []) ++ (L.flatMap fun p => (cells p).report),
      [ty S, Key.new name] <+: r.path → r.path = [ty S, Key.new name] := by
    have top : ∀ (r : Rec) (k : Key) (s : Path), r.path = k :: s → k ≠ ty S → ¬ [ty S, Key.new name] <+: r.path := by
      intro r k s e hk h
      rw [e] at h
      exact hk (List.cons_prefix_cons.1 h).1.symm
    intro r hr hq
    simp only [List.mem_append] at hr
    rcases hr with ((hr | hr) | hr) | hr
    · exact absurd hq (k2 r hr)
    · obtain ⟨x, -, rfl⟩ := List.mem_map.1 hr
      rfl
    · obtain ⟨d, hd, hrd⟩ := List.mem_flatMap.1 hr
      obtain ⟨k, s, h1, h2⟩ := report_top d (hw d (List.mem_append_right _ hd)) [] r hrd
      exact absurd hq (top r k s (by simpa using h2) fun e => hothers d hd (by rw [h1, e]))
    · obtain ⟨a, ha, hra⟩ := List.mem_flatMap.1 hr
      obtain ⟨k, s, h1, h2⟩ := Cell.report_top _ (hc a ha) r hra
      exact absurd hq (top r k s h2 fun e => hcells a ha (by rw [h1, e]))
  obtain ⟨lines, lines', ws, ws', total, total', e, e', same, m1, m2⟩ := C76_calls _ _ n1 n2 pk1 pk2 _ _ _ _ r1 hrest r2 o1 o2 o1' o2'
  refine ⟨lines, lines', ws, ws', total, total', e, e', fun p hp0 hp => same p hp0 fun ht => ?_, _, rfl, fun p n => ?_, fun p m n => ?_⟩
  · obtain ⟨r, hr, e⟩ := touches_top hp0 ht
    obtain ⟨a, ha, hra⟩ := List.mem_flatMap.1 hr
    obtain ⟨k, s, h1, h2⟩ := Cell.report_top _ (hc' a ha) r hra
    exact hp a ha (by rw [h1, ← e, h2]; rfl)
  · rw [m1, entered_perm r0]; simp only [selfSpec, remAt, sizeAt_perm r0, childrenAt_perm r0, uniqueAt_perm r0]
  · rw [m2]; simp only [overfull, sizeAt_perm r0, childrenAt_perm r0, uniqueAt_perm r0, entered_perm r0]

namespace NestedExamples
open ReproducibleExamples LocalExamples

/-- A derived struct with a vector and an `Arc`, and a number beside it. -/
def S : Ty := ⟨ascii "Node", 32, true⟩
def labels : List (Str × Bool) := [(ascii "items", false), (ascii "next", false)]
def node : Datum := .struct S 32 labels [vector, arc 7]

theorem reach_whole (p : Ptr) : p ∈ [7] ↔ ReachableCell (cells false) ([node] ++ [byte 3]) p := by
  constructor
  · intro hp
    obtain rfl := List.mem_singleton.1 hp
    exact .root (d := node) (by simp) (by decide)
  · intro hp
    induction hp with
    | root hd hp =>
      simp only [List.cons_append, List.nil_append, List.mem_cons, List.not_mem_nil, or_false] at hd
      rcases hd with rfl | rfl
      · simpa [node, labels, vector, arc, byte, Datum.pointers, pointersDerived, pointersElements, Datum.pointersEach] using hp
      · simp [byte, Datum.pointers] at hp
    | step _ hp _ => simp [cells, ReproducibleExamples.set, byte, Cell.datum, Datum.pointers, Datum.pointersEach] at hp

theorem reach_part (p : Ptr) : p ∈ [] ↔ ReachableCell (cells false) [vector] p := by
  constructor
  · intro hp; exact nomatch hp
  · intro hp
    induction hp with
    | root hd hp =>
      simp only [List.mem_cons, List.not_mem_nil, or_false] at hd
      subst hd
      simp [vector, byte, Datum.pointers, pointersElements] at hp
    | step _ hp _ => simp [cells, ReproducibleExamples.set, byte, Cell.datum, Datum.pointers, Datum.pointersEach] at hp

attribute [local instance] Target.x64 in
example (o1 o2 : HashOrder TreeId) (o1' o2' : HashOrder (List Str)) := C76_fields (cells false) S labels [(32, [vector, arc 7])] [byte 3] [7] []
  (by intro d hd; simp at hd
      rcases hd with rfl | rfl <;> simp [labels, arc, byte, vector, Datum.WF, Datum.WFAll, Datum.AllOf, Datum.size, Datum.value, Impl.plain, Impl.sized])
  (by decide) reach_whole (fun p _ => cells_wf p) (by intro d hd; simp at hd; subst hd; decide +kernel) (by intro p hp; simp at hp; subst hp; decide +kernel) (by decide +kernel)
  0 (ascii "items") rfl [vector] rfl (by decide) reach_part (by intro p hp; exact nomatch hp) 1 0 (by decide) (by decide) o1 o2 o1' o2'

/-- Calls below a stack, and at the top beside another one. -/
example (o1 o2 : HashOrder TreeId) (o1' o2' : HashOrder (List Str)) := C76_calls
  [(.enter (Ex.k "S") 9 .exit (.enter (Ex.k "f") 6 .exit (.enter (Ex.k "a") 5 .exit (.enter (Ex.k "b") 7 .exit .done .done) .done) .done) (.enter (Ex.k "c") 1 .drop .done .done), .exit)]
  [(.enter (Ex.k "a") 5 .exit (.enter (Ex.k "b") 7 .exit .done .done) (.enter (Ex.k "d") 1 .drop .done .done), .exit)]
  (by decide) (by decide) (by simp [ProperKeys, Ex.k, Prog.KeysAre, Key.Proper, Key.new, Key.newUnchecked])
  (by simp [ProperKeys, Ex.k, Prog.KeysAre, Key.Proper, Key.new, Key.newUnchecked]) [Ex.k "S", Ex.k "f"]
  [⟨[Ex.k "a"], 5, false⟩, ⟨[Ex.k "a", Ex.k "b"], 7, false⟩] [⟨[Ex.k "S"], 9, false⟩, ⟨[Ex.k "S", Ex.k "f"], 6, false⟩, ⟨[Ex.k "c"], 1, false⟩] [⟨[Ex.k "d"], 1, false⟩]
  (by decide) (by decide) (by decide) o1 o2 o1' o2'

end NestedExamples

end Allocative
