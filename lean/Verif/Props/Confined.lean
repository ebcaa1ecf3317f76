import Verif.Spec.Confined
import Verif.Props.Live
import Verif.Props.Local
set_option linter.unusedSimpArgs false
/-
C82: what other threads do shows only at and below locks.
-/
namespace Allocative

/-- Nothing at the places. -/
def bareG (g : Ptr → Option Obj) : Ptr → Option Obj := fun p => (g p).map fun _ => .nil

theorem own_nowhere (o : Obj) : ∀ cur, (o.fill nowhere).own cur = o.own cur := by
  induction o with
  | nil => intro cur; rfl
  | inline k n e i r h1 h2 => intro cur; simp only [Obj.fill, Obj.own, h1, h2]
  | unique k n e i r h1 h2 => intro cur; simp only [Obj.fill, Obj.own, h1, h2]
  | shared k n p e r h => intro cur; simp only [Obj.fill, Obj.own, h]

theorem ptrs_nowhere (o : Obj) : (o.fill nowhere).ptrs = o.ptrs := by
  induction o with
  | nil => rfl
  | inline k n e i r h1 h2 => simp only [Obj.fill, Obj.ptrs, h1, h2]
  | unique k n e i r h1 h2 => simp only [Obj.fill, Obj.ptrs, h1, h2]
  | shared k n p e r h => simp only [Obj.fill, Obj.ptrs, h]

theorem ptrs_append_live (a b : Obj) : (a.append b).ptrs = a.ptrs ++ b.ptrs := by
  induction a with
  | nil => rfl
  | inline k n e i r _ ih => simp [Obj.append, Obj.ptrs, ih]
  | unique k n e i r _ ih => simp [Obj.append, Obj.ptrs, ih]
  | shared k n p e r ih => simp [Obj.append, Obj.ptrs, ih]

theorem ptrs_bare (g : Ptr → Option Obj) (o : Obj) : ∀ p ∈ (o.fill (bareG g)).ptrs, p ∈ (o.fill g).ptrs := by
  induction o with
  | nil => exact fun _ h => h
  | inline k n e i r h1 h2 =>
    intro p hp
    simp only [Obj.fill, Obj.ptrs, List.mem_append] at hp ⊢
    exact hp.imp (h1 p) (h2 p)
  | unique k n e i r h1 h2 =>
    intro p hp
    simp only [Obj.fill, Obj.ptrs, List.mem_append] at hp ⊢
    exact hp.imp (h1 p) (h2 p)
  | shared k n q e r h =>
    intro p hp
    cases hg : g q with
    | none =>
      simp only [Obj.fill, bareG, hg, Option.map_none, Obj.ptrs, List.mem_cons] at hp ⊢
      exact hp.imp id (h p)
    | some o =>
      simp only [Obj.fill, bareG, hg, Option.map_some, Obj.append] at hp ⊢
      rw [ptrs_append_live]
      exact List.mem_append_right _ (h p hp)

theorem own_dropLast (o : Obj) : ∀ cur, ∀ r ∈ o.own cur, cur <+: r.path.dropLast := by
  induction o with
  | nil => intro cur r hr; simp [Obj.own] at hr
  | inline k n e i r h1 h2 =>
    intro cur x hx
    simp only [Obj.own, List.cons_append, List.mem_cons, List.mem_append] at hx
    rcases hx with rfl | hx | hx
    · simp
    · exact (List.prefix_append cur [k]).trans (h1 _ x hx)
    · exact h2 cur x hx
  | unique k n e i r h1 h2 =>
    intro cur x hx
    simp only [Obj.own, List.cons_append, List.mem_cons, List.mem_append] at hx
    rcases hx with rfl | hx | hx
    · simp
    · exact (List.prefix_append cur [k]).trans (h1 _ x hx)
    · exact h2 cur x hx
  | shared k n p e r h =>
    intro cur x hx
    simp only [Obj.own, List.mem_cons] at hx
    rcases hx with rfl | hx
    · simp
    · exact h cur x hx

theorem perm_shuffle {α : Type} (a b c d : List α) : (a ++ b ++ (c ++ d)).Perm (a ++ c ++ (b ++ d)) := by
  have : (b ++ c).Perm (c ++ b) := List.perm_append_comm
  simpa [List.append_assoc] using (this.append_right d).append_left a

/-- What is at the places adds records below the stacks of the places, and changes nothing else. -/
theorem own_fill (g : Ptr → Option Obj) (o : Obj) : ∀ cur, ∃ x, ((o.fill g).own cur).Perm ((o.fill (bareG g)).own cur ++ x) ∧
    ∀ r ∈ x, ∃ q ∈ o.placesAt (fun p => (g p).isSome) cur, q <+: r.path.dropLast := by
  induction o with
  | nil => intro cur; exact ⟨[], .refl _, fun r hr => nomatch hr⟩
  | inline k n e i r h1 h2 =>
    intro cur
    obtain ⟨x, p1, q1⟩ := h1 (cur ++ [k])
    obtain ⟨y, p2, q2⟩ := h2 cur
    refine ⟨x ++ y, ?_, fun r hr => ?_⟩
    · simp only [Obj.fill, Obj.own, List.cons_append]
      exact .cons _ ((p1.append p2).trans (perm_shuffle _ _ _ _))
    · simp only [Obj.placesAt]
      rcases List.mem_append.1 hr with hr | hr
      · obtain ⟨q, hq, hp⟩ := q1 r hr
        exact ⟨q, List.mem_append_left _ hq, hp⟩
      · obtain ⟨q, hq, hp⟩ := q2 r hr
        exact ⟨q, List.mem_append_right _ hq, hp⟩
  | unique k n e i r h1 h2 =>
    intro cur
    obtain ⟨x, p1, q1⟩ := h1 (cur ++ [k])
    obtain ⟨y, p2, q2⟩ := h2 cur
    refine ⟨x ++ y, ?_, fun r hr => ?_⟩
    · simp only [Obj.fill, Obj.own, List.cons_append]
      exact .cons _ ((p1.append p2).trans (perm_shuffle _ _ _ _))
    · simp only [Obj.placesAt]
      rcases List.mem_append.1 hr with hr | hr
      · obtain ⟨q, hq, hp⟩ := q1 r hr
        exact ⟨q, List.mem_append_left _ hq, hp⟩
      · obtain ⟨q, hq, hp⟩ := q2 r hr
        exact ⟨q, List.mem_append_right _ hq, hp⟩
  | shared k n p e r h =>
    intro cur
    obtain ⟨y, p2, q2⟩ := h cur
    cases hg : g p with
    | none =>
      refine ⟨y, ?_, fun r hr => ?_⟩
      · simp only [Obj.fill, bareG, hg, Option.map_none, Obj.own, List.cons_append]
        exact .cons _ p2
      · obtain ⟨q, hq, hp⟩ := q2 r hr
        exact ⟨q, by simp only [Obj.placesAt]; exact List.mem_append_right _ hq, hp⟩
    | some o =>
      refine ⟨o.own cur ++ y, ?_, fun r hr => ?_⟩
      · simp only [Obj.fill, bareG, hg, Option.map_some, Obj.append, own_append]
        refine (p2.append_left _).trans ?_
        rw [← List.append_assoc, ← List.append_assoc]
        exact List.perm_append_comm.append_right _
      · simp only [Obj.placesAt, hg, Option.isSome_some, if_true]
        rcases List.mem_append.1 hr with hr | hr
        · exact ⟨cur, by simp, own_dropLast o cur r hr⟩
        · obtain ⟨q, hq, hp⟩ := q2 r hr
          exact ⟨q, List.mem_append_right _ hq, hp⟩

/-- What can be seen of a value, and the value without what is in its locks, as two ways to fill the same shape. -/
theorem sees_fills [Target] {L : Looks} {v : LiveDatum} {d : Datum} (h : v.Sees L d) : ∃ g : Ptr → Option Obj, (∀ p, (g p).isSome = v.isPlace p) ∧
    d.value.fill nowhere = v.shape.value.fill g ∧ v.bare.value.fill nowhere = v.shape.value.fill (bareG g) := by
  cases h with
  | still d => exact ⟨nowhere, fun _ => rfl, rfl, rfl⟩
  | live shape kind addr content granted x d m y =>
    refine ⟨_, ?_, fill_value (coherent_seen kind granted d m) shape, ?_⟩
    · intro p
      simp only [LiveDatum.isPlace]
      cases kind p <;> rfl
    · refine fill_value ?_ shape
      intro p
      simp only [bareG]
      cases kind p with
      | none => trivial
      | some k => exact fun self => rfl

theorem bare_WF [Target] {S : Ptr → Prop} {v : LiveDatum} (h : v.OK S) : v.bare.WF := by
  cases v with
  | still d => exact h
  | live shape kind addr content =>
    refine fill_WF (g := fun p => (kind p).map fun _ => .nil) ?_ ?_ shape h.1
    · intro p
      dsimp only
      cases kind p with
      | none => trivial
      | some k => exact fun self => rfl
    · intro p k hk self
      cases hkd : kind p with
      | none => simp [hkd] at hk
      | some k' =>
        simp only [hkd, Option.map_some, Option.some.injEq] at hk
        subst hk
        trivial

theorem bare_report [Target] {S : Ptr → Prop} {L : Looks} {v : LiveDatum} {d : Datum} (h : v.Sees L d) (hv : v.OK S) :
    ∃ x, (d.report []).Perm (v.bare.report [] ++ x) ∧ ∀ r ∈ x, ∃ q ∈ v.lockStacks, q <+: r.path.dropLast := by
  obtain ⟨g, hg, e1, e2⟩ := sees_fills h
  obtain ⟨x, hp, hx⟩ := own_fill g v.shape.value.visit []
  refine ⟨x, ?_, ?_⟩
  · rw [← reported d (sees_WF h hv) [], ← reported v.bare (bare_WF hv) [], ← own_nowhere d.value.visit, ← own_nowhere v.bare.value.visit]
    rw [visit_of_fill e1, visit_of_fill e2]
    exact hp
  · rw [show (fun p => (g p).isSome) = v.isPlace from funext hg] at hx
    exact hx

theorem bare_pointers [Target] {S : Ptr → Prop} {L : Looks} {v : LiveDatum} {d : Datum} (h : v.Sees L d) (hv : v.OK S) : ∀ p ∈ v.bare.pointers, p ∈ d.pointers := by
  obtain ⟨g, hg, e1, e2⟩ := sees_fills h
  intro p hp
  have h1 : d.value.visit.ptrs = d.pointers := pointed d (sees_WF h hv)
  have h2 : v.bare.value.visit.ptrs = v.bare.pointers := pointed _ (bare_WF hv)
  rw [← h2, ← ptrs_nowhere, visit_of_fill e2] at hp
  rw [← h1, ← ptrs_nowhere, visit_of_fill e1]
  exact ptrs_bare g _ p hp

theorem with_datum (c : Cell) (d : Datum) : (c.with d).datum = d := by cases c <;> rfl

theorem bare_cell [Target] {S : Ptr → Prop} {L : Looks} {c : LiveCell} {c' : Cell} (h : c.Sees L c') (hv : c.value.OK S) :
    ∃ x, c'.report.Perm (c.bare.report ++ x) ∧ ∀ r ∈ x, ∃ q ∈ c.lockStacks, q <+: r.path.dropLast := by
  obtain ⟨g, hg, e1, e2⟩ := sees_fills h.1
  obtain ⟨x, hp, hx⟩ := own_fill g (c.frame.with c.value.shape).visit []
  refine ⟨x, ?_, ?_⟩
  · have w1 := with_fill c.frame e1
    have w2 := with_fill c.frame e2
    rw [w1, w2, own_nowhere, own_nowhere, ← sameFrame_with h.2 rfl] at hp
    rw [← cell_report c' (sees_WF h.1 hv), ← cell_report c.bare (by unfold LiveCell.bare; rw [with_datum]; exact bare_WF hv)]
    exact hp
  · rw [show (fun p => (g p).isSome) = c.value.isPlace from funext hg] at hx
    exact hx

theorem bare_roots [Target] {S : Ptr → Prop} {L : Looks} {roots : List LiveDatum} {ds : List Datum} (h : LiveDatum.SeesEach L roots ds) : (∀ v ∈ roots, v.OK S) →
    ∃ x, (ds.flatMap fun d => d.report []).Perm ((roots.map LiveDatum.bare).flatMap (fun d => d.report []) ++ x) ∧ ∀ r ∈ x, ∃ v ∈ roots, ∃ q ∈ v.lockStacks, q <+: r.path.dropLast := by
  induction h with
  | nil => intro _; exact ⟨[], .refl _, fun r hr => nomatch hr⟩
  | cons hv _ ih =>
    intro hok
    obtain ⟨x, p1, h1⟩ := bare_report hv (hok _ (by simp))
    obtain ⟨y, p2, h2⟩ := ih fun v hv => hok v (by simp [hv])
    refine ⟨x ++ y, ?_, fun r hr => ?_⟩
    · simp only [List.flatMap_cons, List.map_cons]
      exact (p1.append p2).trans (perm_shuffle _ _ _ _)
    · rcases List.mem_append.1 hr with hr | hr
      · exact ⟨_, List.mem_cons_self, h1 r hr⟩
      · obtain ⟨v, hv, h⟩ := h2 r hr
        exact ⟨v, List.mem_cons_of_mem _ hv, h⟩

theorem bare_cells [Target] {S : Ptr → Prop} {L : Looks} {H : Ptr → LiveCell} {cells : Ptr → Cell} (h : ∀ p, (H p).Sees L (cells p)) (hok : ∀ p, (H p).value.OK S) (l : List Ptr) :
    ∃ x, (l.flatMap fun p => (cells p).report).Perm (l.flatMap (fun p => (H p).bare.report) ++ x) ∧ ∀ r ∈ x, ∃ a ∈ l, ∃ q ∈ (H a).lockStacks, q <+: r.path.dropLast := by
  induction l with
  | nil => exact ⟨[], .refl _, fun r hr => nomatch hr⟩
  | cons a l ih =>
    obtain ⟨x, p1, h1⟩ := bare_cell (h a) (hok a)
    obtain ⟨y, p2, h2⟩ := ih
    refine ⟨x ++ y, ?_, fun r hr => ?_⟩
    · simp only [List.flatMap_cons]
      exact (p1.append p2).trans (perm_shuffle _ _ _ _)
    · rcases List.mem_append.1 hr with hr | hr
      · exact ⟨_, List.mem_cons_self, h1 r hr⟩
      · obtain ⟨v, hv, h⟩ := h2 r hr
        exact ⟨v, List.mem_cons_of_mem _ hv, h⟩

theorem filter_partition {α : Type} (P : α → Bool) (l : List α) : l.Perm (l.filter P ++ l.filter fun a => !P a) := by
  induction l with
  | nil => exact .refl _
  | cons a l ih =>
    cases h : P a with
    | true => simp only [List.filter_cons, h, if_true, Bool.not_true, Bool.false_eq_true, if_false, List.cons_append]; exact .cons _ ih
    | false =>
      simp only [List.filter_cons, h, if_true, Bool.not_false, Bool.false_eq_true, if_false]
      exact (List.Perm.cons a ih).trans List.perm_middle.symm

/-- A record that is added below a stack `q` touches only `q` and stacks below `q`. -/
theorem touches_below {x : List Rec} {Q : Path → Prop} (h : ∀ r ∈ x, ∃ q, Q q ∧ q <+: r.path.dropLast) {p : Path} (ht : touches x p) : ∃ q, Q q ∧ q <+: p := by
  obtain ⟨r, hr, e⟩ := ht
  obtain ⟨q, hq, hp⟩ := h r hr
  refine ⟨q, hq, ?_⟩
  rcases e with e | ⟨k, e⟩
  · rw [e] at hp; exact hp.trans (List.dropLast_prefix p)
  · rw [e, List.dropLast_concat] at hp; exact hp

theorem touches_append {x y : List Rec} {p : Path} (h : touches (x ++ y) p) : touches x p ∨ touches y p := by
  obtain ⟨r, hr, e⟩ := h
  rcases List.mem_append.1 hr with hr | hr
  · exact .inl ⟨r, hr, e⟩
  · exact .inr ⟨r, hr, e⟩

/-- The records of the profile of live data are those of the bare data, and others that only show where things may vary. -/
theorem confined_core [Target] (S : Ptr → Prop) (env : Env) (he : env.Respectful) (H : Ptr → LiveCell) (hcells : ∀ p, (H p).value.OK S) (roots : List LiveDatum)
    (hroots : ∀ v ∈ roots, v.OK S) (st : Store) (n : Nat) (hS : env.LetsGo S st n) (L : List Ptr) (hn : L.Nodup) (hL : ∀ p, MayReach (env.looks (OneOwner H roots) st n) H roots p → p ∈ L) (fuel : Nat) (hf : L.length ≤ fuel)
    (ord : HashOrder TreeId) :
    ∃ b st' n' out, Builder.default.useRootsL env (liveVisits H fuel roots) st n = .ended b st' n' .returned ∧ b.finish ord = .ok out ∧
      ∃ (hist : List (Prog × Fate)) (paths : List Path) (steady : List Ptr) (x : List Rec), NoLeaks hist ∧ ProperKeys hist ∧
        (∀ ord', observe ord ord' hist = .ok ⟨out.flamegraph.write ord', out.flamegraph.totalSize, out.warnings⟩) ∧ Idle b (records hist) paths ∧
        steady.Nodup ∧ (∀ p, p ∈ steady ↔ ReachedAnyway H roots p) ∧
        (records hist).Perm ((roots.flatMap fun v => v.bare.report []) ++ steady.flatMap (fun p => (H p).bare.report) ++ x) ∧
        (∀ p, p ≠ [] → touches x p → MayVary (env.looks (OneOwner H roots) st n) H roots p) ∧
        NoLeaks (visits (fun p => (H p).bare.visit) fuel (roots.map fun v => v.bare.value.visit)) ∧ ProperKeys (visits (fun p => (H p).bare.visit) fuel (roots.map fun v => v.bare.value.visit)) ∧
        (records (visits (fun p => (H p).bare.visit) fuel (roots.map fun v => v.bare.value.visit))).Perm ((roots.flatMap fun v => v.bare.report []) ++ steady.flatMap (fun p => (H p).bare.report)) := by
  obtain ⟨b, st', n', out, hrun, -, -, hfin, ds, cells, reached, hds, hcs, hrn, hrm, hrL, hrl, hdsWF, hcWF, hobs, paths, hi⟩ := live_core_idle env he H hcells roots hroots st n hS L hn hL fuel hf ord
  have hbw : ∀ p, (H p).bare.datum.WF := fun p => by unfold LiveCell.bare; rw [with_datum]; exact bare_WF (hcells p)
  have hrw : ∀ d ∈ roots.map LiveDatum.bare, d.WF := by
    intro d hd
    obtain ⟨v, hv, rfl⟩ := List.mem_map.1 hd
    exact bare_WF (hroots v hv)
  have hpair : ∀ {vs : List LiveDatum} {es : List Datum}, LiveDatum.SeesEach (env.looks (OneOwner H roots) st n) vs es → ∀ v ∈ vs, ∃ d ∈ es, v.Sees (env.looks (OneOwner H roots) st n) d := by
    intro vs es h
    induction h with
    | nil => intro v hv; cases hv
    | cons h _ ih =>
      intro v hv
      rcases List.mem_cons.1 hv with rfl | hv
      · exact ⟨_, List.mem_cons_self, h⟩
      · obtain ⟨d, hd, hs⟩ := ih v hv
        exact ⟨d, List.mem_cons_of_mem _ hd, hs⟩
  -- what can be reached anyway is reached
  have hany : ∀ p, ReachedAnyway H roots p → ReachableCell cells ds p := by
    intro p hp
    induction hp with
    | root hd hp =>
      obtain ⟨v, hv, rfl⟩ := List.mem_map.1 hd
      obtain ⟨d, hd, hs⟩ := hpair hds v hv
      exact .root hd (bare_pointers hs (hroots v hv) _ hp)
    | step _ hp ih =>
      unfold LiveCell.bare at hp
      rw [with_datum] at hp
      exact .step ih (bare_pointers (hcs _).1 (hcells _) _ hp)
  have hmay : ∀ p, ReachableCell cells ds p → MayReach (env.looks (OneOwner H roots) st n) H roots p := by
    intro p hp
    induction hp with
    | root hd hp =>
      obtain ⟨v, hv, hsd⟩ := seesEach_mem hds _ hd
      exact .root hv hsd hp
    | step _ hp ih =>
      rename_i q p _
      exact .step ih (hcs q).1 hp
  obtain ⟨P, hP⟩ : ∃ P : Ptr → Bool, ∀ p, P p = true ↔ ReachedAnyway H roots p := by
    classical
    exact ⟨fun p => decide (ReachedAnyway H roots p), fun p => decide_eq_true_iff⟩
  have hsm : ∀ p, p ∈ reached.filter P ↔ ReachedAnyway H roots p := by
    intro p
    rw [List.mem_filter, hP]
    exact ⟨fun h => h.2, fun h => ⟨(hrm p).2 (hany p h), h⟩⟩
  obtain ⟨hl, hk, hp⟩ := values_hist cells ds hdsWF reached hrn hrm (fun p _ => hcWF p) fuel hrl
  obtain ⟨hl', hk', hp'⟩ := values_hist (fun p => (H p).bare) (roots.map LiveDatum.bare) hrw (reached.filter P) (hrn.filter _) hsm (fun p _ => hbw p) fuel
    (Nat.le_trans (List.length_filter_le _ _) hrl)
  obtain ⟨x, px, hx⟩ := bare_roots hds hroots
  obtain ⟨y, py, hy⟩ := bare_cells hcs hcells (reached.filter P)
  have perm1 : (records (visits (fun p => (cells p).visit) fuel (ds.map fun d => d.value.visit))).Perm
      ((roots.map LiveDatum.bare).flatMap (fun d => d.report []) ++ (reached.filter P).flatMap (fun p => (H p).bare.report) ++ (x ++ y ++ (reached.filter fun p => !P p).flatMap fun p => (cells p).report)) := by
    refine hp.trans ?_
    have h1 : (reached.flatMap fun p => (cells p).report).Perm ((reached.filter P).flatMap (fun p => (cells p).report) ++ (reached.filter fun p => !P p).flatMap fun p => (cells p).report) := by
      rw [← List.flatMap_append]
      exact (filter_partition P reached).flatMap_right _
    refine (px.append (h1.trans (py.append_right _))).trans ?_
    rw [List.append_assoc (List.flatMap _ (reached.filter P)) y]
    refine (perm_shuffle _ _ _ _).trans ?_
    rw [← List.append_assoc x]
  have hvis : (roots.map LiveDatum.bare).map (fun d => d.value.visit) = roots.map fun v => v.bare.value.visit := by rw [List.map_map]; rfl
  have hrep : (roots.map LiveDatum.bare).flatMap (fun d => d.report []) = roots.flatMap fun v => v.bare.report [] := by rw [List.flatMap_map]
  rw [hvis] at hl' hk' hp'
  rw [hrep] at hp' perm1
  refine ⟨b, st', n', out, hrun, hfin, _, paths, reached.filter P, _, hl, hk, hobs, hi, hrn.filter _, hsm, perm1, fun p hp0 ht => ?_, hl', hk', hp'⟩
  rcases touches_append ht with ht | ht
  · rcases touches_append ht with ht | ht
    · obtain ⟨q, ⟨v, hv, hq⟩, h⟩ := touches_below (Q := fun q => ∃ v ∈ roots, q ∈ v.lockStacks) (fun r hr => by obtain ⟨v, hv, q, hq, h⟩ := hx r hr; exact ⟨q, ⟨v, hv, hq⟩, h⟩) ht
      exact .inl ⟨v, hv, q, hq, h⟩
    · obtain ⟨q, ⟨a, ha, hq⟩, h⟩ := touches_below (Q := fun q => ∃ a ∈ reached.filter P, q ∈ (H a).lockStacks) (fun r hr => by obtain ⟨v, hv, q, hq, h⟩ := hy r hr; exact ⟨q, ⟨v, hv, hq⟩, h⟩) ht
      exact .inr (.inl ⟨a, (hsm a).1 ha, q, hq, h⟩)
  · obtain ⟨r, hr, e⟩ := touches_top hp0 ht
    obtain ⟨a, ha, hr⟩ := List.mem_flatMap.1 hr
    obtain ⟨ha, hna⟩ := List.mem_filter.1 ha
    refine .inr (.inr ⟨a, cells a, hmay a ((hrm a).1 ha), fun h => ?_, hcs a, r, hr, e⟩)
    rw [(hP a).2 h] at hna
    cases hna

/-- C82. Roots with locks, cells, weak pointers and `DashMap`s in them and in what they share, which other threads change meanwhile, as in C61.  Compare the profile with that of the same data without anything that is in
a lock, cell, weak pointer or `DashMap` (`bare`, which does not depend on other threads): every stack looks the same in both, except those of locks and below, and those of shared allocations that can be
reached only through a lock. -/
theorem C82_confined [Target] (S : Ptr → Prop) (env : Env) (he : env.Respectful) (H : Ptr → LiveCell) (hcells : ∀ p, (H p).value.OK S) (roots : List LiveDatum)
    (hroots : ∀ v ∈ roots, v.OK S) (st : Store) (n : Nat) (hS : env.LetsGo S st n) (L : List Ptr) (hn : L.Nodup) (hL : ∀ p, MayReach (env.looks (OneOwner H roots) st n) H roots p → p ∈ L) (fuel : Nat) (hf : L.length ≤ fuel)
    (ord ord2 : HashOrder TreeId) (ord' ord2' : HashOrder (List Str)) :
    ∃ b st' n' out, Builder.default.useRootsL env (liveVisits H fuel roots) st n = .ended b st' n' .returned ∧ b.finish ord = .ok out ∧
      ∃ (lines lines' : List (Path × Nat)) (ws ws' : List (Path × Str)) (total' : Nat) (steady : List Ptr) (recs : List Rec),
        out.flamegraph.write ord' = lines.flatMap renderLine ∧ out.warnings = ws.flatMap Prod.snd ∧
        observe ord2 ord2' (visits (fun p => (H p).bare.visit) fuel (roots.map fun v => v.bare.value.visit)) = .ok ⟨lines'.flatMap renderLine, total', ws'.flatMap Prod.snd⟩ ∧
        (∀ p, p ≠ [] → ¬ MayVary (env.looks (OneOwner H roots) st n) H roots p → SameAt p lines lines' ws ws') ∧
        -- `lines'` and `ws'` are what is documented for the bare data
        steady.Nodup ∧ (∀ p, p ∈ steady ↔ ReachedAnyway H roots p) ∧ recs = (roots.flatMap fun v => v.bare.report []) ++ steady.flatMap (fun p => (H p).bare.report) ∧
        (∀ p n, (p, n) ∈ lines' ↔ p ≠ [] ∧ n ≠ 0 ∧ entered recs p ∧ n = selfSpec recs p) ∧ (∀ p t, (p, t) ∈ ws' ↔ overfull recs p ∧ t = renderWarning recs p) := by
  obtain ⟨b, st', n', out, hrun, hfin, hist, paths, steady, x, hl, hk, hobs, -, hsn, hsm, hp, hx, hl', hk', hp'⟩ := confined_core S env he H hcells roots hroots st n hS L hn hL fuel hf ord
  obtain ⟨lines', lines, ws', ws, total', total, e', e, same, m1, m2⟩ := C75_local _ _ hl' hl hk' hk _ [] _ (by rw [List.append_nil]; exact hp') hp ord2 ord ord2' ord'
  rw [hobs ord'] at e
  simp only [Except.ok.injEq, Obs.mk.injEq] at e
  refine ⟨b, st', n', out, hrun, hfin, lines, lines', ws, ws', total', steady, _, e.1, e.2.2, e', fun p hp0 hv => ?_, hsn, hsm, rfl, fun p n => ?_, fun p t => ?_⟩
  · have := same p (fun ⟨r, hr, _⟩ => nomatch hr) fun ht => hv (hx p hp0 ht)
    exact ⟨fun n => (this.1 n).symm, fun t => (this.2 t).symm⟩
  · rw [m1, entered_perm hp']; simp only [selfSpec, remAt, sizeAt_perm hp', childrenAt_perm hp', uniqueAt_perm hp']
  · rw [m2]; simp only [overfull, renderWarning, sizeAt_perm hp', childrenAt_perm hp', uniqueAt_perm hp', entered_perm hp']

/-- C82, for the nodes of the flame graph: at every stack that may not vary there is a node exactly if the bare data have one, with the self size that the bare data have there, whatever other threads do. -/
theorem C82_sizes [Target] (S : Ptr → Prop) (env : Env) (he : env.Respectful) (H : Ptr → LiveCell) (hcells : ∀ p, (H p).value.OK S) (roots : List LiveDatum)
    (hroots : ∀ v ∈ roots, v.OK S) (st : Store) (n : Nat) (hS : env.LetsGo S st n) (L : List Ptr) (hn : L.Nodup) (hL : ∀ p, MayReach (env.looks (OneOwner H roots) st n) H roots p → p ∈ L) (fuel : Nat) (hf : L.length ≤ fuel)
    (ord : HashOrder TreeId) :
    ∃ b st' n' out, Builder.default.useRootsL env (liveVisits H fuel roots) st n = .ended b st' n' .returned ∧ b.finish ord = .ok out ∧
      ∃ (steady : List Ptr) (recs : List Rec), steady.Nodup ∧ (∀ p, p ∈ steady ↔ ReachedAnyway H roots p) ∧
        recs = (roots.flatMap fun v => v.bare.report []) ++ steady.flatMap (fun p => (H p).bare.report) ∧
        ∀ p, p ≠ [] → ¬ MayVary (env.looks (OneOwner H roots) st n) H roots p →
          (entered recs p → out.flamegraph.selfAt p = some (selfSpec recs p)) ∧ (¬ entered recs p → out.flamegraph.selfAt p = none) := by
  obtain ⟨b, st', n', out, hrun, hfin, hist, paths, steady, x, hl, hk, hobs, hi, hsn, hsm, hp, hx, -⟩ := confined_core S env he H hcells roots hroots st n hS L hn hL fuel hf ord
  refine ⟨b, st', n', out, hrun, hfin, steady, _, hsn, hsm, rfl, fun p hp0 hv => ?_⟩
  have hpx : ¬ touches x p := fun h => hv (hx p hp0 h)
  obtain ⟨fg, ws, e, -, h1, -⟩ := hi.finish ord (fun _ => True) (fun _ _ _ _ => trivial)
  rw [hfin] at e
  cases e
  have hm : p ∈ paths ↔ entered (roots.flatMap (fun v => v.bare.report []) ++ steady.flatMap (fun p => (H p).bare.report)) p := by
    rw [hi.rep.mem, entered_perm hp, entered_untouched _ hpx]
    exact ⟨fun h => h.resolve_left hp0, .inr⟩
  have hs : selfSpec (records hist) p = selfSpec (roots.flatMap (fun v => v.bare.report []) ++ steady.flatMap (fun p => (H p).bare.report)) p := by
    simp only [selfSpec, remAt, sizeAt_perm hp, childrenAt_perm hp, uniqueAt_perm hp, sizeAt_untouched _ hpx, childrenAt_untouched _ hpx, uniqueAt_untouched _ hpx]
  constructor
  · intro h
    show fg.selfAt p = _
    rw [h1, if_pos (hm.2 h), hs]
  · intro h
    show fg.selfAt p = _
    rw [h1, if_neg fun h' => h (hm.1 h')]

/-- C82, for two profiles of the same data, among other threads that do different things (`env`, `env'`), beginning in different states: at every stack that varies in neither, both flame graphs have a node with the same self size, or both have none. -/
theorem C82_two_profiles [Target] (S S' : Ptr → Prop) (env env' : Env) (he : env.Respectful) (he' : env'.Respectful) (H : Ptr → LiveCell) (hcells : ∀ p, (H p).value.OK S) (hcells' : ∀ p, (H p).value.OK S') (roots : List LiveDatum)
    (hroots : ∀ v ∈ roots, v.OK S) (hroots' : ∀ v ∈ roots, v.OK S') (st st' : Store) (n n' : Nat) (hS : env.LetsGo S st n) (hS' : env'.LetsGo S' st' n') (L L' : List Ptr) (hn : L.Nodup) (hn' : L'.Nodup)
    (hL : ∀ p, MayReach (env.looks (OneOwner H roots) st n) H roots p → p ∈ L) (hL' : ∀ p, MayReach (env'.looks (OneOwner H roots) st' n') H roots p → p ∈ L')
    (fuel fuel' : Nat) (hf : L.length ≤ fuel) (hf' : L'.length ≤ fuel') (ord ord' : HashOrder TreeId) :
    ∃ b b' st1 st1' n1 n1' out out', Builder.default.useRootsL env (liveVisits H fuel roots) st n = .ended b st1 n1 .returned ∧ b.finish ord = .ok out ∧
      Builder.default.useRootsL env' (liveVisits H fuel' roots) st' n' = .ended b' st1' n1' .returned ∧ b'.finish ord' = .ok out' ∧
      ∀ p, p ≠ [] → ¬ MayVary (env.looks (OneOwner H roots) st n) H roots p → ¬ MayVary (env'.looks (OneOwner H roots) st' n') H roots p → out.flamegraph.selfAt p = out'.flamegraph.selfAt p := by
  obtain ⟨b, st1, n1, out, r1, f1, steady, recs, hsn, hsm, rfl, h⟩ := C82_sizes S env he H hcells roots hroots st n hS L hn hL fuel hf ord
  obtain ⟨b', st1', n1', out', r2, f2, steady', recs', hsn', hsm', rfl, h'⟩ := C82_sizes S' env' he' H hcells' roots hroots' st' n' hS' L' hn' hL' fuel' hf' ord'
  refine ⟨b, b', st1, st1', n1, n1', out, out', r1, f1, r2, f2, fun p hp0 hv hv' => ?_⟩
  have hp : ((roots.flatMap fun v => v.bare.report []) ++ steady.flatMap (fun p => (H p).bare.report)).Perm ((roots.flatMap fun v => v.bare.report []) ++ steady'.flatMap (fun p => (H p).bare.report)) := by
    refine List.Perm.append_left _ (List.Perm.flatMap_right _ ?_)
    rw [List.perm_ext_iff_of_nodup hsn hsn']
    exact fun a => (hsm a).trans (hsm' a).symm
  obtain ⟨a1, a2⟩ := h p hp0 hv
  obtain ⟨b1, b2⟩ := h' p hp0 hv'
  rw [← entered_perm hp] at b1 b2
  by_cases hen : entered ((roots.flatMap fun v => v.bare.report []) ++ steady.flatMap (fun p => (H p).bare.report)) p
  · rw [a1 hen, b1 hen]
    simp only [selfSpec, remAt, sizeAt_perm hp, childrenAt_perm hp, uniqueAt_perm hp]
  · rw [a2 hen, b2 hen]

/-! The `Mutex<String>` in an `Arc` of C61, with two pointers to it, and the thread that keeps changing the string: the stack of the pointers does not vary; that of the mutex does. -/
namespace ConfinedEx
open LiveEx
attribute [local instance] Target.x64

example (st : Store) (n : Nat) (ord ord2 : HashOrder TreeId) (ord' ord2' : HashOrder (List Str)) :=
  C82_confined S env respectful H vals_ok roots roots_ok st n (letsGo st n) [7] (by simp) (fun p h => by rw [reach _ _ (fun _ => rfl) p h]; simp) 1 (by simp) ord ord2 ord' ord2'

example (st : Store) (n : Nat) (ord : HashOrder TreeId) :=
  C82_sizes S env respectful H vals_ok roots roots_ok st n (letsGo st n) [7] (by simp) (fun p h => by rw [reach _ _ (fun _ => rfl) p h]; simp) 1 (by simp) ord

example (st st' : Store) (n n' : Nat) (ord ord' : HashOrder TreeId) :=
  C82_two_profiles S S env env respectful respectful H vals_ok vals_ok roots roots_ok roots_ok st st' n n' (letsGo st n) (letsGo st' n') [7] [7] (by simp) (by simp)
    (fun p h => by rw [reach _ _ (fun _ => rfl) p h]; simp) (fun p h => by rw [reach _ _ (fun _ => rfl) p h]; simp) 1 1 (by simp) (by simp) ord ord'

theorem anyway : ReachedAnyway H roots 7 := .root (List.mem_cons_self) (by simp [LiveDatum.bare, Datum.pointers])

theorem stacks : (H 7).lockStacks = [[Key.new (ascii "ArcInner"), tMutex.key]] := by rfl

/-- The stack of the `Arc` pointers: 8 bytes each, in every profile. -/
theorem fixed (L : Looks) : ¬ MayVary L H roots [tArc.key] := by
  rintro (⟨v, hv, q, hq, -⟩ | ⟨a, ha, q, hq, h⟩ | ⟨a, c, ha, hn, -⟩)
  · simp only [roots, List.mem_cons, List.not_mem_nil, or_false, or_self] at hv
    subst hv
    have : (LiveDatum.still (.arc tArc 8 7)).lockStacks = [] := by rfl
    rw [this] at hq
    cases hq
  · have e : a = 7 := by
      cases ha with
      | root hd hp =>
        simp only [roots, List.map_cons, List.map_nil, List.mem_cons, List.not_mem_nil, or_false, or_self] at hd
        subst hd
        simpa [LiveDatum.bare, Datum.pointers] using hp
      | step hq hp =>
        rename_i q
        exfalso
        simp only [H, LiveCell.bare, vals] at hp
        split at hp <;> simp [LiveDatum.bare, value, Cell.with, Cell.datum, Datum.fill, Datum.pointers] at hp
    subst e
    rw [stacks, List.mem_singleton] at hq
    subst hq
    exact absurd h.length_le (by simp)
  · rw [reach _ _ (fun _ => rfl) a ha] at hn
    exact hn anyway

/-- The stack of the mutex can vary. -/
example (L : Looks) : MayVary L H roots [Key.new (ascii "ArcInner"), tMutex.key] :=
  .inr (.inl ⟨7, anyway, _, by rw [stacks]; exact List.mem_singleton.2 rfl, List.prefix_refl _⟩)

end ConfinedEx

end Allocative
