import Verif.Lemmas.LiveSize
import Verif.Lemmas.LiveTime
import Verif.Props.Locks
import Verif.Props.Report
import Verif.Props.Names
set_option linter.unusedSimpArgs false
/-
C61: the profile of data that other threads are changing is the profile of a snapshot.
-/
namespace Allocative

theorem ResolvesEach.map_keys {I : List Hold → Store → Prop} {Q : Key → Prop} {a : List (LProg × Fate)} {b : List (Prog × Fate)} (h : ResolvesEach I (fun _ => False) a b) :
    (∀ x ∈ a, x.1.KeysAre Q) → ∀ x ∈ b, x.1.KeysAre Q := by
  induction h with
  | nil => intro _ x hx; cases hx
  | cons hr _ ih =>
    intro ha x hx
    rcases List.mem_cons.1 hx with rfl | hx
    · exact hr.keysAre (ha _ List.mem_cons_self)
    · exact ih (fun y hy => ha y (by simp [hy])) x hx

theorem seesEach_mem {I : Looks} {roots : List LiveDatum} {ds : List Datum} (h : LiveDatum.SeesEach I roots ds) : ∀ d ∈ ds, ∃ v ∈ roots, v.Sees I d := by
  induction h with
  | nil => intro d hd; cases hd
  | cons hv _ ih =>
    intro d hd
    rcases List.mem_cons.1 hd with rfl | hd
    · exact ⟨_, by simp, hv⟩
    · obtain ⟨v, hm, hs⟩ := ih d hd
      exact ⟨v, by simp [hm], hs⟩

/-- What others let go of is not held for ever. -/
theorem Env.LetsGo.not_forEver {S : Ptr → Prop} {env : Env} {st : Store} {n : Nat} (hS : env.LetsGo S st n) (he : env.Respectful) {takes : Access → Ptr → Prop} {a : Ptr} (ha : S a)
    (ht : ∀ how, takes how a → how.exclusive = false) : ¬ env.HeldForEver False takes st n a := by
  intro hf
  obtain ⟨hs, m, st', hT, hk⟩ := C51_held_by_others False env he _ st n a (hS a ha).1 ht hf
  obtain ⟨k, h⟩ := (hS a ha).2 hs m st' hT
  rw [hk k] at h
  cases h

/-- A live visit does not panic: it visits no more pointees than there are, one inside of the other. -/
theorem live_returns [Target] {S : Ptr → Prop} (env : Env) (he : env.Respectful) (H : Ptr → LiveCell) (hcells : ∀ p, (H p).value.OK S) (roots : List LiveDatum)
    (hroots : ∀ v ∈ roots, v.OK S) (st : Store) (n : Nat) (hS : env.LetsGo S st n) (L : List Ptr) (hL : ∀ p, MayReach (env.looks (OneOwner H roots) st n) H roots p → p ∈ L) (fuel : Nat)
    (hf : L.length ≤ fuel) : ∀ v ∈ roots, ∀ q, Resolves (env.Occurs False st n) (fun _ => False) [] (v.visit (liveCont H fuel)) q → ∀ vis, (q.trace [] vis).ctl = .returned := by
  intro v hv q hq vis
  have hB := env.looks_begins (OneOwner H roots) he st n hS
  obtain ⟨d, cells, hd, hcs, e⟩ := (places_spec hB (liveCont_spec hB (fun h => ⟨h.nestedCell, h.oneCell⟩) hcells fuel) hcells v (hroots v hv)).2 [] q hq [] vis
    (OneOwner.ready id hv vis)
  rw [e]
  have hreach : ∀ p, ReachableCell cells [d] p → MayReach (env.looks (OneOwner H roots) st n) H roots p := by
    intro p hp
    induction hp with
    | root hd' hp => cases List.mem_singleton.1 hd'; exact .root hv hd hp
    | step _ hp ih => exact .step ih (hcs _).1 hp
  have hcWF : ∀ p, (cells p).datum.WF := fun p => sees_WF (hcs p).1 (hcells p)
  classical
  have h := visit_traversed (heapOf cells) (L.filter fun p => ReachableCell cells [d] p) (by
    intro p hp q hq
    simp only [List.mem_filter, decide_eq_true_eq] at hp ⊢
    have : ReachableCell cells [d] q := .step hp.2 (by rw [← cell_pointers _ (hcWF p)]; exact hq)
    exact ⟨hL q (hreach q this), this⟩) fuel d.value.visit [] vis (by
    intro p hp
    have e := pointed d (sees_WF hd (hroots v hv))
    unfold Pointed at e
    have : ReachableCell cells [d] p := .root (d := d) (by simp) (by rw [← e]; exact hp)
    simp only [List.mem_filter, decide_eq_true_eq]
    exact ⟨hL p (hreach p this), this⟩)
    (Nat.le_trans (Nat.le_trans (List.length_filter_le _ _) (List.length_filter_le _ _)) hf)
  rw [visit_contS] at h
  exact h.ctl

/-- The visits of some live roots do the same to the builder as visits of a snapshot. -/
theorem live_core_idle [Target] {S : Ptr → Prop} (env : Env) (he : env.Respectful) (H : Ptr → LiveCell) (hcells : ∀ p, (H p).value.OK S) (roots : List LiveDatum)
    (hroots : ∀ v ∈ roots, v.OK S) (st : Store) (n : Nat) (hS : env.LetsGo S st n) (L : List Ptr) (hn : L.Nodup) (hL : ∀ p, MayReach (env.looks (OneOwner H roots) st n) H roots p → p ∈ L) (fuel : Nat)
    (hf : L.length ≤ fuel) (ord : HashOrder TreeId) :
    ∃ b st' n' out, Builder.default.useRootsL env (liveVisits H fuel roots) st n = .ended b st' n' .returned ∧ st.SameHeld st' ∧ env.Occurs False st n [] st' ∧
      b.finish ord = .ok out ∧
      ∃ (ds : List Datum) (cells : Ptr → Cell) (reached : List Ptr),
        LiveDatum.SeesEach (env.looks (OneOwner H roots) st n) roots ds ∧ (∀ p, (H p).Sees (env.looks (OneOwner H roots) st n) (cells p)) ∧ reached.Nodup ∧
        (∀ p, p ∈ reached ↔ ReachableCell cells ds p) ∧
        (∀ p ∈ reached, p ∈ L) ∧ reached.length ≤ fuel ∧ (∀ d ∈ ds, d.WF) ∧ (∀ p, (cells p).datum.WF) ∧
        (∀ ord', observe ord ord' (visits (fun p => (cells p).visit) fuel (ds.map fun d => d.value.visit)) =
          .ok ⟨out.flamegraph.write ord', out.flamegraph.totalSize, out.warnings⟩) ∧
        ∃ paths, Idle b (records (visits (fun p => (cells p).visit) fuel (ds.map fun d => d.value.visit))) paths := by
  have hfine := liveVisits_fine hcells fuel roots hroots
  have hB := env.looks_begins (OneOwner H roots) he st n hS
  have hno : ∀ x ∈ liveVisits H fuel roots, ∀ a, x.1.WaitsFor a → ¬ env.HeldForEver False (fun how b => ∃ x ∈ liveVisits H fuel roots, x.1.Takes how b) st n a := by
    rintro x hx a ⟨how, hb, ht⟩
    have hSa := ((hfine x hx).1.1 how a ht).1 hb
    exact hS.not_forEver he hSa fun how ⟨y, hy, h⟩ => ((hfine y hy).1.1 how a h).2 hSa
  obtain ⟨hist, b, st', n', hr, hnl, hrun, hb, hs, hj⟩ : ∃ hist b st' n', ResolvesEach (env.Occurs False st n) (fun _ => False) (liveVisits H fuel roots) hist ∧ NoLeaks hist ∧
      Builder.default.useRootsL env (liveVisits H fuel roots) st n = .ended b st' n' .returned ∧ Builder.default.useRoots hist = .ok b ∧ st.SameHeld st' ∧ Timeline False env st n [] n' st' := by
    rcases useRootsL_waits env he (.timeline False env (fun how b => ∃ x ∈ liveVisits H fuel roots, x.1.Takes how b) st n) (liveVisits H fuel roots)
      (fun x hx => ⟨(hfine x hx).1.2.1, .inl (hfine x hx).2⟩) (fun x hx _ _ h => ⟨x, hx, h⟩) (by
        intro _ x hx
        have hn' := hno x hx
        obtain ⟨v, hv, rfl⟩ := List.mem_map.1 hx
        exact ⟨live_noCatch H fuel v, fun q hq => live_returns env he H hcells roots hroots st n hS L hL fuel hf v hv q (hq.mono hn')⟩) _ _ _ st n Moments.start Idle.default with
      ⟨a, -, ⟨x, hx, hw⟩, h⟩ | ⟨hist', b, st', n', h1, h2, h3, h4, h5, h6⟩
    · exact (hno x hx a hw h).elim
    · exact ⟨hist', b, st', n', h1.mono hno, h2 [], h3, h4, h5, h6.1⟩
  have hk : ProperKeys hist := hr.map_keys fun x hx => (hfine x hx).1.2.2
  obtain ⟨ds, cells, hds, hcs, htr⟩ := roots_spec hB hcells fuel roots hroots (fun h => ⟨h.nestedCell, h.oneCell⟩) (fun v hv vis => OneOwner.ready id hv vis) hist hr []
  have hdsWF : ∀ d ∈ ds, d.WF := by
    intro d hd
    obtain ⟨v, hv, hsd⟩ := seesEach_mem hds d hd
    exact sees_WF hsd (hroots v hv)
  have hcWF : ∀ p, (cells p).datum.WF := by
    intro p
    exact sees_WF (hcs p).1 (hcells p)
  have hreach : ∀ p, ReachableCell cells ds p → MayReach (env.looks (OneOwner H roots) st n) H roots p := by
    intro p hp
    induction hp with
    | root hd hp =>
      obtain ⟨v, hv, hsd⟩ := seesEach_mem hds _ hd
      exact .root hv hsd hp
    | step _ hp ih =>
      rename_i q p _
      exact .step ih (hcs q).1 hp
  have : ∃ reached : List Ptr, reached.Nodup ∧ reached.length ≤ L.length ∧ (∀ p, p ∈ reached ↔ ReachableCell cells ds p) ∧ ∀ p ∈ reached, p ∈ L := by
    classical
    refine ⟨L.filter fun p => ReachableCell cells ds p, hn.filter _, List.length_filter_le _ _, ?_, fun p hp => (List.mem_filter.1 hp).1⟩
    intro p
    simp only [List.mem_filter, decide_eq_true_eq]
    exact ⟨fun h => h.2, fun h => ⟨hL p (hreach p h), h⟩⟩
  obtain ⟨reached, hrn, hrl, hrm, hrL⟩ := this
  have hnl2 := visits_noLeaks (fun p => (cells p).visit) fuel (ds.map fun d => d.value.visit)
  have hk2 : ProperKeys (visits (fun p => (cells p).visit) fuel (ds.map fun d => d.value.visit)) := by
    intro x hx
    simp only [visits, List.map_map, List.mem_map] at hx
    obtain ⟨d, hd, rfl⟩ := hx
    exact visit_keysAre (fun p => cell_proper (cells p)) fuel _ (proper d)
  have hp : (records hist).Perm (records (visits (fun p => (cells p).visit) fuel (ds.map fun d => d.value.visit))) := by
    unfold records
    rw [htr]
    exact .refl _
  have hobs : ∀ ord', ∃ out, b.finish ord = .ok out ∧ observe ord ord' (visits (fun p => (cells p).visit) fuel (ds.map fun d => d.value.visit)) =
      .ok ⟨out.flamegraph.write ord', out.flamegraph.totalSize, out.warnings⟩ := by
    intro ord'
    obtain ⟨obs, o1, o2⟩ := C06_visit_order_independent hist _ hnl hnl2 hk hk2 hp ord ord'
    simp only [observe, run, hb] at o1
    cases hfin : b.finish ord with
    | error e => rw [hfin] at o1; cases o1
    | ok out =>
      rw [hfin] at o1
      simp only [Except.ok.injEq] at o1
      exact ⟨out, rfl, by rw [o1]; exact o2⟩
  obtain ⟨out, hfin, -⟩ := hobs (HashOrder.id _)
  refine ⟨b, st', n', out, hrun, hs, ⟨n', hj⟩, hfin, ds, cells, reached, hds, hcs, hrn, hrm, hrL, Nat.le_trans hrl hf, hdsWF, hcWF, fun ord' => ?_, ?_⟩
  · obtain ⟨out', hfin', h⟩ := hobs ord'
    rw [hfin] at hfin'
    cases hfin'
    exact h
  · obtain ⟨b', paths, hb', hi⟩ := useRoots_default hnl
    rw [hb] at hb'
    cases hb'
    have : records hist = records (visits (fun p => (cells p).visit) fuel (ds.map fun d => d.value.visit)) := by
      unfold records
      rw [htr]
      rfl
    exact ⟨paths, this ▸ hi⟩

/-- The visits of some live roots do the same to the builder as visits of a snapshot. -/
theorem live_core [Target] {S : Ptr → Prop} (env : Env) (he : env.Respectful) (H : Ptr → LiveCell) (hcells : ∀ p, (H p).value.OK S) (roots : List LiveDatum)
    (hroots : ∀ v ∈ roots, v.OK S) (st : Store) (n : Nat) (hS : env.LetsGo S st n) (L : List Ptr) (hn : L.Nodup) (hL : ∀ p, MayReach (env.looks (OneOwner H roots) st n) H roots p → p ∈ L) (fuel : Nat)
    (hf : L.length ≤ fuel) (ord : HashOrder TreeId) :
    ∃ b st' n' out, Builder.default.useRootsL env (liveVisits H fuel roots) st n = .ended b st' n' .returned ∧ st.SameHeld st' ∧ env.Occurs False st n [] st' ∧
      b.finish ord = .ok out ∧
      ∃ (ds : List Datum) (cells : Ptr → Cell) (reached : List Ptr),
        LiveDatum.SeesEach (env.looks (OneOwner H roots) st n) roots ds ∧ (∀ p, (H p).Sees (env.looks (OneOwner H roots) st n) (cells p)) ∧ reached.Nodup ∧
        (∀ p, p ∈ reached ↔ ReachableCell cells ds p) ∧
        (∀ p ∈ reached, p ∈ L) ∧ reached.length ≤ fuel ∧ (∀ d ∈ ds, d.WF) ∧ (∀ p, (cells p).datum.WF) ∧
        ∀ ord', observe ord ord' (visits (fun p => (cells p).visit) fuel (ds.map fun d => d.value.visit)) =
          .ok ⟨out.flamegraph.write ord', out.flamegraph.totalSize, out.warnings⟩ := by
  obtain ⟨b, st', n', out, h1, h2, h3, h4, ds, cells, reached, g1, g2, g3, g4, g5, g6, g7, g8, g9, -⟩ := live_core_idle env he H hcells roots hroots st n hS L hn hL fuel hf ord
  exact ⟨b, st', n', out, h1, h2, h3, h4, ds, cells, reached, g1, g2, g3, g4, g5, g6, g7, g8, g9⟩

/-- C61. Some roots with locks, cells, weak pointers and `DashMap`s nested in them and in the shared allocations they refer to, in any way; `L` contains the shared allocations that can
be reached given the states of the store that can occur.  Whatever other threads do to the locks, to what is in them and to the reference counts during the visits: the visits return, without a panic, and wait only for shards of `DashMap`s, the locks in `S`, if
others sooner or later let go of these; every guard and
reference they took given back; the builder finishes; and there is a snapshot, `ds` of the roots and `cells` of the shared allocations, in which each place is as it was seen at
moments during the visits (its content at a moment at which the visit had access to it, if at some moment access was granted; or nothing, if at some moment access was refused;
if each lock has one owner, a moment at which the visit itself has no guard to it), such that the output is exactly that documented (C52) for the snapshot.  The store afterwards
is one that occurs while nothing is held. -/
theorem C61_snapshot [Target] (S : Ptr → Prop) (env : Env) (he : env.Respectful) (H : Ptr → LiveCell) (hcells : ∀ p, (H p).value.OK S) (roots : List LiveDatum)
    (hroots : ∀ v ∈ roots, v.OK S) (st : Store) (n : Nat) (hS : env.LetsGo S st n) (L : List Ptr) (hn : L.Nodup) (hL : ∀ p, MayReach (env.looks (OneOwner H roots) st n) H roots p → p ∈ L) (fuel : Nat) (hf : L.length ≤ fuel)
    (ord : HashOrder TreeId) (ord' : HashOrder (List Str)) :
    ∃ b st' n' out, Builder.default.useRootsL env (liveVisits H fuel roots) st n = .ended b st' n' .returned ∧ st.SameHeld st' ∧ env.Occurs False st n [] st' ∧
      b.finish ord = .ok out ∧ ∃ (ds : List Datum) (cells : Ptr → Cell) (reached : List Ptr) (recs : List Rec) (lines : List (Path × Nat)) (ws : List Path),
        LiveDatum.SeesEach (env.looks (OneOwner H roots) st n) roots ds ∧ (∀ p, (H p).Sees (env.looks (OneOwner H roots) st n) (cells p)) ∧ reached.Nodup ∧
        (∀ p, p ∈ reached ↔ ReachableCell cells ds p) ∧
        recs = ds.flatMap (fun d => d.report []) ++ reached.flatMap (fun p => (cells p).report) ∧
        out.flamegraph.write ord' = lines.flatMap renderLine ∧
        out.flamegraph.totalSize = attributed recs + (ws.map fun p => childrenAt recs p - sizeAt recs p).sum ∧
        out.warnings = ws.flatMap (renderWarning recs) ∧
        lines.Pairwise (fun a b => pathLt a.1.names b.1.names) ∧
        (∀ p n, (p, n) ∈ lines ↔ entered recs p ∧ n = selfSpec recs p ∧ n ≠ 0) ∧
        ws.Pairwise (fun a b => pathLt a.names b.names) ∧ ∀ p, p ∈ ws ↔ overfull recs p := by
  obtain ⟨b, st', n', out, hrun, hs, hocc, hfin, ds, cells, reached, hds, hcs, hrn, hrm, -, hrl, hdsWF, hcWF, hobs⟩ := live_core env he H hcells roots hroots st n hS L hn hL fuel hf ord
  obtain ⟨recs, lines, ws, e1, e2, e3⟩ := C52_text cells ds hdsWF reached hrn hrm (fun p _ => hcWF p) fuel hrl ord ord'
  have h := hobs ord'
  rw [e2] at h
  simp only [Except.ok.injEq, Obs.mk.injEq] at h
  exact ⟨b, st', n', out, hrun, hs, hocc, hfin, ds, cells, reached, recs, lines, ws, hds, hcs, hrn, hrm, e1, h.1.symm, h.2.1.symm, h.2.2.symm, e3⟩

/-- An allocation in a snapshot. -/
theorem Alloc.with_cell [Target] {a : Alloc} {v : LiveDatum} {c : Cell} {I : Looks} (ha : a.value = v.shape) (hs : (LiveCell.mk a.cell v).Sees I c) :
    (a.with c.datum).cell = c ∧ (a.with c.datum).value = c.datum ∧ (a.Exact → (a.with c.datum).Exact) ∧ (∀ n, a.Occupies n → (a.with c.datum).Occupies n) ∧
      (a.with c.datum).layout = a.layout := by
  obtain ⟨h1, h2⟩ := hs
  have hz : c.datum.value.sizeOfVal = a.value.value.sizeOfVal := by rw [sees_sizeOfVal h1, ha]
  have hz' : c.datum.size = a.value.size := hz
  cases a <;> cases c <;> simp_all [Alloc.cell, Cell.SameFrame, Alloc.with, Cell.datum, Alloc.value, Alloc.Exact, Alloc.Occupies, Alloc.layout]

/-- C61 with C59. Memory that changes while it is profiled: the total is the memory of a snapshot.  The allocation at `p` is laid out like `frames p` and has `bytes p` bytes; the value
in it is `vals p`.  Whatever the other threads do, there is a snapshot, `ds` of the roots and `vs` of the values in shared allocations, in which each place is as it was seen at one
moment, such that there are no warnings and `total_size()` is, up to the bytes that profiles do not see, the memory occupied by the snapshot: by the roots, what they own, and each
allocation reachable in the snapshot and what it owns, once.  Required is that whatever can be seen is well formed and that types have proper names. -/
theorem C61_footprint [Target] {ρ : Str → Role} (hρ : Reserved ρ) (S : Ptr → Prop) (env : Env) (he : env.Respectful) (frames : Ptr → Alloc) (vals : Ptr → LiveDatum)
    (hframes : ∀ p, (frames p).value = (vals p).shape) (hcells : ∀ p, (vals p).OK S) (roots : List LiveDatum) (hroots : ∀ v ∈ roots, v.OK S) (st : Store) (n : Nat) (hS : env.LetsGo S st n) (L : List Ptr)
    (hn : L.Nodup) (hL : ∀ p, MayReach (env.looks (OneOwner (fun p => ⟨(frames p).cell, vals p⟩) roots) st n) (fun p => ⟨(frames p).cell, vals p⟩) roots p → p ∈ L)
    (hr : ∀ v ∈ roots, ∀ d, v.Sees (env.looks (OneOwner (fun p => ⟨(frames p).cell, vals p⟩) roots) st n) d → d.Fits ∧ d.Named ρ) (bytes : Ptr → Nat)
    (ha : ∀ p ∈ L, (frames p).Exact ∧ (frames p).Occupies (bytes p) ∧ bytes p ≤ Layout.isizeMax ∧
      ∀ d, (vals p).Sees (env.looks (OneOwner (fun p => ⟨(frames p).cell, vals p⟩) roots) st n) d → d.Fits ∧ ((frames p).with d).cell.Named ρ)
    (fuel : Nat) (hf : L.length ≤ fuel) (ord : HashOrder TreeId) :
    ∃ b st' n' out, Builder.default.useRootsL env (liveVisits (fun p => ⟨(frames p).cell, vals p⟩) fuel roots) st n = .ended b st' n' .returned ∧ st.SameHeld st' ∧ env.Occurs False st n [] st' ∧
      b.finish ord = .ok out ∧ out.warnings = [] ∧
      ∃ (ds : List Datum) (vs : Ptr → Datum) (reached : List Ptr),
        LiveDatum.SeesEach (env.looks (OneOwner (fun p => ⟨(frames p).cell, vals p⟩) roots) st n) roots ds ∧ (∀ p, (vals p).Sees (env.looks (OneOwner (fun p => ⟨(frames p).cell, vals p⟩) roots) st n) (vs p)) ∧ reached.Nodup ∧
        (∀ p, p ∈ reached ↔ ReachableCell (fun p => ((frames p).with (vs p)).cell) ds p) ∧
        out.flamegraph.totalSize + ((ds.map Datum.unseen).sum + (reached.map fun p => ((frames p).with (vs p)).unseen).sum) =
          (ds.map Datum.footprint).sum + (reached.map fun p => bytes p + (vs p).heapBytes).sum := by
  obtain ⟨b, st', n', out, hrun, hs, hocc, hfin, ds, cells, reached, hds, hcs, hrn, hrm, hrL, hrl, hdsWF, hcWF, hobs⟩ :=
    live_core env he (fun p => ⟨(frames p).cell, vals p⟩) hcells roots hroots st n hS L hn hL fuel hf ord
  have hw := fun p => Alloc.with_cell (hframes p) (hcs p)
  have hc : (fun p => ((frames p).with (cells p).datum).cell) = cells := funext fun p => (hw p).1
  obtain ⟨out', e, hws, -, ht⟩ := C59_named_accounting hρ (fun p => (frames p).with (cells p).datum) ds (by
      intro d hd
      obtain ⟨v, hv, hsd⟩ := seesEach_mem hds d hd
      exact ⟨hdsWF d hd, hr v hv d hsd⟩) reached hrn (by rw [hc]; exact hrm) bytes (by
      intro p hp
      obtain ⟨h1, h2, h3, h4⟩ := ha p (hrL p hp)
      obtain ⟨h5, h6⟩ := h4 _ (hcs p).1
      exact ⟨by rw [(hw p).2.1]; exact hcWF p, by rw [(hw p).2.1]; exact h5, h6, (hw p).2.2.1 h1, (hw p).2.2.2.1 _ h2, h3⟩) fuel hrl ord
  have h := hobs (HashOrder.id _)
  have hv : ∀ p, ((frames p).with (cells p).datum).value = (cells p).datum := fun p => (hw p).2.1
  simp only [hv] at ht
  have hvis : (fun p => ((frames p).with (cells p).datum).cell.visit) = fun p => (cells p).visit := funext fun p => by rw [(hw p).1]
  rw [hvis] at e
  simp only [observe, e, Except.ok.injEq, Obs.mk.injEq] at h
  refine ⟨b, st', n', out, hrun, hs, hocc, hfin, by rw [← h.2.2, hws], ds, fun p => (cells p).datum, reached, hds, fun p => (hcs p).1, hrn, ?_, by rw [← h.2.1]; exact ht⟩
  rw [hc]; exact hrm

/-- C61, for `size_of_unique_allocated_data`. Whatever other threads do: if they sooner or later let go of the shards of `DashMap`s (`S`) it returns, without a panic, with every guard and reference given back, and its result is that
for a snapshot `d` of the value, in which each place is as it was seen at one moment; together with the bytes missed (C32) this is the heap memory that the snapshot owns. -/
theorem C61_size_of [Target] (S : Ptr → Prop) (env : Env) (he : env.Respectful) (H : Ptr → LiveCell) (hcells : ∀ p, (H p).value.OK S) (v : LiveDatum) (hv : v.OK S) (fuel : Nat) (st : Store) (n : Nat)
    (hS : env.LetsGo S st n) :
    ∃ size st' n' d, SizeOf.sizeOfUniqueAllocatedDataL env (v.visit (liveCont H fuel)) st n = .ended size st' n' .returned ∧ st.SameHeld st' ∧
      env.Occurs False st n [] st' ∧ v.Sees (env.looks v.Nested st n) d ∧ (∀ content, SizeOf.sizeOfUniqueAllocatedData (d.value.visit.visitWith content) = .ok (some size)) ∧ size + d.missed = d.heapBytes := by
  have hfine := visitLive_fine (liveCont_fine hcells fuel) (places_fine (liveCont_fine hcells fuel) _ hv) _ (proper v.shape)
  have hno : ∀ a, (v.visit (liveCont H fuel)).WaitsFor a → ¬ env.HeldForEver False (fun how b => (v.visit (liveCont H fuel)).Takes how b) st n a := by
    rintro a ⟨how, hb, ht⟩
    have hSa := (hfine.1 how a ht).1 hb
    exact hS.not_forEver he hSa fun how h => (hfine.1 how a h).2 hSa
  have hg := execL_good SizeOf.visitorImpl env he (.timeline False env (fun how b => (v.visit (liveCont H fuel)).Takes how b) st n) (v.visit (liveCont H fuel)) (fun _ _ h => h) (fun _ => live_noCatch H fuel v) [] .root 0 st n
    Moments.start
  have hx : ∃ q, Resolves (env.Occurs False st n) (fun _ => False) [] (v.visit (liveCont H fuel)) q ∧
      match execL SizeOf.visitorImpl env (v.visit (liveCont H fuel)) .root 0 st n with
      | .stuck _ => False
      | .failed e => exec SizeOf.visitorImpl q .root 0 = .error e
      | .ended s' st' n' ctl => exec SizeOf.visitorImpl q .root 0 = .ok (s', ctl) ∧ st.SameHeld st' ∧ ((ctl = .unwinding → False) → Timeline False env st n [] n' st') := by
    revert hg
    generalize execL SizeOf.visitorImpl env (v.visit (liveCont H fuel)) .root 0 st n = x
    intro h
    cases x with
    | failed e => obtain ⟨q, h1, h2⟩ := h; exact ⟨q, h1.mono hno, h2⟩
    | stuck a => exact (hno a h.1 h.2).elim
    | ended s' st' n' ctl => obtain ⟨q, h1, h2, h3, h4⟩ := h; exact ⟨q, h1.mono hno, h2, h3, fun h => (h4 h).1⟩
  obtain ⟨q, hq, hx⟩ := hx
  obtain ⟨d, hd, e⟩ := (places_out (env.looks_begins v.Nested he st n hS) v hv).2 [] q (fun h => ⟨fun _ _ h' => (by cases h'), h⟩) hq
  have e2 : exec SizeOf.visitorImpl q .root 0 = .ok (d.value.visit.heap false, .returned) := by
    rw [← exec_outside, e, exec_outside, exec_heap]
    simp
  have hs := sizeOf_heap (o := d.value.visit)
  have hw := sees_WF hd hv
  have ha := accounted d hw false
  simp only [SizeOf.sizeOfUniqueAllocatedDataL]
  cases hr : execL SizeOf.visitorImpl env (v.visit (liveCont H fuel)) .root 0 st n with
  | stuck a => rw [hr] at hx; cases hx
  | failed e' => rw [hr] at hx; simp only at hx; rw [e2] at hx; cases hx
  | ended s st' n' ctl =>
    rw [hr] at hx
    simp only at hx
    rw [e2] at hx
    obtain ⟨h1, h2, h3⟩ := hx
    cases h1
    exact ⟨_, st', n', d, rfl, h2, ⟨n', h3 (by simp)⟩, hd, fun c => hs c, by simpa using ha⟩

/-- The more moments there are, the more can be seen. -/
theorem LiveDatum.Sees.mono {L L' : Looks} (h1 : ∀ st, L.moment st → L'.moment st) (h2 : ∀ a st, L.asks a st → L'.asks a st)
    (h3 : ∀ how a st, L.reads how a st → ∃ st', L'.reads how a st' ∧ st'.mem a = st.mem a) {v : LiveDatum} {d : Datum} (h : v.Sees L d) : v.Sees L' d := by
  induction h with
  | still d => exact .still d
  | live shape kind addr content granted x d m y ha hm hs hy hys ih ihs =>
    refine .live shape kind addr content granted x d m y (fun p k hk => (ha p k hk).imp fun st h => ⟨?_, h.2⟩) (fun p k how hk hh hg => ?_) ih (fun p k hk q hq => ?_) ihs
    · cases k <;> first | exact h2 _ _ h.1 | exact h1 _ h.1
    · obtain ⟨st, a1, a2⟩ := hm p k how hk hh hg
      obtain ⟨st', b1, b2⟩ := h3 _ _ _ a1
      exact ⟨st', b1, b2.trans a2⟩
    · obtain ⟨⟨st1, a1, a2⟩, ⟨st2, a3, a4⟩, ⟨st3, a5, a6⟩, st4, a7, a8⟩ := hy p k hk q hq
      obtain ⟨st', b1, b2⟩ := h3 _ _ _ a7
      exact ⟨⟨st1, h1 _ a1, a2⟩, ⟨st2, h1 _ a3, a4⟩, ⟨st3, h1 _ a5, a6⟩, st', b1, b2.trans a8⟩

/-- C61, what the memory can be. Whatever is true of the memory at the start of the visits and is preserved by what the other threads do is true at every moment
at which something is seen for the snapshot, and at the end: visits do not write to the memory. -/
theorem C61_memory (D : Prop) (env : Env) (P : (Ptr → Nat) → Prop) (hP : ∀ n st, P st.mem → P (env n st).mem) (st : Store) (n : Nat) (h : P st.mem) :
    (∀ st', (env.looks D st n).moment st' → P st'.mem) ∧ (∀ a st', (env.looks D st n).asks a st' → P st'.mem) ∧ ∀ how a st', (env.looks D st n).reads how a st' → P st'.mem :=
  ⟨fun _ ⟨_, _, ht⟩ => ht.memInv hP h, fun _ _ ⟨_, ⟨_, ht⟩, _⟩ => ht.memInv hP h, fun _ _ _ ⟨_, ⟨_, ht⟩, _⟩ => ht.memInv hP h⟩

/-- The same, for what other threads do to one lock or cell: who holds guards, whether it refuses for other reasons, is poisoned, is initialised.  The visits do not change any
of this; in particular they do not poison mutexes.  And if each lock has one owner, then whenever a visit asks for access to the lock, no guard to it is held by the visit
itself, unless it was at the start: so access is only ever refused because of what others do. -/
theorem C61_locks (D : Prop) (env : Env) (he : env.Respectful) (P : Bool → Nat → Bool → Bool → Bool → Prop) (a : Ptr)
    (hP : ∀ n st, P (st.lock a).othersExclusive (st.lock a).othersShared (st.lock a).refuses (st.lock a).poisoned (st.lock a).init →
      P ((env n st).lock a).othersExclusive ((env n st).lock a).othersShared ((env n st).lock a).refuses ((env n st).lock a).poisoned ((env n st).lock a).init)
    (st : Store) (n : Nat) (h : P (st.lock a).othersExclusive (st.lock a).othersShared (st.lock a).refuses (st.lock a).poisoned (st.lock a).init) :
    ∀ st', (env.looks D st n).asks a st' →
      P (st'.lock a).othersExclusive (st'.lock a).othersShared (st'.lock a).refuses (st'.lock a).poisoned (st'.lock a).init ∧
      (D → (st'.lock a).heldExclusive = (st.lock a).heldExclusive ∧ (st'.lock a).heldShared = (st.lock a).heldShared) := by
  rintro st' ⟨hs, ⟨m, ht⟩, hd⟩
  exact ⟨ht.lockInv (P := fun x => P x.1 x.2.1 x.2.2.1 x.2.2.2.1 x.2.2.2.2) hP h, fun d => (ht.own he).lock (hd d)⟩

/-- C61, a lock that other threads leave alone: whenever a visit asks for access to it, it is as it was at the start. -/
theorem C61_untouched (D : Prop) (hD : D) (env : Env) (he : env.Respectful) (a : Ptr) (henv : ∀ n st, (env n st).lock a = st.lock a) (st : Store) (n : Nat) :
    ∀ st', (env.looks D st n).asks a st' → st'.lock a = st.lock a := by
  intro st' h
  obtain ⟨h1, h2⟩ := C61_locks D env he (fun x1 x2 x3 x4 x5 => (x1, x2, x3, x4, x5) = (st.lock a).others) a (fun n st' h => by rw [henv]; exact h) st n rfl st' h
  have h2 := h2 hD
  revert h1 h2
  generalize st'.lock a = s'
  generalize st.lock a = s
  cases s; cases s'
  simp [LockState.others]
  grind

/-- C61, content. If other threads keep to the locks, that is, do not change what is in a lock while the visit has a guard, then the contents in a snapshot are of
moments at which the lock grants access: the visit never sees something half changed.  (`get` has no guard.) -/
theorem C61_guarded (D : Prop) (env : Env) (he : env.Respectful)
    (hk : ∀ n st a, ((st.lock a).heldExclusive = true ∨ 0 < (st.lock a).heldShared) → (env n st).mem a = st.mem a) (st : Store) (n : Nat) {v : LiveDatum} {d : Datum}
    (hd : v.Sees (env.looks D st n) d) :
    v.Sees ⟨(env.looks D st n).moment, (env.looks D st n).asks, fun how a st' => (env.looks D st n).moment st' ∧ (how ≠ .get → how.granted (st'.lock a) = true)⟩ d := by
  refine LiveDatum.Sees.mono (L := env.looks D st n) (L' := { moment := (env.looks D st n).moment, asks := (env.looks D st n).asks, reads := fun how a st' => (env.looks D st n).moment st' ∧ (how ≠ .get → how.granted (st'.lock a) = true) }) (fun _ h => h) (fun _ _ h => h) ?_ hd
  rintro how a st' ⟨hs, ⟨m, ht⟩, hm⟩
  by_cases hh : how = .get
  · exact ⟨st', ⟨⟨hs, m, ht⟩, fun h => (h hh).elim⟩, rfl⟩
  · obtain ⟨hs1, m1, st1, h1, h2, h3⟩ := ht.guarded he (fun n st => hk n st a) hh hm
    exact ⟨st1, ⟨⟨hs1, m1, h1⟩, fun _ => h2⟩, h3⟩

/-- C61, a place where access is always granted is always seen; and so are all shards of a `DashMap`, whatever happens to it. -/
theorem C61_seen {L : Looks} {shape : Datum} {kind : Ptr → Option PlaceKind} {addr : Ptr → Ptr} {content : Ptr → Nat → LiveDatum} {d : Datum}
    (hd : (LiveDatum.live shape kind addr content).Sees L d) :
    ∃ (granted : Ptr → Bool) (x : Ptr → Nat) (c : Ptr → Datum) (m : Ptr → DashSeen), d = (shape.fill fun p => (kind p).map fun k self => k.seen (granted p) (c p) (m p) self) ∧
      ∀ p k, kind p = some k → (∀ st, L.asksFor (addr p) k st → k.answer (addr p) st = true) →
        granted p = true ∧ (∀ how, k.how = some how → (∃ st, L.reads how (addr p) st ∧ st.mem (addr p) = x p) ∧ (content p (x p)).Sees L (c p)) ∧
          ∀ q ∈ k.shards, ∃ y, (∃ st, L.reads .read (addr q) st ∧ st.mem (addr q) = y) ∧ (content q y).Sees L ((m p).entries q) := by
  cases hd with
  | live _ _ _ _ granted x c m y ha hm hs hy hys =>
    refine ⟨granted, x, c, m, rfl, ?_⟩
    intro p k hk hall
    obtain ⟨st, h1, h2⟩ := ha p k hk
    have hg : granted p = true := by rw [← h2]; exact hall st h1
    exact ⟨hg, fun how hh => ⟨hm p k how hk hh hg, hs p k how hk hh hg⟩, fun q hq => ⟨y p q, (hy p k hk q hq).2.2.2, hys p k q hk hq⟩⟩

/-- C61, an initialised `OnceCell` and its like: it stays so unless others take the value out, and then it is always seen. -/
theorem C61_once_seen (D : Prop) (env : Env) (he : env.Respectful) (a : Ptr) (henv : ∀ n st, (st.lock a).init = true → ((env n st).lock a).init = true) (st : Store) (n : Nat)
    (h : (st.lock a).init = true) {shape : Datum} {kind : Ptr → Option PlaceKind} {addr : Ptr → Ptr} {content : Ptr → Nat → LiveDatum} {d : Datum}
    (hd : (LiveDatum.live shape kind addr content).Sees (env.looks D st n) d) :
    ∃ (granted : Ptr → Bool) (x : Ptr → Nat) (c : Ptr → Datum) (m : Ptr → DashSeen), d = (shape.fill fun p => (kind p).map fun k self => k.seen (granted p) (c p) (m p) self) ∧
      ∀ p, addr p = a → (kind p = some .once ∨ kind p = some (.cell .get)) → granted p = true ∧ (content p (x p)).Sees (env.looks D st n) (c p) := by
  obtain ⟨granted, x, c, m, e, hc⟩ := C61_seen hd
  refine ⟨granted, x, c, m, e, fun p hp hk => ?_⟩
  have hinit := C61_locks D env he (fun _ _ _ _ i => i = true) a henv st n h
  subst hp
  rcases hk with hk | hk
  · obtain ⟨h1, h2⟩ := hc p _ hk fun st' h => (hinit st' h).1
    exact ⟨h1, (h2.1 .get rfl).2⟩
  · obtain ⟨h1, h2⟩ := hc p _ hk fun st' h => (hinit st' h).1
    exact ⟨h1, (h2.1 .get rfl).2⟩

/-- C61, a mutex or other lock that other threads never touch and that is free is always seen. -/
theorem C61_free_seen (D : Prop) (hD : D) (env : Env) (he : env.Respectful) (a : Ptr) (henv : ∀ n st, (env n st).lock a = st.lock a) (st : Store) (n : Nat)
    {shape : Datum} {kind : Ptr → Option PlaceKind} {addr : Ptr → Ptr} {content : Ptr → Nat → LiveDatum} {d : Datum}
    (hd : (LiveDatum.live shape kind addr content).Sees (env.looks D st n) d) :
    ∃ (granted : Ptr → Bool) (x : Ptr → Nat) (c : Ptr → Datum) (m : Ptr → DashSeen), d = (shape.fill fun p => (kind p).map fun k self => k.seen (granted p) (c p) (m p) self) ∧
      ∀ p k how, addr p = a → kind p = some k → k.how = some how → how.granted (st.lock a) = true → granted p = true ∧ (content p (x p)).Sees (env.looks D st n) (c p) := by
  obtain ⟨granted, x, c, m, e, hc⟩ := C61_seen hd
  refine ⟨granted, x, c, m, e, fun p k how hp hk hh hg => ?_⟩
  subst hp
  obtain ⟨h1, h2⟩ := hc p k hk fun st' h => by
    rw [answer_how hh]
    have h' : (env.looks D st n).asks (addr p) st' := by
      cases k <;> first | exact h | cases hh
    rw [C61_untouched D hD env he (addr p) henv st n st' h']
    exact hg
  exact ⟨h1, (h2.1 how hh).2⟩

theorem C61_quiet_sees (D : Prop) (hD : D) (st : Store) (n : Nat) {v : LiveDatum} {d : Datum} (hd : v.Sees (Env.quiet.looks D st n) d) : d = v.now st := by
  induction hd with
  | still d => rfl
  | live shape kind addr content granted x d m y ha hm hs hy hys ih ihs =>
    simp only [LiveDatum.now]
    congr 1
    funext p
    cases hk : kind p with
    | none => rfl
    | some k =>
      simp only [Option.map_some, Option.some.injEq]
      funext self
      have hg : granted p = k.answer (addr p) st := by
        obtain ⟨st', h1, h2⟩ := ha p k hk
        rw [← h2]
        cases k with
        | cell how =>
          obtain ⟨hs, ⟨m, ht⟩, hno⟩ := h1
          simp only [PlaceKind.answer, ht.stacked.lock (hno hD)]
        | once =>
          obtain ⟨hs, ⟨m, ht⟩, hno⟩ := h1
          simp only [PlaceKind.answer, ht.stacked.lock (hno hD)]
        | weak _ _ _ =>
          obtain ⟨hs, ⟨m, ht⟩⟩ := h1
          simp only [PlaceKind.answer, ht.stacked.alive]
        | dashMap _ _ _ _ _ _ _ => rfl
        | dashSet _ _ _ _ _ => rfl
      have hc : ∀ how, k.how = some how → granted p = true → d p = (content p (st.mem (addr p))).now st := by
        intro how hh hgr
        obtain ⟨st', ⟨hs, ⟨m, ht⟩, _⟩, hx⟩ := hm p k how hk hh hgr
        rw [ih p k how hk hh hgr, ← hx, ht.stacked.mem]
      rw [← hg]
      cases k with
      | weak _ _ _ => rfl
      | cell how => cases hgr : granted p with
        | false => rfl
        | true => simp only [PlaceKind.seen, if_true, hc how rfl hgr]
      | once => cases hgr : granted p with
        | false => rfl
        | true => simp only [PlaceKind.seen, if_true, hc .get rfl hgr]
      | dashMap K V KV shards capacity len bytes =>
        have hq : ∀ q ∈ shards, (m p).capacity q = st.mem (addr q) ∧ (m p).capacityLater q = st.mem (addr q) ∧ (m p).len q = st.mem (addr q) ∧
            (m p).entries q = (content q (st.mem (addr q))).now st := by
          intro q hq
          obtain ⟨⟨st1, ⟨hs1, n1, t1⟩, a2⟩, ⟨st2, ⟨hs2, n2, t2⟩, a4⟩, ⟨st3, ⟨hs3, n3, t3⟩, a6⟩, st4, ⟨hs4, ⟨n4, t4⟩, _⟩, a8⟩ := hy p _ hk q hq
          refine ⟨by rw [← a2, t1.stacked.mem], by rw [← a4, t2.stacked.mem], by rw [← a6, t3.stacked.mem], ?_⟩
          rw [ihs p _ q hk hq, ← a8, t4.stacked.mem]
        simp only [PlaceKind.seen]
        have e1 : shards.map (fun q => capacity q ((m p).capacity q)) = shards.map (fun q => capacity q (st.mem (addr q))) := List.map_congr_left fun q h => by rw [(hq q h).1]
        have e2 : shards.map (fun q => capacity q ((m p).capacityLater q)) = shards.map (fun q => capacity q (st.mem (addr q))) := List.map_congr_left fun q h => by rw [(hq q h).2.1]
        have e3 : shards.map (fun q => len q ((m p).len q)) = shards.map (fun q => len q (st.mem (addr q))) := List.map_congr_left fun q h => by rw [(hq q h).2.2.1]
        have e4 : shards.map (fun q => bytes q ((m p).capacity q)) = shards.map (fun q => bytes q (st.mem (addr q))) := List.map_congr_left fun q h => by rw [(hq q h).1]
        have e5 : shards.map (fun q => ((m p).entries q).keysOf) = shards.map (fun q => ((content q (st.mem (addr q))).now st).keysOf) := List.map_congr_left fun q h => by rw [(hq q h).2.2.2]
        have e6 : shards.map (fun q => ((m p).entries q).valuesOf) = shards.map (fun q => ((content q (st.mem (addr q))).now st).valuesOf) := List.map_congr_left fun q h => by rw [(hq q h).2.2.2]
        rw [e1, e2, e3, e4, List.flatMap_def, List.flatMap_def, List.flatMap_def, List.flatMap_def, e5, e6]
      | dashSet T shards capacity len bytes =>
        have hq : ∀ q ∈ shards, (m p).capacity q = st.mem (addr q) ∧ (m p).capacityLater q = st.mem (addr q) ∧ (m p).len q = st.mem (addr q) ∧
            (m p).entries q = (content q (st.mem (addr q))).now st := by
          intro q hq
          obtain ⟨⟨st1, ⟨hs1, n1, t1⟩, a2⟩, ⟨st2, ⟨hs2, n2, t2⟩, a4⟩, ⟨st3, ⟨hs3, n3, t3⟩, a6⟩, st4, ⟨hs4, ⟨n4, t4⟩, _⟩, a8⟩ := hy p _ hk q hq
          refine ⟨by rw [← a2, t1.stacked.mem], by rw [← a4, t2.stacked.mem], by rw [← a6, t3.stacked.mem], ?_⟩
          rw [ihs p _ q hk hq, ← a8, t4.stacked.mem]
        simp only [PlaceKind.seen]
        have e1 : shards.map (fun q => capacity q ((m p).capacity q)) = shards.map (fun q => capacity q (st.mem (addr q))) := List.map_congr_left fun q h => by rw [(hq q h).1]
        have e2 : shards.map (fun q => capacity q ((m p).capacityLater q)) = shards.map (fun q => capacity q (st.mem (addr q))) := List.map_congr_left fun q h => by rw [(hq q h).2.1]
        have e3 : shards.map (fun q => len q ((m p).len q)) = shards.map (fun q => len q (st.mem (addr q))) := List.map_congr_left fun q h => by rw [(hq q h).2.2.1]
        have e4 : shards.map (fun q => bytes q ((m p).capacity q)) = shards.map (fun q => bytes q (st.mem (addr q))) := List.map_congr_left fun q h => by rw [(hq q h).1]
        have e5 : shards.map (fun q => ((m p).entries q).itemsOf) = shards.map (fun q => ((content q (st.mem (addr q))).now st).itemsOf) := List.map_congr_left fun q h => by rw [(hq q h).2.2.2]
        rw [e1, e2, e3, e4, List.flatMap_def, List.flatMap_def, e5]

theorem sameFrame_with {f c : Cell} {d : Datum} (h : f.SameFrame c) (e : c.datum = d) : c = f.with d := by
  subst e
  cases f <;> cases c <;> simp_all [Cell.SameFrame, Cell.with, Cell.datum]

theorem seesEach_eq {L : Looks} {f : LiveDatum → Datum} (hf : ∀ v d, LiveDatum.Sees L v d → d = f v) {roots : List LiveDatum} {ds : List Datum}
    (h : LiveDatum.SeesEach L roots ds) : ds = roots.map f := by
  induction h with
  | nil => rfl
  | cons h _ ih => rw [List.map_cons, ← ih, hf _ _ h]

theorem Env.quiet_looksAgain (m : Nat) (st : Store) : ∀ k, Env.quiet.looksAgain m st k = st
  | 0 => rfl
  | k + 1 => by simp only [Env.looksAgain, Env.quiet_looksAgain m st k]; rfl

/-- Locks that are not exclusively held when nobody else runs. -/
theorem quiet_letsGo {S : Ptr → Prop} {st : Store} {n : Nat} (hS : ∀ a, S a → (st.lock a).readable = true) : Env.quiet.LetsGo S st n := by
  intro a ha
  have h := hS a ha
  simp only [LockState.readable, Bool.and_eq_true, Bool.not_eq_true'] at h
  refine ⟨by simp_all, fun hs m st' ht => ⟨0, ?_⟩⟩
  rw [Env.quiet_looksAgain]
  have := ht.lockInv (P := fun x => x.1 = false) (a := a) (fun n st h => h) (by simp_all [LockState.others])
  simpa [LockState.others] using this

/-- C61, nobody else runs: the output is exactly that documented for what is there, each place that grants access with its content and each other one without, and afterwards all
locks, counts and memory are as before. -/
theorem C61_alone [Target] (S : Ptr → Prop) (H : Ptr → LiveCell) (hcells : ∀ p, (H p).value.OK S) (roots : List LiveDatum) (hroots : ∀ v ∈ roots, v.OK S) (hO : OneOwner H roots) (st : Store) (n : Nat)
    (hS : ∀ a, S a → (st.lock a).readable = true)
    (cells : Ptr → Cell) (hc : cells = fun p => (H p).frame.with ((H p).value.now st)) (ds : List Datum) (hds : ds = roots.map fun v => v.now st)
    (L : List Ptr) (hn : L.Nodup) (hL : ∀ p, p ∈ L ↔ ReachableCell cells ds p) (fuel : Nat) (hf : L.length ≤ fuel) (ord : HashOrder TreeId) (ord' : HashOrder (List Str)) :
    ∃ b n' out, Builder.default.useRootsL .quiet (liveVisits H fuel roots) st n = .ended b st n' .returned ∧ b.finish ord = .ok out ∧
      ∃ (recs : List Rec) (lines : List (Path × Nat)) (ws : List Path),
        recs = ds.flatMap (fun d => d.report []) ++ L.flatMap (fun p => (cells p).report) ∧
        out.flamegraph.write ord' = lines.flatMap renderLine ∧
        out.flamegraph.totalSize = attributed recs + (ws.map fun p => childrenAt recs p - sizeAt recs p).sum ∧
        out.warnings = ws.flatMap (renderWarning recs) ∧
        lines.Pairwise (fun a b => pathLt a.1.names b.1.names) ∧
        (∀ p n, (p, n) ∈ lines ↔ entered recs p ∧ n = selfSpec recs p ∧ n ≠ 0) ∧
        ws.Pairwise (fun a b => pathLt a.names b.names) ∧ ∀ p, p ∈ ws ↔ overfull recs p := by
  have hsees : ∀ {v d}, LiveDatum.Sees (Env.quiet.looks (OneOwner H roots) st n) v d → d = v.now st := fun h => C61_quiet_sees _ hO st n h
  have hcell : ∀ p, (cells p).datum = (H p).value.now st := by
    intro p; rw [hc]; dsimp only; cases (H p).frame <;> rfl
  have hmay : ∀ p, MayReach (Env.quiet.looks (OneOwner H roots) st n) H roots p → p ∈ L := by
    intro p h
    rw [hL]
    induction h with
    | root hv hs hp => rw [hsees hs] at hp; exact .root (by rw [hds]; exact List.mem_map.2 ⟨_, hv, rfl⟩) hp
    | step _ hs hp ih => rw [hsees hs, ← hcell] at hp; exact .step ih hp
  obtain ⟨b, st', n', out, hrun, -, ⟨m, ht⟩, hfin, ds', cells', reached, hds', hcs', hrn, hrm, -, hrl, hdsWF, hcWF, hobs⟩ :=
    live_core .quiet (fun _ _ => ⟨fun _ => ⟨rfl, rfl⟩, fun _ => ⟨rfl, rfl⟩⟩) H hcells roots hroots st n (quiet_letsGo hS) L hn hmay fuel hf ord
  have e1 : st' = st := ht.stacked
  subst e1
  have e2 : ds' = ds := by
    rw [hds]
    exact seesEach_eq (fun v d h => hsees h) hds'
  have e3 : cells' = cells := by
    funext p
    have h := hcs' p
    rw [hc]
    exact sameFrame_with h.2 (hsees h.1)
  subst e2 e3
  obtain ⟨recs, lines, ws, a1, a2, a3⟩ := C52_text cells' ds' hdsWF L hn hL (fun p _ => hcWF p) fuel hf ord ord'
  have h := hobs ord'
  rw [a2] at h
  simp only [Except.ok.injEq, Obs.mk.injEq] at h
  exact ⟨b, n', out, hrun, hfin, recs, lines, ws, a1, h.1.symm, h.2.1.symm, h.2.2.symm, a3⟩

/-! A `Mutex<String>` in an `Arc`, and another thread that, unless the visit has the lock, replaces the string at every step, and sometimes holds the lock. -/
namespace LiveEx

attribute [local instance] Target.x64
def tArc : Ty := ⟨ascii "alloc::sync::Arc<std::sync::Mutex<alloc::string::String>>", 8, true⟩
def tMutex : Ty := ⟨ascii "std::sync::Mutex<alloc::string::String>", 32, true⟩
def tString : Ty := ⟨ascii "alloc::string::String", 24, true⟩

/-- The other thread. -/
def env : Env := fun n st =>
  if (st.lock 1).heldExclusive = true ∨ 0 < (st.lock 1).heldShared then st else { st with
    mem := setAt st.mem 1 (st.mem 1 + n)
    lock := setAt st.lock 1 { st.lock 1 with othersExclusive := n % 3 == 0 } }

/-- The content of the mutex depends on the memory at address 1. -/
def value : LiveDatum := .live (.arc tMutex 8 3) (fun p => if p = 3 then some (.cell .stdTryLock) else none) (fun _ => 1)
  (fun _ x => .still (.string tString (x % 5) 4))

/-- The mutex is in the allocation at address 7. -/
def vals : Ptr → LiveDatum := fun p => if p = 7 then value else .still (.hollow tMutex 0)

def H : Ptr → LiveCell := fun p => ⟨.arc 48 (vals p).shape, vals p⟩

def roots : List LiveDatum := [.still (.arc tArc 8 7), .still (.arc tArc 8 7)]

/-- Nothing waits. -/
def S : Ptr → Prop := fun _ => False

theorem letsGo (st : Store) (n : Nat) : env.LetsGo S st n := fun _ h => h.elim

theorem value_ok : value.OK S := by
  refine ⟨trivial, ?_, ?_, fun p x => ⟨by omega, by decide⟩⟩
  · simp [Datum.pointers]
  · intro p how h
    dsimp only at h
    split at h
    · cases h; exact ⟨rfl, fun h => h.elim⟩
    · cases h

theorem vals_ok (p : Ptr) : (vals p).OK S := by
  simp only [vals]
  split
  · exact value_ok
  · trivial

theorem roots_ok : ∀ v ∈ roots, v.OK S := by
  intro v hv; simp only [roots, List.mem_cons, List.not_mem_nil, or_false, or_self] at hv; subst hv; trivial

/-- What can be seen of the mutex. -/
def seen (x : Nat) : Datum := .cell tMutex true (.string tString (x % 5) 4)

theorem sees {L : Looks} {d : Datum} (h : value.Sees L d) : d = .cellEmpty tMutex ∨ ∃ x, d = seen x := by
  simp only [value] at h
  cases h with
  | live _ _ _ _ granted x d m y ha hm hs =>
    cases hg : granted 3 with
    | false => left; simp [Datum.fill, PlaceKind.seen, hg]
    | true =>
      right
      have := hs 3 (.cell .stdTryLock) .stdTryLock rfl rfl hg
      refine ⟨x 3, ?_⟩
      generalize hd : d 3 = c at this
      cases this
      simp [Datum.fill, PlaceKind.seen, hg, hd, seen]

theorem vals_sees {L : Looks} {p : Ptr} {d : Datum} (h : (vals p).Sees L d) : d = .cellEmpty tMutex ∨ d = .hollow tMutex 0 ∨ ∃ x, d = seen x := by
  simp only [vals] at h
  split at h
  · rcases sees h with h | h
    · exact .inl h
    · exact .inr (.inr h)
  · cases h; exact .inr (.inl rfl)

theorem reach (L : Looks) (cells : Ptr → LiveCell) (hc : ∀ p, (cells p).value = vals p) (p : Ptr) (h : MayReach L cells roots p) : p = 7 := by
  induction h with
  | root hv hs hp =>
    simp only [roots, List.mem_cons, List.not_mem_nil, or_false, or_self] at hv
    subst hv
    cases hs
    simpa [Datum.pointers] using hp
  | step _ hs hp ih =>
    rw [hc] at hs
    exfalso
    rcases vals_sees hs with rfl | rfl | ⟨x, rfl⟩ <;> simp [Datum.pointers, seen] at hp

theorem has (p a : Ptr) (h : (vals p).Has a) : p = 7 ∧ a = 1 := by
  simp only [vals] at h
  split at h
  · rename_i e
    simp only [value] at h
    cases h with
    | here _ _ e' => exact ⟨e, e'.symm⟩
    | inside _ _ h => cases h
    | shard hk hq _ =>
      dsimp only at hk
      split at hk
      · cases hk; cases hq
      · cases hk
    | inShard hk hq _ =>
      dsimp only at hk
      split at hk
      · cases hk; cases hq
      · cases hk
  · cases h

/-- The mutex has one owner. -/
theorem oneOwner (cells : Ptr → LiveCell) (hc : ∀ p, (cells p).value = vals p) : OneOwner cells roots where
  nestedRoot v hv := by simp only [roots, List.mem_cons, List.not_mem_nil, or_false, or_self] at hv; subst hv; trivial
  nestedCell p := by
    rw [hc]
    simp only [vals]
    split
    · refine ⟨fun p k how _ _ x => ⟨fun h => (by cases h), trivial⟩, fun p k q hk hq => ?_⟩
      dsimp only at hk
      split at hk
      · cases hk; cases hq
      · cases hk
    · trivial
  oneCell p q a hp hq := by rw [hc] at hp hq; rw [(has p a hp).1, (has q a hq).1]
  notBoth v hv a ha := by
    simp only [roots, List.mem_cons, List.not_mem_nil, or_false, or_self] at hv
    subst hv
    cases ha

theorem respectful : env.Respectful := by
  intro n st
  simp only [env]
  split
  · exact ⟨fun a => ⟨rfl, rfl⟩, fun p => ⟨rfl, rfl⟩⟩
  · refine ⟨fun a => ?_, fun p => ⟨rfl, rfl⟩⟩
    simp only [setAt]
    split
    · rename_i h; rw [h]; exact ⟨rfl, rfl⟩
    · exact ⟨rfl, rfl⟩

/-- The hypotheses of C61 are met. -/
example (st : Store) (n : Nat) (ord : HashOrder TreeId) (ord' : HashOrder (List Str)) :=
  C61_snapshot S env respectful H vals_ok roots roots_ok st n (letsGo st n) [7] (by simp) (fun p h => by rw [reach _ _ (fun _ => rfl) p h]; simp) 1 (by simp) ord ord'

/-- Nobody holds anything, the string has two bytes. -/
def store : Store := ⟨fun _ => ⟨false, 0, false, false, true, false, 0⟩, fun _ => ⟨1, 0, 0⟩, fun _ => 2⟩

theorem noShards {p : Ptr} {k : PlaceKind} (h : (if p = 3 then some (PlaceKind.cell .stdTryLock) else none) = some k) : k.shards = [] := by
  split at h
  · cases h; rfl
  · cases h

/-- Both outcomes occur: at time 0 the other thread has the lock, .. -/
theorem sees_empty : value.Sees (env.looks (OneOwner H roots) store 0) (.cellEmpty tMutex) := by
  have := LiveDatum.Sees.live (L := env.looks (OneOwner H roots) store 0) (.arc tMutex 8 3) (fun p => if p = 3 then some (.cell .stdTryLock) else none) (fun _ => 1)
    (fun _ x => .still (.string tString (x % 5) 4)) (fun _ => false) (fun _ => 2) (fun _ => .cellEmpty tMutex) (fun _ => ⟨fun _ => 0, fun _ => 0, fun _ => 0, fun _ => .cellEmpty tMutex⟩) (fun _ _ => 0)
    (by
      intro p k hk
      split at hk
      · cases hk; exact ⟨env 0 store, ⟨[], ⟨1, .others .start⟩, fun _ _ h => (by cases h)⟩, rfl⟩
      · cases hk)
    (fun _ _ _ _ _ h => by cases h) (fun _ _ _ _ _ h => by cases h) (fun p k hk q hq => by rw [noShards hk] at hq; cases hq) (fun p k q hk hq => by rw [noShards hk] at hq; cases hq)
  exact this

/-- .. later it has not, and the string has been replaced. -/
theorem sees_three : value.Sees (env.looks (OneOwner H roots) store 0) (seen 3) := by
  have := LiveDatum.Sees.live (L := env.looks (OneOwner H roots) store 0) (.arc tMutex 8 3) (fun p => if p = 3 then some (.cell .stdTryLock) else none) (fun _ => 1)
    (fun _ x => .still (.string tString (x % 5) 4)) (fun _ => true) (fun _ => 3) (fun _ => .string tString (3 % 5) 4) (fun _ => ⟨fun _ => 0, fun _ => 0, fun _ => 0, fun _ => .cellEmpty tMutex⟩) (fun _ _ => 0)
    (by
      intro p k hk
      split at hk
      · cases hk; exact ⟨env 1 (env 0 store), ⟨[], ⟨2, .others (.others .start)⟩, fun _ _ h => (by cases h)⟩, rfl⟩
      · cases hk)
    (by
      intro p k how hk hh _
      split at hk
      · cases hk
        cases hh
        exact ⟨_, ⟨[.lock .stdTryLock 1], ⟨2, .acquire .stdTryLock 1 (.others (.others .start)) rfl⟩, by simp⟩, rfl⟩
      · cases hk) (fun _ _ _ _ _ _ => .still _) (fun p k hk q hq => by rw [noShards hk] at hq; cases hq) (fun p k q hk hq => by rw [noShards hk] at hq; cases hq)
  exact this

/-- The hypotheses of the theorem on content are met. -/
example (D : Prop) (st : Store) (n : Nat) (d : Datum) (h : value.Sees (env.looks D st n) d) := C61_guarded D env respectful (by
  intro n st a ha
  simp only [env]
  split
  · rfl
  · rename_i hn
    simp only [setAt]
    split
    · rename_i e; subst e; exact (hn ha).elim
    · rfl) st n h

/-- A lock that the other thread does not touch, address 2. -/
example (D : Prop) (hD : D) (st : Store) (n : Nat) : ∀ st', (env.looks D st n).asks 2 st' → st'.lock 2 = st.lock 2 :=
  C61_untouched D hD env respectful 2 (by intro n st; simp only [env]; split <;> simp [setAt]) st n

/-- The hypotheses of the theorem for a program with one thread are met; the string in the mutex has two bytes and is seen. -/
example (n : Nat) (ord : HashOrder TreeId) (ord' : HashOrder (List Str)) :=
  C61_alone S H vals_ok roots roots_ok (oneOwner H fun _ => rfl) store n (fun _ h => h.elim) (fun p => (H p).frame.with ((H p).value.now store)) rfl [.arc tArc 8 7, .arc tArc 8 7] rfl [7] (by simp)
    (by
      intro p
      simp only [List.mem_singleton]
      refine ⟨fun h => .root (d := .arc tArc 8 7) (by simp) (by simp [Datum.pointers, h]), fun h => ?_⟩
      induction h with
      | root hd hp =>
        simp only [List.mem_cons, List.not_mem_nil, or_false, or_self] at hd
        subst hd
        simpa [Datum.pointers] using hp
      | step _ hp ih =>
        subst ih
        exfalso
        revert hp
        simp [H, vals, value, LiveDatum.shape, Cell.with, Cell.datum, LiveDatum.now, Datum.fill, PlaceKind.seen, PlaceKind.answer, store, Access.granted, LockState.free,
          LockState.readable, Datum.pointers]) 1 (by simp) ord ord'

example : (H 7).value.now store = seen 2 := rfl

/-- The hypotheses of the theorem on `size_of_unique_allocated_data` are met. -/
example (st : Store) (n : Nat) := C61_size_of S env respectful H vals_ok value value_ok 1 st n (letsGo st n)

def frames : Ptr → Alloc := fun p => .arc 8 (vals p).shape

theorem bytes (p : Ptr) : (frames p).Occupies 48 := ⟨_, _, by
  have : (vals p).shape.size = 32 := by simp only [vals]; split <;> rfl
  simp only [frames, Alloc.layout, this]; exact FootprintExamples.arcBytes, rfl⟩

/-- The hypotheses of C61 with C59 are met. -/
example (st : Store) (n : Nat) (ord : HashOrder TreeId) :=
  C61_footprint NamesExamples.reserved S env respectful frames vals (fun _ => rfl) vals_ok roots roots_ok st n (letsGo st n) [7] (by simp)
    (fun p h => by rw [reach _ _ (fun _ => rfl) p h]; simp)
    (by
      intro v hv d hd
      simp only [roots, List.mem_cons, List.not_mem_nil, or_false, or_self] at hv
      subst hv
      cases hd
      simp only [Datum.Fits, Datum.Named, Ty.Named, tArc, true_and]
      decide)
    (fun _ => 48) (by
      intro p hp
      simp only [List.mem_singleton] at hp
      subst hp
      refine ⟨⟨⟨3, by omega, rfl⟩, by decide⟩, bytes 7, by decide, fun d hd => ?_⟩
      rcases vals_sees hd with rfl | rfl | ⟨x, rfl⟩
      · refine ⟨by simp [Datum.Fits], ?_⟩
        simp only [frames, Alloc.with, Alloc.cell, Cell.Named, Datum.Named, Ty.Named, tMutex]
        decide
      · refine ⟨by simp [Datum.Fits], ?_⟩
        simp only [frames, Alloc.with, Alloc.cell, Cell.Named, Datum.Named, Ty.Named, tMutex]
      · refine ⟨by simp [seen, Datum.Fits, Datum.size, Datum.value, Impl.string, Impl.sized, tMutex, tString], ?_⟩
        simp only [frames, Alloc.with, Alloc.cell, Cell.Named, Datum.Named, Ty.Named, seen, tMutex, tString]
        decide) 1 (by simp) ord

end LiveEx

/-! A `DashMap<u8, Mutex<String>>` in an `Arc`, with two shards: another thread now and then takes the first shard exclusively and changes it, unless the visit has its read lock; and
it now and then has the mutex in that shard. -/
namespace LiveDash

attribute [local instance] Target.x64
open LiveEx (tMutex tString)
def tArc : Ty := ⟨ascii "alloc::sync::Arc<dashmap::DashMap<u8, std::sync::Mutex<alloc::string::String>>>", 8, true⟩
def tDash : Ty := ⟨ascii "dashmap::DashMap<u8, std::sync::Mutex<alloc::string::String>>", 40, true⟩
def tHash : Ty := ⟨ascii "hashbrown::HashMap<u8, std::sync::Mutex<alloc::string::String>>", 32, true⟩
def tKey : Ty := ⟨ascii "u8", 1, false⟩
def tKV : Ty := ⟨ascii "(u8, std::sync::Mutex<alloc::string::String>)", 40, true⟩

/-- The other thread. -/
def env : Env := fun n st => { st with
  mem := setAt st.mem 1 (if 0 < (st.lock 1).heldShared then st.mem 1 else st.mem 1 + n)
  lock := setAt (setAt st.lock 1 { st.lock 1 with othersExclusive := n % 3 == 0 && (st.lock 1).heldShared == 0 }) 3
    { st.lock 3 with othersExclusive := n % 2 == 0 && !(st.lock 3).heldExclusive } }

/-- The locks of the shards. -/
def shardAddr : Ptr → Ptr := fun q => if q = 10 then 1 else 2

/-- The places of the entries. -/
def mutexKind : Ptr → Option PlaceKind := fun p => if p = 3 then some (.cell .stdTryLock) else none

/-- The entries of shard `q`: a key, and a mutex at address 3 or 4. -/
def entries (q : Ptr) : LiveDatum := .live (.map tHash 0 [.plain tKey] [.arc tMutex 8 3]) mutexKind (fun _ => if q = 10 then 3 else 4)
  (fun _ y => .still (.string tString (y % 5) 4))

/-- The `DashMap`, at place 5. -/
def dashKind : PlaceKind := .dashMap tKey tMutex tKV [10, 11] (fun _ x => 3 + x % 2) (fun _ _ => 1) (fun _ x => 40 * (3 + x % 2) + 16)

def value : LiveDatum := .live (.arc tDash 8 5) (fun p => if p = 5 then some dashKind else none) shardAddr (fun q _ => entries q)

def vals : Ptr → LiveDatum := fun p => if p = 7 then value else .still (.hollow tDash 0)

def H : Ptr → LiveCell := fun p => ⟨.arc 56 (vals p).shape, vals p⟩

def roots : List LiveDatum := [.still (.arc tArc 8 7), .still (.arc tArc 8 7)]

/-- What the visit waits for: the shards. -/
def S : Ptr → Prop := fun a => a = 1 ∨ a = 2

theorem dash_of {p : Ptr} {k : PlaceKind} (h : (if p = 5 then some dashKind else none) = some k) : k = dashKind := by
  split at h
  · cases h; rfl
  · cases h

theorem mutex_of {p : Ptr} {k : PlaceKind} (h : mutexKind p = some k) : k = .cell .stdTryLock := by
  simp only [mutexKind] at h
  split at h
  · cases h; rfl
  · cases h

theorem entries_ok (q : Ptr) : (entries q).OK S := by
  refine ⟨⟨rfl, by simp [Datum.WFAll, Datum.WF], by simp [Datum.WFAll, Datum.WF]⟩, ?_, ?_, fun p x => ⟨by omega, by decide⟩⟩
  · simp [Datum.pointers, Datum.pointersEach, pointersPairs, mutexKind]
  · intro p k h
    rw [mutex_of h]
    refine ⟨rfl, fun h => ?_⟩
    exfalso
    revert h
    dsimp only [S]
    split <;> decide

theorem value_ok : value.OK S := by
  refine ⟨trivial, by simp [Datum.pointers], ?_, fun p x => entries_ok p⟩
  intro p k h
  rw [dash_of h]
  refine ⟨by decide, by decide, ?_, ?_⟩
  · intro w
    simp only [List.map_cons, List.map_nil, List.sum_cons, List.sum_nil]
    have h1 : w 10 % 2 < 2 := Nat.mod_lt _ (by omega)
    have h2 : w 11 % 2 < 2 := Nat.mod_lt _ (by omega)
    simp only [Usize.modulus_x64]
    omega
  · intro q hq
    refine ⟨?_, fun x => ⟨by simp only [tKV]; omega, tHash, 0, _, _, rfl, ?_, ?_⟩⟩
    · simp only [S, shardAddr]; split <;> simp
    · intro d hd; rw [List.mem_singleton.1 hd]; exact ⟨rfl, rfl⟩
    · intro d hd; rw [List.mem_singleton.1 hd]; exact ⟨rfl, rfl⟩

theorem vals_ok (p : Ptr) : (vals p).OK S := by
  simp only [vals]
  split
  · exact value_ok
  · trivial

theorem roots_ok : ∀ v ∈ roots, v.OK S := by
  intro v hv; simp only [roots, List.mem_cons, List.not_mem_nil, or_false, or_self] at hv; subst hv; trivial

theorem respectful : env.Respectful := by
  intro n st
  refine ⟨fun a => ?_, fun p => ⟨rfl, rfl⟩⟩
  simp only [env, setAt]
  split
  · rename_i h; rw [h]; exact ⟨rfl, rfl⟩
  · split
    · rename_i h; rw [h]; exact ⟨rfl, rfl⟩
    · exact ⟨rfl, rfl⟩

/-- Nobody holds anything. -/
def store : Store := ⟨fun _ => ⟨false, 0, false, false, true, false, 0⟩, fun _ => ⟨1, 0, 0⟩, fun _ => 2⟩

/-- The other thread lets go of the shards, again and again. -/
theorem letsGo (n : Nat) : env.LetsGo S store n := by
  rintro a (rfl | rfl)
  · refine ⟨rfl, fun hs m st' _ => ?_⟩
    have h : ∀ t st, t % 3 ≠ 0 → ((env t st).lock 1).othersExclusive = false := by
      intro t st h
      simp [env, setAt, h]
    by_cases hm : m % 3 = 0
    · exact ⟨1, h _ _ (by show (m + 1) % 3 ≠ 0; rw [Nat.add_mod, hm]; decide)⟩
    · exact ⟨0, h _ _ hm⟩
  · refine ⟨rfl, fun hs m st' ht => ⟨0, ?_⟩⟩
    have := Timeline.lockInv (env := env) (P := fun x => x.1 = false) (a := 2) (fun n st h => by simpa [env, setAt, LockState.others] using h) (by rfl) (ht.others)
    exact this

/-- What can be seen of the entries of a shard. -/
def seenEntries (c : Datum) : Datum := .map tHash 0 [.plain tKey] [c]

theorem entries_sees {L : Looks} {q : Ptr} {d : Datum} (h : (entries q).Sees L d) : d = seenEntries (.cellEmpty tMutex) ∨ ∃ x, d = seenEntries (LiveEx.seen x) := by
  simp only [entries] at h
  cases h with
  | live _ _ _ _ granted x d m y ha hm hs =>
    cases hg : granted 3 with
    | false => left; simp [Datum.fill, Datum.fillAll, PlaceKind.seen, hg, mutexKind, seenEntries]
    | true =>
      right
      have := hs 3 (PlaceKind.cell .stdTryLock) .stdTryLock (by rfl) rfl hg
      refine ⟨x 3, ?_⟩
      generalize hd : d 3 = c at this
      cases this
      simp [Datum.fill, Datum.fillAll, PlaceKind.seen, hg, hd, LiveEx.seen, mutexKind, seenEntries]

/-- A `DashMap` with these entries. -/
def seenDash (c1 c2 l1 l2 : Nat) (v1 v2 : Datum) : Datum :=
  .dashMap tDash tKey tMutex tKV (3 + c1 % 2 + (3 + c2 % 2)) [.plain tKey, .plain tKey] [v1, v2] (3 + l1 % 2 + (3 + l2 % 2)) 2 (40 * (3 + c1 % 2) + 16 + (40 * (3 + c2 % 2) + 16))

theorem sees {L : Looks} {d : Datum} (h : value.Sees L d) :
    ∃ c1 c2 l1 l2 v1 v2, d = seenDash c1 c2 l1 l2 v1 v2 ∧ ∀ v, v = v1 ∨ v = v2 → v = .cellEmpty tMutex ∨ ∃ x, v = LiveEx.seen x := by
  simp only [value] at h
  cases h with
  | live _ _ _ _ granted x d m y ha hm hs hy hys =>
    have h1 := hys 5 dashKind 10 (by rfl) (by simp [dashKind, PlaceKind.shards])
    have h2 := hys 5 dashKind 11 (by rfl) (by simp [dashKind, PlaceKind.shards])
    have e : ∀ {q d}, (entries q).Sees L d → ∃ v, d = seenEntries v ∧ (v = .cellEmpty tMutex ∨ ∃ x, v = LiveEx.seen x) := by
      intro q d h
      rcases entries_sees h with rfl | ⟨x, rfl⟩
      · exact ⟨_, rfl, .inl rfl⟩
      · exact ⟨_, rfl, .inr ⟨x, rfl⟩⟩
    obtain ⟨v1, e1, k1⟩ := e h1
    obtain ⟨v2, e2, k2⟩ := e h2
    refine ⟨(m 5).capacity 10, (m 5).capacity 11, (m 5).capacityLater 10, (m 5).capacityLater 11, v1, v2, ?_, ?_⟩
    · simp [Datum.fill, PlaceKind.seen, dashKind, e1, e2, seenEntries, Datum.keysOf, Datum.valuesOf, seenDash]
    · rintro v (rfl | rfl)
      · exact k1
      · exact k2

theorem reach (L : Looks) (p : Ptr) (h : MayReach L H roots p) : p = 7 := by
  induction h with
  | root hv hs hp =>
    simp only [roots, List.mem_cons, List.not_mem_nil, or_false, or_self] at hv
    subst hv
    cases hs
    simpa [Datum.pointers] using hp
  | step _ hs hp ih =>
    exfalso
    simp only [H, vals] at hs
    split at hs
    · obtain ⟨c1, c2, l1, l2, v1, v2, rfl, hv⟩ := sees hs
      have e : ∀ v, v = v1 ∨ v = v2 → v.pointers = [] := by
        intro v h
        rcases hv v h with rfl | ⟨x, rfl⟩ <;> simp [Datum.pointers, LiveEx.seen]
      simp [seenDash, Datum.pointers, Datum.pointersEach, pointersPairs, e v1 (.inl rfl), e v2 (.inr rfl)] at hp
    · rename_i h; exact h ih

/-- The hypotheses of C61 are met: the visit returns although the first shard is taken again and again. -/
example (n : Nat) (ord : HashOrder TreeId) (ord' : HashOrder (List Str)) :=
  C61_snapshot S env respectful H vals_ok roots roots_ok store n (letsGo n) [7] (by simp) (fun p h => by rw [reach _ p h]; simp) 1 (by simp) ord ord'

example (n : Nat) := C61_size_of S env respectful H vals_ok value value_ok 1 store n (letsGo n)

theorem has_entries {q a : Ptr} (h : (entries q).Has a) : a = (if q = 10 then 3 else 4) := by
  simp only [entries] at h
  cases h with
  | here _ _ e => exact e.symm
  | inside _ _ h => cases h
  | shard hk hq => rw [mutex_of hk] at hq; cases hq
  | inShard hk hq => rw [mutex_of hk] at hq; cases hq

theorem has {p a : Ptr} (h : (vals p).Has a) : p = 7 := by
  simp only [vals] at h
  split at h
  · assumption
  · cases h

theorem nested_entries (q : Ptr) : (entries q).Nested :=
  ⟨fun p k how _ _ x => ⟨fun h => (by cases h), trivial⟩, fun p k q hk hq => by rw [mutex_of hk] at hq; cases hq⟩

theorem oneOwner : OneOwner H roots where
  nestedRoot v hv := by simp only [roots, List.mem_cons, List.not_mem_nil, or_false, or_self] at hv; subst hv; trivial
  nestedCell p := by
    show (vals p).Nested
    simp only [vals]
    split
    · refine ⟨fun p k how hk hh => ?_, fun p k q hk hq x => ⟨fun h => ?_, nested_entries q⟩⟩
      · rw [dash_of hk] at hh; cases hh
      · have := has_entries h
        revert this
        simp only [shardAddr]
        split <;> decide
    · trivial
  oneCell p q a hp hq := by rw [has hp, has hq]
  notBoth v hv a ha := by
    simp only [roots, List.mem_cons, List.not_mem_nil, or_false, or_self] at hv
    subst hv
    cases ha

/-- If nobody else runs, the map is seen as it is. -/
example (n : Nat) (ord : HashOrder TreeId) (ord' : HashOrder (List Str)) :=
  C61_alone S H vals_ok roots roots_ok oneOwner store n (fun _ _ => rfl) (fun p => (H p).frame.with ((H p).value.now store)) rfl [.arc tArc 8 7, .arc tArc 8 7] rfl [7] (by simp)
    (by
      intro p
      simp only [List.mem_singleton]
      refine ⟨fun h => .root (d := .arc tArc 8 7) (by simp) (by simp [Datum.pointers, h]), fun h => ?_⟩
      induction h with
      | root hd hp =>
        simp only [List.mem_cons, List.not_mem_nil, or_false, or_self] at hd
        subst hd
        simpa [Datum.pointers] using hp
      | step _ hp ih =>
        subst ih
        exfalso
        exact (List.not_mem_nil (a := _)) (show _ ∈ [] from hp)) 1 (by simp) ord ord'

example : (H 7).value.now store = seenDash 2 2 2 2 (LiveEx.seen 2) (LiveEx.seen 2) := rfl

/-- With the other thread, the capacity may be different when it is read the second time, and one of the mutexes refuse. -/
example : value.Sees (env.looks (OneOwner H roots) store 0) (seenDash 2 2 3 2 (.cellEmpty tMutex) (LiveEx.seen 2)) := by
  have occ0 : env.Occurs False store 0 [] store := ⟨0, .start⟩
  have occ1 : env.Occurs False store 0 [] (env 0 store) := ⟨1, .others .start⟩
  have occ2 : env.Occurs False store 0 [] (env 1 (env 0 store)) := ⟨2, .others (.others .start)⟩
  let seenAt : Ptr → Datum := fun q => if q = 10 then .cellEmpty tMutex else LiveEx.seen 2
  have hm : ∀ q, (entries q).Sees (env.looks (OneOwner H roots) store 0) (seenEntries (seenAt q)) := by
    intro q
    have := LiveDatum.Sees.live (L := env.looks (OneOwner H roots) store 0) (.map tHash 0 [.plain tKey] [.arc tMutex 8 3]) mutexKind (fun _ => if q = 10 then 3 else 4)
      (fun _ y => .still (.string tString (y % 5) 4)) (fun _ => decide (q ≠ 10)) (fun _ => 2) (fun _ => .string tString 2 4) (fun _ => ⟨fun _ => 0, fun _ => 0, fun _ => 0, fun _ => .cellEmpty tMutex⟩)
      (fun _ _ => 0)
      (by
        intro p k hk
        rw [mutex_of hk]
        by_cases hq : q = 10
        · subst hq
          exact ⟨_, ⟨[], occ1, fun _ _ h => by cases h⟩, rfl⟩
        · refine ⟨_, ⟨[], occ0, fun _ _ h => by cases h⟩, ?_⟩
          simp [PlaceKind.answer, hq, store, Access.granted, LockState.free, LockState.readable])
      (by
        intro p k how hk hh hg
        rw [mutex_of hk] at hh
        cases hh
        exact ⟨_, ⟨[.lock .stdTryLock (if q = 10 then 3 else 4)], ⟨0, .acquire .stdTryLock _ .start rfl⟩, List.mem_singleton.2 rfl⟩, rfl⟩)
      (fun _ _ _ _ _ _ => .still _) (fun p k hk q hq => by rw [mutex_of hk] at hq; cases hq) (fun p k q hk hq => by rw [mutex_of hk] at hq; cases hq)
    have e : ∀ d d', (entries q).Sees (env.looks (OneOwner H roots) store 0) d → d = d' → (entries q).Sees (env.looks (OneOwner H roots) store 0) d' := by
      intro d d' h e; rw [← e]; exact h
    refine e _ _ this ?_
    by_cases hq : q = 10
    · simp [Datum.fill, Datum.fillAll, PlaceKind.seen, hq, mutexKind, seenEntries, seenAt]
    · simp [Datum.fill, Datum.fillAll, PlaceKind.seen, hq, mutexKind, seenEntries, seenAt, LiveEx.seen]
  have := LiveDatum.Sees.live (L := env.looks (OneOwner H roots) store 0) (.arc tDash 8 5) (fun p => if p = 5 then some dashKind else none) shardAddr (fun q _ => entries q)
    (fun _ => true) (fun _ => 2) (fun _ => .cellEmpty tMutex) (fun _ => ⟨fun _ => 2, fun q => if q = 10 then 3 else 2, fun _ => 2, fun q => seenEntries (seenAt q)⟩) (fun _ _ => 2)
    (by intro p k hk; rw [dash_of hk]; exact ⟨_, ⟨[], occ0⟩, rfl⟩)
    (by intro p k how hk hh; rw [dash_of hk] at hh; cases hh)
    (by intro p k how hk hh; rw [dash_of hk] at hh; cases hh)
    (by
      intro p k hk q _
      refine ⟨⟨_, ⟨[], occ0⟩, rfl⟩, ?_, ⟨_, ⟨[], occ0⟩, rfl⟩, _, ⟨[.lock .read (shardAddr q)], ⟨0, .acquire .read _ .start rfl⟩, List.mem_singleton.2 rfl⟩, rfl⟩
      by_cases hq : q = 10
      · subst hq; exact ⟨_, ⟨[], occ2⟩, rfl⟩
      · refine ⟨_, ⟨[], occ0⟩, ?_⟩
        simp [hq, store])
    (fun p k q hk hq => hm q)
  have e : ∀ d d', value.Sees (env.looks (OneOwner H roots) store 0) d → d = d' → value.Sees (env.looks (OneOwner H roots) store 0) d' := by
    intro d d' h e; rw [← e]; exact h
  refine e _ _ this ?_
  simp [Datum.fill, PlaceKind.seen, dashKind, seenDash, seenEntries, seenAt, Datum.keysOf, Datum.valuesOf]

end LiveDash

/-! A `DashSet<String>` in an `Arc`, with the same two shards and the same other thread: a shard has one or two strings, depending on what is in the memory when it is read locked. -/
namespace LiveDashSet

attribute [local instance] Target.x64
open LiveEx (tString)
open LiveDash (env shardAddr S respectful store letsGo)
def tArc : Ty := ⟨ascii "alloc::sync::Arc<dashmap::DashSet<alloc::string::String>>", 8, true⟩
def tDash : Ty := ⟨ascii "dashmap::DashSet<alloc::string::String>", 40, true⟩
def tHash : Ty := ⟨ascii "hashbrown::HashSet<alloc::string::String>", 32, true⟩

/-- The strings of a shard. -/
def items (x : Nat) : List Datum := .string tString 3 4 :: if x % 2 = 0 then [] else [.string tString 1 8]

/-- The `DashSet`, at place 5. -/
def dashKind : PlaceKind := .dashSet tString [10, 11] (fun _ _ => 3) (fun _ x => 1 + x % 2) (fun _ _ => 24 * 3 + 16)

def value : LiveDatum := .live (.arc tDash 8 5) (fun p => if p = 5 then some dashKind else none) shardAddr (fun _ x => .still (.set tHash 0 (items x)))

def vals : Ptr → LiveDatum := fun p => if p = 7 then value else .still (.hollow tDash 0)

def H : Ptr → LiveCell := fun p => ⟨.arc 56 (vals p).shape, vals p⟩

def roots : List LiveDatum := [.still (.arc tArc 8 7)]

theorem dash_of {p : Ptr} {k : PlaceKind} (h : (if p = 5 then some dashKind else none) = some k) : k = dashKind := by
  split at h
  · cases h; rfl
  · cases h

theorem items_of (x : Nat) : ∀ d ∈ items x, d = .string tString 3 4 ∨ d = .string tString 1 8 := by
  intro d hd
  simp only [items] at hd
  split at hd <;> simp at hd
  · exact .inl hd
  · exact hd

theorem value_ok : value.OK S := by
  refine ⟨trivial, by simp [Datum.pointers], ?_, fun p x => ?_⟩
  · intro p k h
    rw [dash_of h]
    refine ⟨by decide, ?_, ?_⟩
    · intro w
      simp only [List.map_cons, List.map_nil, List.sum_cons, List.sum_nil]
      have h1 : w 10 % 2 < 2 := Nat.mod_lt _ (by omega)
      have h2 : w 11 % 2 < 2 := Nat.mod_lt _ (by omega)
      simp only [Usize.modulus_x64]
      omega
    · intro q hq
      refine ⟨?_, fun x => ⟨by simp [tString], tHash, 0, _, rfl, fun d hd => ?_⟩⟩
      · simp only [S, shardAddr]; split <;> simp
      · rcases items_of x d hd with rfl | rfl <;> exact ⟨rfl, rfl⟩
  · show Datum.WFAll (items x)
    simp only [items]
    split <;> simp [Datum.WFAll, Datum.WF]

theorem vals_ok (p : Ptr) : (vals p).OK S := by
  simp only [vals]
  split
  · exact value_ok
  · trivial

theorem roots_ok : ∀ v ∈ roots, v.OK S := by
  intro v hv; simp only [roots, List.mem_cons, List.not_mem_nil, or_false] at hv; subst hv; trivial

theorem items_pointers (x : Nat) : (Datum.pointersEach (items x)).flatten = [] := by
  simp only [items]
  split <;> simp [Datum.pointersEach, Datum.pointers]

/-- What can be seen: the strings of each shard when it was locked. -/
theorem sees {L : Looks} {d : Datum} (h : value.Sees L d) : ∃ c1 c2 l1 l2 : Nat, d = .dashSet tDash tString 6 (items c1 ++ items c2) 6 (1 + l1 % 2 + (1 + l2 % 2)) 176 := by
  simp only [value] at h
  cases h with
  | live _ _ _ _ granted x d m y ha hm hs hy hys =>
    have h1 := hys 5 dashKind 10 (by rfl) (by simp [dashKind, PlaceKind.shards])
    have h2 := hys 5 dashKind 11 (by rfl) (by simp [dashKind, PlaceKind.shards])
    refine ⟨y 5 10, y 5 11, (m 5).len 10, (m 5).len 11, ?_⟩
    generalize he1 : (m 5).entries 10 = e1 at h1
    generalize he2 : (m 5).entries 11 = e2 at h2
    cases h1
    cases h2
    simp [Datum.fill, PlaceKind.seen, dashKind, he1, he2, Datum.itemsOf]

theorem reach (L : Looks) (p : Ptr) (h : MayReach L H roots p) : p = 7 := by
  induction h with
  | root hv hs hp =>
    simp only [roots, List.mem_cons, List.not_mem_nil, or_false] at hv
    subst hv
    cases hs
    simpa [Datum.pointers] using hp
  | step _ hs hp ih =>
    exfalso
    simp only [H, vals] at hs
    split at hs
    · obtain ⟨c1, c2, l1, l2, rfl⟩ := sees hs
      have e : ∀ a b : List Datum, (Datum.pointersEach (a ++ b)).flatten = (Datum.pointersEach a).flatten ++ (Datum.pointersEach b).flatten := by
        intro a b
        induction a with
        | nil => rfl
        | cons d a ih => simp only [List.cons_append, Datum.pointersEach, List.flatten_cons, ih, List.append_assoc]
      simp only [Datum.pointers, e, items_pointers, List.append_nil, List.not_mem_nil] at hp
    · rename_i h; exact h ih

/-- The hypotheses of C61 are met. -/
example (n : Nat) (ord : HashOrder TreeId) (ord' : HashOrder (List Str)) :=
  C61_snapshot S env respectful H vals_ok roots roots_ok store n (letsGo n) [7] (by simp) (fun p h => by rw [reach _ p h]; simp) 1 (by simp) ord ord'

example (n : Nat) := C61_size_of S env respectful H vals_ok value value_ok 1 store n (letsGo n)

/-- The first shard is seen as it is when the visit has locked it, the second as it always is. -/
example : value.Sees (env.looks (OneOwner H roots) store 0) (.dashSet tDash tString 6 (items 3 ++ items 2) 6 2 176) := by
  have occ0 : env.Occurs False store 0 [] store := ⟨0, .start⟩
  have occ2 : Timeline False env store 0 [] 2 (env 1 (env 0 store)) := .others (.others .start)
  have := LiveDatum.Sees.live (L := env.looks (OneOwner H roots) store 0) (.arc tDash 8 5) (fun p => if p = 5 then some dashKind else none) shardAddr (fun _ x => .still (.set tHash 0 (items x)))
    (fun _ => true) (fun _ => 2) (fun _ => .hollow tDash 0) (fun _ => ⟨fun _ => 2, fun _ => 2, fun _ => 2, fun q => .set tHash 0 (items (if q = 10 then 3 else 2))⟩)
    (fun _ q => if q = 10 then 3 else 2)
    (by intro p k hk; rw [dash_of hk]; exact ⟨_, ⟨[], occ0⟩, rfl⟩)
    (by intro p k how hk hh; rw [dash_of hk] at hh; cases hh)
    (by intro p k how hk hh; rw [dash_of hk] at hh; cases hh)
    (by
      intro p k hk q _
      refine ⟨⟨_, ⟨[], occ0⟩, rfl⟩, ⟨_, ⟨[], occ0⟩, rfl⟩, ⟨_, ⟨[], occ0⟩, rfl⟩, ?_⟩
      by_cases hq : q = 10
      · subst hq; exact ⟨_, ⟨[.lock .read 1], ⟨_, .acquire .read 1 occ2 rfl⟩, List.mem_singleton.2 rfl⟩, rfl⟩
      · refine ⟨_, ⟨[.lock .read (shardAddr q)], ⟨0, .acquire .read _ .start rfl⟩, List.mem_singleton.2 rfl⟩, ?_⟩
        simp [hq, store])
    (fun p k q hk hq => .still _)
  have e : ∀ d d', value.Sees (env.looks (OneOwner H roots) store 0) d → d = d' → value.Sees (env.looks (OneOwner H roots) store 0) d' := by
    intro d d' h e; rw [← e]; exact h
  refine e _ _ this ?_
  simp [Datum.fill, PlaceKind.seen, dashKind, Datum.itemsOf]

end LiveDashSet

/-! The theorems of this file with a concrete case of their hypotheses. -/
namespace LiveEx

/-- What the other thread leaves alone: the memory at 5 is never more than 9. -/
example (D : Prop) (n : Nat) := C61_memory D env (fun mem => mem 5 ≤ 9)
  (by intro n st h; simp only [env]; split <;> simpa [setAt] using h) store n (by decide)
/-- The mutex at 1 is never poisoned. -/
example (D : Prop) (n : Nat) := C61_locks D env respectful (fun _ _ _ poisoned _ => poisoned = false) 1
  (by intro n st h; simp only [env]; split <;> simpa [setAt] using h) store n rfl

/-- The two values that were seen above. -/
example := C61_seen sees_empty
example := C61_seen sees_three

/-- A `OnceCell` at 2 and a mutex at 3, which the other thread does not touch. -/
def still (k : PlaceKind) (a : Ptr) : LiveDatum := .live (.arc tMutex 8 3) (fun p => if p = 3 then some k else none) (fun _ => a) (fun _ x => .still (.string tString (x % 5) 4))

theorem still_sees (how : Access) (a : Ptr) (ha : a ≠ 1) (h : how.granted (store.lock a) = true) :
    (still (.cell how) a).Sees (env.looks (OneOwner H roots) store 1) (seen 2) := by
  have e1 : ((env 1 store).lock a) = store.lock a := by simp [env, store, setAt, ha]
  have e2 : (env 1 store).mem a = 2 := by simp [env, store, setAt, ha]
  have := LiveDatum.Sees.live (L := env.looks (OneOwner H roots) store 1) (.arc tMutex 8 3) (fun p => if p = 3 then some (.cell how) else none) (fun _ => a)
    (fun _ x => .still (.string tString (x % 5) 4)) (fun _ => true) (fun _ => 2) (fun _ => .string tString (2 % 5) 4) (fun _ => ⟨fun _ => 0, fun _ => 0, fun _ => 0, fun _ => .cellEmpty tMutex⟩) (fun _ _ => 0)
    (by
      intro p k hk
      split at hk
      · cases hk; exact ⟨env 1 store, ⟨[], ⟨2, .others .start⟩, fun _ _ h => (by cases h)⟩, by simp only [PlaceKind.answer]; rw [e1]; exact h⟩
      · cases hk)
    (by
      intro p k how' hk hh _
      split at hk
      · cases hk
        cases hh
        exact ⟨_, ⟨[.lock how a], ⟨2, .acquire how a (.others .start) (by rw [e1]; exact h)⟩, by simp⟩, e2⟩
      · cases hk) (fun _ _ _ _ _ _ => .still _)
    (fun p k hk q hq => by split at hk; · cases hk; cases hq
                           · cases hk)
    (fun p k q hk hq => by split at hk; · cases hk; cases hq
                           · cases hk)
  exact this

example := C61_once_seen (OneOwner H roots) env respectful 2 (by intro n st h; simp only [env]; split <;> simpa [setAt] using h) store 1 rfl (still_sees .get 2 (by decide) rfl)
example := C61_free_seen (OneOwner H roots) (oneOwner H fun _ => rfl) env respectful 3 (by intro n st; simp only [env]; split <;> simp [setAt]) store 1
  (still_sees .stdTryLock 3 (by decide) rfl)
example {d : Datum} (h : value.Sees (Env.quiet.looks (OneOwner H roots) store 0) d) : d = seen 2 := C61_quiet_sees (OneOwner H roots) (oneOwner H fun _ => rfl) store 0 h

end LiveEx

end Allocative
