import Verif.Lemmas.MachineLocks
import Verif.Lemmas.MachineLocksStop
import Verif.Lemmas.MachineLocksPanic
import Verif.Props.Live
import Verif.Props.Memory
import Verif.Props.MachineSession
set_option linter.unusedSimpArgs false
/-
C79: data that other threads change, profiled with machine arithmetic.
-/
namespace Allocative

/-- What is left of a result if one does not look at the builder: whether the visits end, the state of the locks and of the memory, how much time has passed, and whether a panic comes out. -/
def LResult.outcome {σ : Type} : LResult σ → LResult Unit
  | .failed e => .failed e
  | .stuck a => .stuck a
  | .ended _ st n ctl => .ended () st n ctl

theorem outcome_mapS {σ τ : Type} (f : σ → τ) (r : LResult σ) : (r.mapS f).outcome = r.outcome := by cases r <;> rfl

theorem Machine.wrapB_default [Target] : Machine.wrapB Builder.default = Builder.default := by
  simp [Machine.wrapB, Builder.default, Trees.newTree, Machine.wrapD]

theorem Idle.perm {b recs recs' paths} (h : Idle b recs paths) (hp : recs.Perm recs') : Idle b recs' paths where
  rep := { len := h.rep.len
           nodup := h.rep.nodup
           root := h.rep.root
           size := fun a b => by rw [← sizeAt_perm hp]; exact h.rep.size a b
           unique := fun a b => by rw [← uniqueAt_perm hp]; exact h.rep.unique a b
           keys := h.rep.keys
           child := h.rep.child
           lt := h.rep.lt
           parent := h.rep.parent
           mem := fun p => by rw [h.rep.mem, entered_perm hp] }
  current := h.current
  shared := h.shared
  root := h.root
  notEntered := h.notEntered

theorem Idle.fits [Target] {b recs paths} (h : Idle b recs paths) (hs : ∀ p, sizeAt recs p < Usize.modulus) : Machine.Fits b := by
  intro d hd
  obtain ⟨i, hi⟩ := List.getElem?_of_mem hd
  have hlt := (List.getElem?_eq_some_iff.1 hi).1
  rw [← h.rep.len] at hlt
  rw [h.rep.size (List.getElem?_eq_getElem hlt) hi]
  exact hs _

/-- C79. Any visits, whatever other threads do meanwhile (`env`), leaks and panics of user code included: a release build takes and releases the same locks at the same times, sees the same
memory, ends or waits in the same way and panics in the same cases as with unbounded numbers, whatever the sizes. -/
theorem C79_release_calls [Target] (env : Env) (hist : List (LProg × Fate)) (st : Store) (n : Nat) :
    (Machine.useRootsL .off env Builder.default hist st n).outcome = (Builder.default.useRootsL env hist st n).outcome := by
  have := Machine.useRootsL_off env hist Builder.default st n
  rw [Machine.wrapB_default] at this
  rw [this, outcome_mapS]

/-- C79. The same for debug builds, if no sum of sizes of a stack overflows: then both builds do exactly what is done with unbounded numbers. -/
theorem C79_exact_calls [Target] (c : Machine.Checks) (env : Env) (hist : List (LProg × Fate)) (st : Store) (n : Nat) (b : Builder) (st' : Store) (n' : Nat) (ctl : Ctl)
    (h : Builder.default.useRootsL env hist st n = .ended b st' n' ctl) (hb : ∀ d ∈ b.trees, d.size < Usize.modulus) :
    Machine.useRootsL c env Builder.default hist st n = .ended b st' n' ctl := by
  rw [← h]
  exact (Machine.useRootsL_follows c env hist Builder.default st n b st' n' ctl h).2 hb

/-- C79. Debug builds, any visits (leaks, panics of user code and `catch_unwind` included) beside any other threads: the whole run was exactly as with unbounded numbers and no stack has a sum of `usize::MAX + 1` or more, or the visits
wait for ever, or a later `root_visitor` panics, or `finish` does.  Nobody gets a profile with overflowed sums of stacks. -/
theorem C79_fail_stop [Target] (env : Env) (hist : List (LProg × Fate)) (st : Store) (n : Nat) :
    Machine.useRootsL .on env Builder.default hist st n = .failed .assertRootNotEntered ∨
    (∃ a, Machine.useRootsL .on env Builder.default hist st n = .stuck a) ∨
    ∃ b st' n' ctl, Machine.useRootsL .on env Builder.default hist st n = .ended b st' n' ctl ∧
      ((∀ c ord, Machine.finish c ord b = .error .assertFinish) ∨
        (∀ d ∈ b.trees, d.size < Usize.modulus) ∧ Builder.default.useRootsL env hist st n = .ended b st' n' ctl) := by
  rcases Machine.useRootsL_stops env hist Builder.default st n ⟨_, _, Idle.default⟩ Machine.Fits.default with h | h | ⟨b, st', n', ctl, h, h1⟩
  · exact .inl h
  · exact .inr (.inl h)
  · refine .inr (.inr ⟨b, st', n', ctl, h, ?_⟩)
    rcases h1 with ⟨m, hl⟩ | ⟨-, hf, hr⟩
    · exact .inl fun c ord => ((Machine.Live.dead hl).2.1 c ord)
    · exact .inr ⟨hf, hr⟩

/-- C79. The other way round: if the visits end in a debug build and `finish` returns something, then the visits did exactly what they do with unbounded numbers. -/
theorem C79_finished_exact [Target] (env : Env) (hist : List (LProg × Fate)) (st : Store) (n : Nat) (b : Builder) (st' : Store) (n' : Nat) (ctl : Ctl) (ord : HashOrder TreeId) (out : Builder.Output)
    (h : Machine.useRootsL .on env Builder.default hist st n = .ended b st' n' ctl) (hf : Machine.finish .on ord b = .ok out) :
    (∀ d ∈ b.trees, d.size < Usize.modulus) ∧ Builder.default.useRootsL env hist st n = .ended b st' n' ctl := by
  rcases C79_fail_stop env hist st n with h1 | ⟨a, h1⟩ | ⟨b1, st1, n1, ctl1, h1, h2⟩
  · rw [h] at h1; cases h1
  · rw [h] at h1; cases h1
  · rw [h] at h1
    cases h1
    rcases h2 with h2 | h2
    · rw [h2] at hf; cases hf
    · exact h2

theorem snapshot_records [Target] {cells : Ptr → Cell} {ds : List Datum} {reached : List Ptr} (hd : ∀ d ∈ ds, d.WF) (hc : ∀ p, (cells p).datum.WF) (hn : reached.Nodup)
    (hr : ∀ p, p ∈ reached ↔ ReachableCell cells ds p) {fuel : Nat} (hf : reached.length ≤ fuel) :
    (records (visits (fun p => (cells p).visit) fuel (ds.map fun d => d.value.visit))).Perm (ds.flatMap (fun d => d.report []) ++ reached.flatMap (fun p => (cells p).report)) ∧
    ∀ r ∈ records (visits (fun p => (cells p).visit) fuel (ds.map fun d => d.value.visit)), ∀ k ∈ r.path, k.Proper := by
  constructor
  · have hp := (C08_counted_once_iff_reachable (fun p => (cells p).visit) (ds.map fun d => d.value.visit) reached hn
      (fun p => (hr p).trans (reachable_iff hd (fun p _ => hc p) p).symm) fuel hf).2
    have h1 : (ds.map fun d => d.value.visit).flatMap (fun o => o.own []) = ds.flatMap fun d => d.report [] := by
      rw [List.flatMap_map]
      exact flatMap_congr' fun d h => reported d (hd d h) []
    have h2 : reached.flatMap (fun p => (cells p).visit.own []) = reached.flatMap fun p => (cells p).report :=
      flatMap_congr' fun p _ => cell_report _ (hc p)
    rwa [h1, h2] at hp
  · refine records_keys ?_
    intro x hx
    simp only [visits, List.map_map, List.mem_map] at hx
    obtain ⟨d, -, rfl⟩ := hx
    exact visit_keysAre (fun p => cell_proper (cells p)) fuel _ (proper d)

/-- C79. Roots with locks, cells, weak pointers and `DashMap`s in them and in what they share, which other threads change meanwhile, as in C61.  There is a snapshot, in which each place is as it was
seen at moments during the visits, such that:
- a release build returns, without a panic and with everything given back, whatever the sizes, and reports the snapshot, with sums cut to the bits of a usize;
- if no stack of the snapshot has a sum of `usize::MAX + 1` or more, then debug and release builds do exactly what is done with unbounded numbers;
- if some stack has, then in a debug build nobody gets a profile: whatever happens before, `finish` panics (if it is reached);
- and if all sizes of the snapshot together are less than `isize::MAX + 1`, then so does `finish`: the output is exactly that documented for the snapshot. -/
theorem C79_live [Target] (S : Ptr → Prop) (env : Env) (he : env.Respectful) (H : Ptr → LiveCell) (hcells : ∀ p, (H p).value.OK S) (roots : List LiveDatum)
    (hroots : ∀ v ∈ roots, v.OK S) (st : Store) (n : Nat) (hS : env.LetsGo S st n) (L : List Ptr) (hn : L.Nodup) (hL : ∀ p, MayReach (env.looks (OneOwner H roots) st n) H roots p → p ∈ L) (fuel : Nat) (hf : L.length ≤ fuel) :
    ∃ b b' st' n', Builder.default.useRootsL env (liveVisits H fuel roots) st n = .ended b st' n' .returned ∧ st.SameHeld st' ∧
      ∃ (ds : List Datum) (cells : Ptr → Cell) (reached : List Ptr) (recs : List Rec),
        LiveDatum.SeesEach (env.looks (OneOwner H roots) st n) roots ds ∧ (∀ p, (H p).Sees (env.looks (OneOwner H roots) st n) (cells p)) ∧ reached.Nodup ∧
        (∀ p, p ∈ reached ↔ ReachableCell cells ds p) ∧ recs = ds.flatMap (fun d => d.report []) ++ reached.flatMap (fun p => (cells p).report) ∧
        Machine.useRootsL .off env Builder.default (liveVisits H fuel roots) st n = .ended b' st' n' .returned ∧ b'.ReportsWrapped recs ∧
        ((∀ p, sizeAt recs p < Usize.modulus) → ∀ c, Machine.useRootsL c env Builder.default (liveVisits H fuel roots) st n = .ended b st' n' .returned) ∧
        (∀ p, Usize.modulus ≤ sizeAt recs p → ∀ b1 st1 n1 ctl, Machine.useRootsL .on env Builder.default (liveVisits H fuel roots) st n = .ended b1 st1 n1 ctl → ∀ ord out, Machine.finish .on ord b1 ≠ .ok out) ∧
        ((recs.map Rec.size).sum < Usize.half → b.Reports recs ∧ ∀ c ord, Machine.finish c ord b = b.finish ord) := by
  obtain ⟨b, st', n', out, hrun, hs, -, -, ds, cells, reached, hds, hcs, hrn, hrm, -, hrl, hdsWF, hcWF, -, paths, hi⟩ :=
    live_core_idle env he H hcells roots hroots st n hS L hn hL fuel hf (HashOrder.id _)
  obtain ⟨hp, hk⟩ := snapshot_records hdsWF hcWF hrn hrm hrl
  have hk' : ∀ r ∈ ds.flatMap (fun d => d.report []) ++ reached.flatMap (fun p => (cells p).report), ∀ k ∈ r.path, k.Proper := fun r hr => hk r (hp.mem_iff.2 hr)
  have hi' := hi.perm hp
  have hoff := Machine.useRootsL_off env (liveVisits H fuel roots) Builder.default st n
  rw [Machine.wrapB_default, hrun] at hoff
  refine ⟨b, Machine.wrapB b, st', n', hrun, hs, ds, cells, reached, _, hds, hcs, hrn, hrm, rfl, hoff, hi'.reportsWrapped hk', fun hz c => ?_, fun p hz b1 st1 n1 ctl hon ord out hfin => ?_, fun hz => ⟨hi'.reports hk', hi'.finish_declared hz⟩⟩
  · exact C79_exact_calls c env _ st n b st' n' .returned hrun (hi'.fits hz)
  · obtain ⟨hf, he⟩ := C79_finished_exact env _ st n b1 st1 n1 ctl ord out hon hfin
    rw [hrun] at he
    cases he
    have hm : p ∈ paths := by
      rw [hi'.rep.mem]
      right
      refine Decidable.byContradiction fun hne => ?_
      rw [Rep.sizeAt_eq_zero hne] at hz; exact absurd Usize.modulus_pos (by omega)
    obtain ⟨i, hp⟩ := List.mem_iff_getElem?.1 hm
    obtain ⟨d, hd⟩ := hi'.rep.get hp
    have := hf d (List.mem_of_getElem? hd)
    rw [hi'.rep.size hp hd] at this
    omega

theorem selfWrap_eq [Target] {recs : List Rec} {p : Path} (hs : sizeAt recs p < Usize.half) (hc : childrenAt recs p < Usize.half) : selfWrap recs p = selfSpec recs p := by
  have hb : ∀ n : Nat, n < Usize.half → bits n = n := fun n hn => Machine.bmod_of (by omega) (by omega)
  unfold selfWrap selfSpec remWrap remAt
  split
  · rfl
  · rw [hb _ hs]
    split
    · unfold clamp; omega
    · rw [hb _ hc]
      unfold clamp; omega

/-- C79, in terms of memory, as C60: `frames p` is how the allocation at `p` is laid out, with `bytes p` bytes, `vals p` is the value in it.  There is a snapshot, `ds` of the roots and `vs` of the values in shared allocations, in
which each place is as it was seen, such that: if the memory of the snapshot is less than `isize::MAX + 1` bytes, then in debug and release builds the visits return without a panic, and in a
release build the self size of each stack is exact; and if also the memory times the length of the longest stack is, then both builds finish with exactly the unbounded result. -/
theorem C79_memory [Target] (S : Ptr → Prop) (env : Env) (he : env.Respectful) (frames : Ptr → Alloc) (vals : Ptr → LiveDatum)
    (hframes : ∀ p, (frames p).value = (vals p).shape) (hcells : ∀ p, (vals p).OK S) (roots : List LiveDatum) (hroots : ∀ v ∈ roots, v.OK S) (st : Store) (n : Nat) (hS : env.LetsGo S st n) (L : List Ptr)
    (hn : L.Nodup) (hL : ∀ p, MayReach (env.looks (OneOwner (fun p => ⟨(frames p).cell, vals p⟩) roots) st n) (fun p => ⟨(frames p).cell, vals p⟩) roots p → p ∈ L)
    (hr : ∀ v ∈ roots, ∀ d, v.Sees (env.looks (OneOwner (fun p => ⟨(frames p).cell, vals p⟩) roots) st n) d → d.InMemory) (bytes : Ptr → Nat)
    (ha : ∀ p ∈ L, (frames p).Exact ∧ (frames p).Occupies (bytes p) ∧ bytes p ≤ Layout.isizeMax ∧
      ∀ d, (vals p).Sees (env.looks (OneOwner (fun p => ⟨(frames p).cell, vals p⟩) roots) st n) d → d.InMemory)
    (fuel : Nat) (hf : L.length ≤ fuel) (ord : HashOrder TreeId) :
    ∃ b st' n' out, Builder.default.useRootsL env (liveVisits (fun p => ⟨(frames p).cell, vals p⟩) fuel roots) st n = .ended b st' n' .returned ∧ st.SameHeld st' ∧ b.finish ord = .ok out ∧
      ∃ (ds : List Datum) (vs : Ptr → Datum) (reached : List Ptr) (m : Nat),
        LiveDatum.SeesEach (env.looks (OneOwner (fun p => ⟨(frames p).cell, vals p⟩) roots) st n) roots ds ∧ (∀ p, (vals p).Sees (env.looks (OneOwner (fun p => ⟨(frames p).cell, vals p⟩) roots) st n) (vs p)) ∧ reached.Nodup ∧
        (∀ p, p ∈ reached ↔ ReachableCell (fun p => ((frames p).with (vs p)).cell) ds p) ∧
        m = (ds.map Datum.footprint).sum + (reached.map fun p => bytes p + (vs p).heapBytes).sum ∧
        (m < Usize.half →
          (∀ c, Machine.useRootsL c env Builder.default (liveVisits (fun p => ⟨(frames p).cell, vals p⟩) fuel roots) st n = .ended b st' n' .returned) ∧
          ∃ out', Machine.finish .off ord b = .ok out' ∧ ∀ p, out'.flamegraph.selfAt p = out.flamegraph.selfAt p) ∧
        ∀ depth, (∀ r ∈ ds.flatMap (fun d => d.report []) ++ reached.flatMap (fun p => ((frames p).with (vs p)).cell.report), r.path.length ≤ depth) → depth * m < Usize.half →
          ∀ c, Machine.useRootsL c env Builder.default (liveVisits (fun p => ⟨(frames p).cell, vals p⟩) fuel roots) st n = .ended b st' n' .returned ∧ Machine.finish c ord b = .ok out := by
  obtain ⟨b, st', n', out, hrun, hs, -, hfin, ds, cells, reached, hds, hcs, hrn, hrm, hrL, hrl, hdsWF, hcWF, -, paths, hi⟩ :=
    live_core_idle env he (fun p => ⟨(frames p).cell, vals p⟩) hcells roots hroots st n hS L hn hL fuel hf ord
  have hw := fun p => Alloc.with_cell (hframes p) (hcs p)
  have hc : (fun p => ((frames p).with (cells p).datum).cell) = cells := funext fun p => (hw p).1
  have hv : ∀ p, ((frames p).with (cells p).datum).value = (cells p).datum := fun p => (hw p).2.1
  have snap : Snapshot (fun p => (frames p).with (cells p).datum) ds reached bytes := by
    refine ⟨fun d hd => ?_, hrn, by rw [hc]; exact hrm, fun p hp => ?_⟩
    · obtain ⟨v, hv', hsd⟩ := seesEach_mem hds d hd
      exact ⟨hdsWF d hd, hr v hv' d hsd⟩
    · obtain ⟨h1, h2, h3, h4⟩ := ha p (hrL p hp)
      exact ⟨by rw [hv]; exact hcWF p, by rw [hv]; exact h4 _ (hcs p).1, (hw p).2.2.1 h1, (hw p).2.2.2.1 _ h2, h3⟩
  obtain ⟨hp, hlev⟩ := snap.levels fuel hrl
  have hvis : (fun p => ((frames p).with (cells p).datum).cell.visit) = fun p => (cells p).visit := funext fun p => by rw [(hw p).1]
  rw [hvis] at hp
  have hi' := hi.perm hp
  have hm : memory (fun p => (frames p).with (cells p).datum) ds reached bytes = (ds.map Datum.footprint).sum + (reached.map fun p => bytes p + (cells p).datum.heapBytes).sum := by
    simp only [memory, hv]
  rw [hm] at hlev
  have calls : (ds.map Datum.footprint).sum + (reached.map fun p => bytes p + (cells p).datum.heapBytes).sum < Usize.half →
      ∀ c, Machine.useRootsL c env Builder.default (liveVisits (fun p => ⟨(frames p).cell, vals p⟩) fuel roots) st n = .ended b st' n' .returned := by
    intro h c
    refine C79_exact_calls c env _ st n b st' n' .returned hrun (hi'.fits fun p => ?_)
    have h1 := sizeAt_le_level (ds.flatMap (fun d => d.report []) ++ reached.flatMap (fun p => ((frames p).with (cells p).datum).cell.report)) p
    have h2 := (hlev p.length).1
    word_omega
  refine ⟨b, st', n', out, hrun, hs, hfin, ds, fun p => (cells p).datum, reached, _, hds, fun p => (hcs p).1, hrn, by rw [hc]; exact hrm, rfl, fun h => ⟨calls h, ?_⟩, fun depth hdepth h c => ?_⟩
  · have bd : ∀ p, sizeAt (ds.flatMap (fun d => d.report []) ++ reached.flatMap (fun p => ((frames p).with (cells p).datum).cell.report)) p < Usize.half ∧
        childrenAt (ds.flatMap (fun d => d.report []) ++ reached.flatMap (fun p => ((frames p).with (cells p).datum).cell.report)) p < Usize.half := by
      intro p
      have h1 := sizeAt_le_level (ds.flatMap (fun d => d.report []) ++ reached.flatMap (fun p => ((frames p).with (cells p).datum).cell.report)) p
      have h2 := childrenAt_le_level (ds.flatMap (fun d => d.report []) ++ reached.flatMap (fun p => ((frames p).with (cells p).datum).cell.report)) p
      have h3 := (hlev p.length).1
      have h4 := (hlev (p.length + 1)).1
      have h5 : (ds.map Datum.footprint).sum + (reached.map fun p => bytes p + (cells p).datum.heapBytes).sum < Usize.half := h
      exact ⟨Nat.lt_of_le_of_lt (Nat.le_trans h1 h3) h5, Nat.lt_of_le_of_lt (Nat.le_trans h2 h4) h5⟩
    have hwb : Machine.wrapB b = b := by
      have hfit := hi'.fits fun p => (show _ < Usize.modulus by have := (bd p).1; word_omega)
      have : b.trees.map Machine.wrapD = b.trees := by
        conv => rhs; rw [← List.map_id b.trees]
        refine List.map_congr_left fun d hd => ?_
        simp only [Machine.wrapD, Nat.mod_eq_of_lt (hfit d hd), id]
      simp only [Machine.wrapB, this]
    obtain ⟨fg, ws, e, -, h1, -⟩ := Machine.finish_off ord (fun _ => True) hi' (fun _ _ _ _ => trivial)
    obtain ⟨fg2, ws2, e2, -, h2, -⟩ := hi'.finish ord (fun _ => True) (fun _ _ _ _ => trivial)
    rw [hwb] at e
    rw [hfin] at e2
    cases e2
    refine ⟨_, e, fun p => ?_⟩
    simp only [Machine.selfAt_wrapFG, h1, h2]
    split
    · have hz : selfSpec (ds.flatMap (fun d => d.report []) ++ reached.flatMap (fun p => ((frames p).with (cells p).datum).cell.report)) p < Usize.modulus := by
        rw [← selfWrap_eq (bd p).1 (bd p).2]; exact selfWrap_lt _ _
      simp only [Option.map_some, selfWrap_eq (bd p).1 (bd p).2, Nat.mod_eq_of_lt hz]
    · rfl
  · have hsum := sum_le_levels _ _ depth (fun n => (hlev n).1) ((hlev 0).2 (Nat.le_refl _)) hdepth
    have hlt := Nat.lt_of_le_of_lt hsum h
    refine ⟨C79_exact_calls c env _ st n b st' n' .returned hrun (hi'.fits fun p => ?_), ?_⟩
    · have := sizeAt_le_declared (ds.flatMap (fun d => d.report []) ++ reached.flatMap (fun p => ((frames p).with (cells p).datum).cell.report)) p
      word_omega
    · rw [hi'.finish_declared hlt]; exact hfin

/-- C79, hazard (F31): a free `std::sync::Mutex` at `a` whose contents are visited with two sizes that together do not fit a usize.  A release build returns and leaves the mutex as it was; a debug build panics
in the second of the calls, while the mutex is locked, so that the mutex stays poisoned: from then on it is not visited, and `lock` fails for all its users. -/
theorem C79_debug_poisons [Target] (self k : Key) (s d x y : Nat) (hs : s < Usize.modulus) (hd : d < Usize.modulus) (hx : x < Usize.modulus)
    (h : Usize.modulus ≤ x + y) (a : Ptr) (st : Store) (n : Nat) (hg : Access.granted (st.lock a) .stdTryLock = true) (hh : (st.lock a).heldExclusive = false) :
    let mutex : LProg := .enter self s .exit (.access .stdTryLock a (.enter dataName d .exit (.enter k x .exit .done (.enter k y .exit .done .done)) .done) .done) .done
    (∃ b st' n', Machine.useRootL .off .quiet Builder.default mutex .exit st n = .ended b st' n' .returned ∧ st'.lock a = st.lock a) ∧
    (∃ b st' n', Machine.useRootL .on .quiet Builder.default mutex .exit st n = .ended b st' n' .unwinding ∧ (st'.lock a).poisoned = true ∧ Access.granted (st'.lock a) .stdTryLock = false) := by
  have hny : ¬ x + y < Usize.modulus := by omega
  constructor
  · simp [Machine.useRootL, Builder.rootVisitor, Builder.default, Trees.newTree, Machine.execL, Machine.enterInlineImpl, Machine.downAndAdd, Machine.addUsize, down, up, Trees.index, Trees.update,
      call_granted (env := Env.quiet) (n := n) (st := st) hg, Env.quiet, hg, HMap.get?, hs, hd, hx, hny, LResult.thenFinish, LResult.thenRelease, VisitorImpl.finishChild, VisitorImpl.drop, VisitorImpl.exit, VisitorImpl.endScope,
      VisitorImpl.exitImpl, Builder.exitImpl, Builder.visitorImpl, setAt, Access.acquire, Access.release]
    refine ⟨_, _, ⟨rfl, rfl⟩, ?_⟩
    simp only [setAt, if_true]
    generalize st.lock a = l at hh
    cases l
    subst hh
    rfl
  · simp [Machine.useRootL, Builder.rootVisitor, Builder.default, Trees.newTree, Machine.execL, Machine.enterInlineImpl, Machine.downAndAdd, Machine.addUsize, down, up, Trees.index, Trees.update,
      call_granted (env := Env.quiet) (n := n) (st := st) hg, Env.quiet, hg, HMap.get?, hs, hd, hx, hny, LResult.thenFinish, LResult.thenRelease, VisitorImpl.finishChild, VisitorImpl.drop, VisitorImpl.exit, VisitorImpl.endScope,
      VisitorImpl.exitImpl, Builder.exitImpl, Builder.visitorImpl, setAt, Access.acquire, Access.release]
    refine ⟨_, _, ⟨rfl, rfl⟩, ?_, ?_⟩ <;> simp [setAt, Access.granted]

/-- C79. In both builds, whatever other threads do and wherever a panic comes from (overflow included): when the visits are over, and at the end of each call of `size_of_unique_allocated_data`, all guards and references taken by them are
given back. -/
theorem C79_given_back [Target] (c : Machine.Checks) (env : Env) (he : env.Respectful) (st : Store) (n : Nat) :
    (∀ (b : Builder) (hist : List (LProg × Fate)) b' st' n' ctl, Machine.useRootsL c env b hist st n = .ended b' st' n' ctl → st.SameHeld st') ∧
    (∀ (prog : LProg) s' st' n' ctl, Machine.sizeOfUniqueAllocatedDataL c env prog st n = .ended s' st' n' ctl → st.SameHeld st') := by
  refine ⟨fun b hist b' st' n' ctl h => Machine.useRootsL_givesBack c he hist b st n b' st' n' ctl h, fun prog s' st' n' ctl h => ?_⟩
  simp only [Machine.sizeOfUniqueAllocatedDataL] at h
  have hx := Machine.sizeOfExecL_givesBack c he prog .root 0 st n
  split at h
  · cases h
  · cases h
  · rename_i e
    split at h
    · cases h
    · cases h; exact hx _ _ _ _ e

theorem Machine.sizeOfUniqueAllocatedDataL_rel [Target] (env : Env) (prog : LProg) (st : Store) (n : Nat) :
    Machine.SizeRel prog.NoCatch 0 (SizeOf.sizeOfUniqueAllocatedDataL env prog st n) (Machine.sizeOfUniqueAllocatedDataL .off env prog st n) (Machine.sizeOfUniqueAllocatedDataL .on env prog st n) := by
  have h := Machine.sizeOfExecL_rel env prog .root 0 st n
  rw [Nat.zero_mod] at h
  have h0 : SizeOf.sizeOfUniqueAllocatedDataL env prog st n = Allocative.execL SizeOf.visitorImpl env prog .root 0 st n := by
    unfold SizeOf.sizeOfUniqueAllocatedDataL
    cases Allocative.execL SizeOf.visitorImpl env prog .root 0 st n <;> simp only [Machine.sizeOf_finish (kind := .root) (by simp)]
  have h1 : ∀ c, Machine.sizeOfUniqueAllocatedDataL c env prog st n = Machine.sizeOfExecL c env prog .root 0 st n := by
    intro c
    unfold Machine.sizeOfUniqueAllocatedDataL
    cases Machine.sizeOfExecL c env prog .root 0 st n <;> simp only [Machine.sizeOf_finish (kind := .root) (by simp)]
  rw [h0, h1, h1]
  exact h

/-- C79. `size_of_unique_allocated_data` on any visit, whatever other threads do: if with unbounded numbers it ends with `size`, then a release build ends at the same time with the same locks and memory, with `size` modulo
`usize::MAX + 1`; a debug build with `size` if this is at most `usize::MAX`, and if not (and user code catches no panics) it panics. -/
theorem C79_size_of_calls [Target] (env : Env) (prog : LProg) (st : Store) (n : Nat) (size : Nat) (st' : Store) (n' : Nat) (ctl : Ctl) (h : SizeOf.sizeOfUniqueAllocatedDataL env prog st n = .ended size st' n' ctl) :
    Machine.sizeOfUniqueAllocatedDataL .off env prog st n = .ended (size % Usize.modulus) st' n' ctl ∧
    (size < Usize.modulus → Machine.sizeOfUniqueAllocatedDataL .on env prog st n = .ended size st' n' ctl) ∧
    (prog.NoCatch → Usize.modulus ≤ size → ∃ s st'' n'', Machine.sizeOfUniqueAllocatedDataL .on env prog st n = .ended s st'' n'' .unwinding) := by
  obtain ⟨h1, h2⟩ := Machine.sizeOfUniqueAllocatedDataL_rel env prog st n
  obtain ⟨-, h3, h4⟩ := h2 size st' n' ctl h
  rw [h] at h1 h3
  exact ⟨h1, h3, fun hc hz => h4 hc (by word_omega) hz⟩

/-- C79. `size_of_unique_allocated_data` and `size_of_unique` of a value that other threads change: there is a value `d` in which each place is as it was seen, such that the result is, in a release build, its size modulo `usize::MAX + 1`
(with everything given back); in both builds exactly its size if the memory of `d` on the heap is at most `usize::MAX` bytes, and a debug build panics if the size is more (for `size_of_unique`: together with the value itself). -/
theorem C79_size_of [Target] (S : Ptr → Prop) (env : Env) (he : env.Respectful) (H : Ptr → LiveCell) (hcells : ∀ p, (H p).value.OK S) (v : LiveDatum) (hv : v.OK S) (fuel : Nat) (st : Store) (n : Nat)
    (hS : env.LetsGo S st n) :
    ∃ size st' n' d, v.Sees (env.looks v.Nested st n) d ∧ st.SameHeld st' ∧ size + d.missed = d.heapBytes ∧
      Machine.sizeOfUniqueAllocatedDataL .off env (v.visit (liveCont H fuel)) st n = .ended (size % Usize.modulus) st' n' .returned ∧
      (d.heapBytes < Usize.modulus → ∀ c, Machine.sizeOfUniqueAllocatedDataL c env (v.visit (liveCont H fuel)) st n = .ended size st' n' .returned) ∧
      (Usize.modulus ≤ size → ∃ s st1 n1, Machine.sizeOfUniqueAllocatedDataL .on env (v.visit (liveCont H fuel)) st n = .ended s st1 n1 .unwinding) ∧
      ∀ T : Ty, Machine.sizeOfUniqueL .off env T.size (v.visit (liveCont H fuel)) st n = .ended ((T.size + size) % Usize.modulus) st' n' .returned ∧
        (T.size + d.heapBytes < Usize.modulus → ∀ c, Machine.sizeOfUniqueL c env T.size (v.visit (liveCont H fuel)) st n = .ended (T.size + size) st' n' .returned) := by
  obtain ⟨size, st', n', d, hrun, hs, -, hd, -, hm⟩ := C61_size_of S env he H hcells v hv fuel st n hS
  obtain ⟨h1, h2, h3⟩ := C79_size_of_calls env _ st n size st' n' .returned hrun
  have exact' : size < Usize.modulus → ∀ c, Machine.sizeOfUniqueAllocatedDataL c env (v.visit (liveCont H fuel)) st n = .ended size st' n' .returned := by
    intro hz c
    cases c with
    | on => exact h2 hz
    | off => rw [h1, Nat.mod_eq_of_lt hz]
  refine ⟨size, st', n', d, hd, hs, hm, h1, fun hz => exact' (by omega), h3 (live_noCatch H fuel v), fun T => ⟨?_, fun hz c => ?_⟩⟩
  · simp only [Machine.sizeOfUniqueL, h1, Machine.addUsize]
    split
    · rename_i h
      split at h
      · cases h
      · cases h
    · rename_i h
      split at h
      · cases h
        congr 1
        word_omega
      · cases h
        congr 1
        word_omega
  · simp only [Machine.sizeOfUniqueL, exact' (by omega) c, Machine.addUsize_fits (c := c) (show T.size + size < Usize.modulus by omega)]

/-- C79. Debug builds, a root whose visit catches no panics, on a new builder or after any other roots that left the builder usable: if with unbounded numbers some stack got a sum of `usize::MAX + 1` or more, then the visit panics (and does
not wait for ever); if not, it does exactly what it does with unbounded numbers. -/
theorem C79_overflow_panics [Target] (env : Env) (pre : List (LProg × Fate)) (st0 : Store) (n0 : Nat) (b : Builder) (st : Store) (n : Nat) (ctl0 : Ctl)
    (hpre : Machine.useRootsL .on env Builder.default pre st0 n0 = .ended b st n ctl0) (hb : b.enteredRootVisitor = false) (prog : LProg) (hc : prog.NoCatch) (fate : Fate)
    (b' : Builder) (st' : Store) (n' : Nat) (ctl : Ctl) (h : b.useRootL env prog fate st n = .ended b' st' n' ctl) :
    ((∃ d ∈ b'.trees, Usize.modulus ≤ d.size) → ∃ b1 st1 n1, Machine.useRootL .on env b prog fate st n = .ended b1 st1 n1 .unwinding) ∧
    ((∀ d ∈ b'.trees, d.size < Usize.modulus) → Machine.useRootL .on env b prog fate st n = .ended b' st' n' ctl) := by
  rcases Machine.useRootsL_stops env pre Builder.default st0 n0 ⟨_, _, Idle.default⟩ Machine.Fits.default with h1 | ⟨a, h1⟩ | ⟨b1, st1, n1, ctl1, h1, h2⟩
  · rw [hpre] at h1; cases h1
  · rw [hpre] at h1; cases h1
  · rw [hpre] at h1
    cases h1
    rcases h2 with ⟨m, hl⟩ | ⟨⟨recs, paths, hi⟩, hf, -⟩
    · exact absurd hl.entered (by simp [hb])
    · constructor
      · rintro ⟨d, hd, hz⟩
        rcases Machine.useRootL_orPanics env hi hf prog hc fate st n with ⟨-, h3⟩ | h3
        · exact absurd (h3 b' st' n' ctl h d hd) (by omega)
        · exact h3
      · intro hz
        rw [← h]
        exact (Machine.useRootL_follows .on env b prog fate st n b' st' n' ctl h).2 hz

/-- C79. `size_of_unique` likewise: `size_of::<T>()` and the size of what is behind the unique pointers are added in the same arithmetic. -/
theorem C79_size_of_unique_calls [Target] (env : Env) (sizeOfT : Nat) (prog : LProg) (st : Store) (n : Nat) (size : Nat) (st' : Store) (n' : Nat) (h : SizeOf.sizeOfUniqueAllocatedDataL env prog st n = .ended size st' n' .returned) :
    Machine.sizeOfUniqueL .off env sizeOfT prog st n = .ended ((sizeOfT + size) % Usize.modulus) st' n' .returned ∧
    (sizeOfT + size < Usize.modulus → Machine.sizeOfUniqueL .on env sizeOfT prog st n = .ended (sizeOfT + size) st' n' .returned) ∧
    (prog.NoCatch → Usize.modulus ≤ sizeOfT + size → ∃ s st'' n'', Machine.sizeOfUniqueL .on env sizeOfT prog st n = .ended s st'' n'' .unwinding) := by
  obtain ⟨h1, h2, h3⟩ := C79_size_of_calls env prog st n size st' n' .returned h
  refine ⟨?_, fun hz => ?_, fun hc hz => ?_⟩
  · simp only [Machine.sizeOfUniqueL, h1, Machine.addUsize]
    split
    · rename_i h
      split at h
      · cases h
      · cases h
    · rename_i h
      split at h
      · cases h
        congr 1
        word_omega
      · cases h
        congr 1
        word_omega
  · simp only [Machine.sizeOfUniqueL, h2 (by omega), Machine.addUsize_fits (c := .on) hz]
  · by_cases hs : size < Usize.modulus
    · refine ⟨size, st', n', ?_⟩
      simp only [Machine.sizeOfUniqueL, h2 hs, Machine.addUsize, if_neg (show ¬ sizeOfT + size < Usize.modulus by omega)]
    · obtain ⟨s, st'', n'', e⟩ := h3 hc (by omega)
      exact ⟨s, st'', n'', by simp only [Machine.sizeOfUniqueL, e]⟩

namespace LiveMachineEx

attribute [local instance] Target.x64
open LiveEx

/-- The hypotheses are met by an `Arc<Mutex<String>>` that two roots share, while another thread now and then has the mutex. -/
example (st : Store) (n : Nat) :=
  C79_live S env respectful H vals_ok roots roots_ok st n (letsGo st n) [7] (by simp) (fun p h => by rw [reach _ _ (fun _ => rfl) p h]; simp) 1 (by simp)

example (st : Store) (n : Nat) (ord : HashOrder TreeId) :=
  C79_memory S env respectful frames vals (fun _ => rfl) vals_ok roots roots_ok st n (letsGo st n) [7] (by simp)
    (fun p h => by rw [reach _ _ (fun _ => rfl) p h]; simp)
    (by
      intro v hv d hd
      simp only [roots, List.mem_cons, List.not_mem_nil, or_false, or_self] at hv
      subst hv
      cases hd
      simp [Datum.InMemory, tArc])
    (fun _ => 48) (by
      intro p hp
      simp only [List.mem_singleton] at hp
      subst hp
      refine ⟨⟨⟨3, by omega, rfl⟩, by decide⟩, bytes 7, by decide, fun d hd => ?_⟩
      rcases vals_sees hd with rfl | rfl | ⟨x, rfl⟩
      · simp [Datum.InMemory]
      · simp [Datum.InMemory]
      · simp [seen, Datum.InMemory, Datum.size, Datum.value, Impl.string, Impl.sized, tMutex, tString]) 1 (by simp) ord

/-- A free mutex whose contents are visited with `usize::MAX` and 1. -/
example := C79_debug_poisons Ex.M.key (Ex.k "a") 24 16 (2 ^ 64 - 1) 1 (by decide) (by decide) (by decide) (by decide) 1 Ex.store 5 (by decide) (by decide)

/-- The hypotheses of the theorem on `size_of_unique_allocated_data` are met: a mutex with a string in it. -/
example (st : Store) (n : Nat) := C79_size_of S env respectful H vals_ok value value_ok 1 st n (letsGo st n)

/-- Something with two leaves behind a unique pointer inside a mutex: too much for a usize. -/
def large : LProg := .access .stdTryLock 1 (.enterUnique (Ex.k "p") 8 .exit (.enter (Ex.k "a") (2 ^ 64 - 1) .exit .done (.enter (Ex.k "b") 8 .exit .done .done)) .done) .done
theorem large_run (n : Nat) : ∃ st' n', SizeOf.sizeOfUniqueAllocatedDataL .quiet large Ex.store n = .ended (2 ^ 64 + 7) st' n' .returned := by
  have hg : Access.granted (Ex.store.lock 1) .stdTryLock = true := by decide
  simp [SizeOf.sizeOfUniqueAllocatedDataL, large, execL, call_granted (env := Env.quiet) (n := n) (st := Ex.store) hg, Env.quiet, hg, SizeOf.visitorImpl, LResult.thenFinish, LResult.thenRelease,
    VisitorImpl.finishChild, VisitorImpl.drop, VisitorImpl.exit, VisitorImpl.endScope, VisitorImpl.exitImpl]
example (n : Nat) : ∃ st' n', Machine.sizeOfUniqueAllocatedDataL .off .quiet large Ex.store n = .ended 7 st' n' .returned := by
  obtain ⟨st', n', h⟩ := large_run n
  exact ⟨st', n', (C79_size_of_calls .quiet large Ex.store n _ st' n' _ h).1⟩
example (n : Nat) : ∃ s st' n', Machine.sizeOfUniqueAllocatedDataL .on .quiet large Ex.store n = .ended s st' n' .unwinding := by
  obtain ⟨st', n', h⟩ := large_run n
  exact (C79_size_of_calls .quiet large Ex.store n _ st' n' _ h).2.2 (by simp [large, LProg.NoCatch]) (by decide)
example := C79_given_back .on Ex.busy (fun _ _ => ⟨fun _ => ⟨rfl, rfl⟩, fun _ => ⟨rfl, rfl⟩⟩) Ex.store 3

/-- Two sizes that together do not fit a usize, in a mutex; the visit catches the panic and goes on. -/
def caught : LProg := .access .stdTryLock 1 (.enter (Ex.k "a") (2 ^ 64 - 1) .exit .done (.catchUnwind (.enter (Ex.k "a") 8 .exit .done .done) (.enter (Ex.k "b") 8 .exit .done .done))) .done
theorem caught_run (n : Nat) : ∃ b st' n', Machine.useRootsL .on .quiet Builder.default [(caught, .exit)] Ex.store n = .ended b st' n' .returned ∧ ∀ c ord, Machine.finish c ord b = .error .assertFinish := by
  have hg : Access.granted (Ex.store.lock 1) .stdTryLock = true := by decide
  have e : ∃ b st' n', Machine.useRootsL .on .quiet Builder.default [(caught, .exit)] Ex.store n = .ended b st' n' .returned ∧ b.enteredRootVisitor = true := by
    simp [caught, Machine.useRootsL, Machine.useRootL, Builder.rootVisitor, Builder.default, Trees.newTree, Machine.execL, Machine.enterInlineImpl, Machine.downAndAdd, Machine.addUsize, down, up, Trees.index, Trees.update,
      call_granted (env := Env.quiet) (n := n) (st := Ex.store) hg, Env.quiet, hg, HMap.get?, Usize.modulus, Target.x64, LResult.thenFinish, LResult.thenRelease, VisitorImpl.finishChild, VisitorImpl.drop, VisitorImpl.exit, VisitorImpl.endScope,
      VisitorImpl.exitImpl, Builder.exitImpl, Builder.visitorImpl, setAt, Access.acquire, Access.release]
  obtain ⟨b, st', n', h, hb⟩ := e
  refine ⟨b, st', n', h, fun c ord => ?_⟩
  simp only [Machine.finish, hb]
  split
  · rfl
  · split <;> rfl

/-- The hypotheses of the theorem on overflow are met: after a root that fits, two sizes that together do not fit, in a mutex. -/
def small : LProg := .enter (Ex.k "c") 8 .exit .done .done
def two : LProg := .access .stdTryLock 1 (.enter (Ex.k "a") (2 ^ 64 - 1) .exit .done (.enter (Ex.k "a") 8 .exit .done .done)) .done
example (n : Nat) : ∃ b st1 n1 b1 st' n', Machine.useRootsL .on .quiet Builder.default [(small, .exit)] Ex.store n = .ended b st1 n1 .returned ∧
    Machine.useRootL .on .quiet b two .exit st1 n1 = .ended b1 st' n' .unwinding := by
  have hg : Access.granted (Ex.store.lock 1) .stdTryLock = true := by decide
  have hk : ¬ Ex.k "c" = Ex.k "a" := by decide
  have e0 : ∃ b, Machine.useRootsL .on .quiet Builder.default [(small, .exit)] Ex.store n = .ended b Ex.store n .returned ∧ b.enteredRootVisitor = false ∧
      ∃ b' st' n' ctl, b.useRootL .quiet two .exit Ex.store n = .ended b' st' n' ctl ∧ ∃ d ∈ b'.trees, Usize.modulus ≤ d.size := by
    simp [hk, small, two, Machine.useRootsL, Machine.useRootL, Builder.useRootL, Builder.rootVisitor, Builder.default, Trees.newTree, Machine.execL, execL, Machine.enterInlineImpl, Builder.enterInlineImpl, Machine.downAndAdd, Builder.downAndAdd,
      Machine.addUsize, down, up, Trees.index, Trees.update,
      call_granted (env := Env.quiet) (n := n) (st := Ex.store) hg, Env.quiet, hg, HMap.get?, Usize.modulus, Target.x64, LResult.thenFinish, LResult.thenRelease, VisitorImpl.finishChild, VisitorImpl.drop, VisitorImpl.exit, VisitorImpl.endScope,
      VisitorImpl.exitImpl, Builder.exitImpl, Builder.visitorImpl, setAt, Access.acquire, Access.release]
  obtain ⟨b, h1, h2, b', st', n', ctl, h3, h4⟩ := e0
  obtain ⟨b1, st1, n1, h5⟩ := (C79_overflow_panics .quiet [(small, .exit)] Ex.store n b Ex.store n .returned h1 h2 two (by simp [two, LProg.NoCatch]) .exit b' st' n' ctl h3).1 h4
  exact ⟨b, Ex.store, n, b1, st1, n1, h1, h5⟩
example (n : Nat) : ∃ s st' n', Machine.sizeOfUniqueL .on .quiet 24 large Ex.store n = .ended s st' n' .unwinding := by
  obtain ⟨st', n', h⟩ := large_run n
  exact (C79_size_of_unique_calls .quiet 24 large Ex.store n _ st' n' h).2.2 (by simp [large, LProg.NoCatch]) (by decide)

end LiveMachineEx
end Allocative
