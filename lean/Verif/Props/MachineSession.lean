import Verif.Lemmas.MachineSession
import Verif.Props.Wrap
import Verif.Props.SizeSession
set_option linter.unusedSimpArgs false
/-
C68: any calls, on any number of builders, with machine arithmetic: debug builds (`.on`: an addition that overflows panics) and release builds (`.off`: it wraps).
-/
namespace Allocative

/-- What `finish` of a release build reports for the records: as `Builder.Reports`, with sums cut to the bits of a usize (`selfWrap`, `remWrap`: Spec/Wrap.lean). -/
def Builder.ReportsWrapped [Target] (b : Builder) (recs : List Rec) : Prop :=
  ∀ (ord : HashOrder TreeId) (ord' : HashOrder (List Str)), ∃ (out : Builder.Output) (lines : List (Path × Nat)) (ws : List Path),
    Machine.finish .off ord b = .ok out ∧ out.flamegraph.write ord' = lines.flatMap renderLine ∧ lines.Pairwise (fun a b => pathLt a.1.names b.1.names) ∧
    (∀ p n, (p, n) ∈ lines ↔ entered recs p ∧ n = selfWrap recs p ∧ n ≠ 0) ∧
    Machine.totalSize .off out.flamegraph = .ok ((lines.map Prod.snd).sum % Usize.modulus) ∧
    out.warnings = ws.flatMap (renderWarningWrap recs) ∧ ws.Pairwise (fun a b => pathLt a.names b.names) ∧
    ∀ p, p ∈ ws ↔ p ≠ [] ∧ entered recs p ∧ remWrap recs p < 0

theorem Idle.reportsWrapped [Target] {b recs paths} (h : Idle b recs paths) (hk : ∀ r ∈ recs, ∀ k ∈ r.path, k.Proper) : (Machine.wrapB b).ReportsWrapped recs := by
  intro ord ord'
  obtain ⟨fg, ws, e, hb, hs', _, hm, hso⟩ := Machine.finish_off ord Key.Proper h hk
  have hs : ∀ p, fg.selfAt p = if p = [] ∨ entered recs p then some (selfWrap recs p) else none := by
    intro p
    have := h.rep.mem p
    rw [hs' p]
    by_cases hp : p ∈ paths
    · rw [if_pos hp, if_pos (this.1 hp)]
    · rw [if_neg hp, if_neg (fun x => hp (this.2 x))]
  have hok : fg.Ok fun _ => True := hb.ok.mono (fun _ _ => trivial)
  refine ⟨_, FlameGraph.entries fg [], ws, e, ?_, FlameGraph.entries_sorted _ hb.ok _, ?_, ?_, rfl, hso fun _ h => h, hm⟩
  · rw [← FlameGraph.write_eq ord' _ hb.ok]
    refine Machine.writeImpl_wrapFG ord' fg [] ?_ hok
    intro p n hp
    rw [hs p] at hp
    split at hp
    · cases hp; exact selfWrap_lt _ _
    · cases hp
  · intro p n
    rw [FlameGraph.mem_entries _ hb.ok]
    constructor
    · rintro ⟨q, e, hne, hn, h⟩
      simp only [List.nil_append] at e
      subst e
      rw [hs] at h
      split at h
      · rename_i hp
        cases h
        exact ⟨hp.resolve_left hne, rfl, hn⟩
      · cases h
    · rintro ⟨he, rfl, hn⟩
      refine ⟨p, rfl, ?_, hn, by rw [hs, if_pos (.inr he)]⟩
      rintro rfl
      exact hn (by simp [selfWrap])
  · rw [Machine.totalSize_off, FlameGraph.entries_sum, if_pos rfl, hb.ok.totalSize_eq]
    have hroot : fg.nodeSize = 0 := by
      have := hs []
      simp only [FlameGraph.selfAt, FlameGraph.find?, Option.map_some, true_or, if_true, selfWrap] at this
      exact Option.some.inj this
    rw [hroot, Nat.sub_zero]

theorem dead_of_entered [Target] {b : Builder} (h : b.enteredRootVisitor = true) : b.rootVisitor = .error .assertRootNotEntered ∧
    ∀ c ord, Machine.finish c ord b = .error .assertFinish := by
  refine ⟨by simp [Builder.rootVisitor, h], fun c ord => ?_⟩
  simp only [Machine.finish, h]
  split
  · rfl
  · split <;> rfl

/-- C68. A release build, whatever the sizes: calls that the borrow checker admits never panic (as long as no visitor is forgotten), and no overflow is noticed; the
calls return what they return with unbounded numbers; each builder without live visitors reports its own calls, the sums cut to the bits of a usize. -/
theorem C68_release [Target] (ops : List (Nat × Op)) (hf : ∀ x ∈ ops, x.2 ≠ .forget) (r : Except Panic (World × List (Nat × Event) × List Nat))
    (h : Machine.runWorld .off World.start ops = some r) :
    ∃ (w : World) (log : List (Nat × Event)), r = .ok (w, log, []) ∧ (∃ w0, World.start.run ops = some (.ok (w0, log)) ∧ ∀ i, (w0 i).live = (w i).live) ∧
      ∀ i, ∃ (frames : List Frame) (recs : List Rec), replay [] (callsOf i log) = some (frames, recs) ∧ (w i).live = frames.map Frame.kind ∧
        (∀ before name size ptr returnedSome after, callsOf i log = before ++ .shared name size ptr returnedSome :: after →
          (returnedSome = true ↔ ∀ name' size' r', Event.shared name' size' ptr r' ∉ before)) ∧
        ((w i).live = [] → (∀ r ∈ recs, ∀ k ∈ r.path, k.Proper) → (w i).builder.ReportsWrapped recs) := by
  have hoff := Machine.runWorld_off ops World.start
  rw [Machine.wrapS_start, h] at hoff
  rcases World.Inv.run ops hf _ _ World.Inv.start with e | ⟨w0, log, e, hi⟩
  · rw [e] at hoff; cases hoff
  rw [e] at hoff
  simp only [Option.map_some, Machine.mapOk, Option.some.injEq] at hoff
  refine ⟨_, log, hoff, ⟨w0, e, fun _ => rfl⟩, fun i => ?_⟩
  obtain ⟨frames, recs, paths, hi⟩ := hi i
  simp only [List.nil_append] at hi
  refine ⟨frames, recs, hi.replays, hi.live, ?_, ?_⟩
  · intro before name size ptr r after e
    rw [hi.first _ _ _ _ _ _ e, mem_sharedPtrs]
  · intro hl hk
    have : frames = [] := by
      have hl' : (w0 i).live = [] := hl
      rw [hi.live] at hl'; exact List.map_eq_nil_iff.1 hl'
    subst this
    exact hi.idle.reportsWrapped hk

/-- C68. The borrow checker's verdict does not depend on the arithmetic: a release build admits and panics exactly as with unbounded numbers, forgotten visitors
included. -/
theorem C68_release_same [Target] (ops : List (Nat × Op)) :
    (Machine.runWorld .off World.start ops = none ↔ World.start.run ops = none) ∧
    (∀ e, Machine.runWorld .off World.start ops = some (.error e) ↔ World.start.run ops = some (.error e)) ∧
    (∀ w log over, Machine.runWorld .off World.start ops = some (.ok (w, log, over)) → over = [] ∧
      ∀ i, (i, .forget) ∈ ops → (w i).builder.rootVisitor = .error .assertRootNotEntered ∧ ∀ c ord, Machine.finish c ord (w i).builder = .error .assertFinish) := by
  have hoff := Machine.runWorld_off ops World.start
  rw [Machine.wrapS_start] at hoff
  cases e : World.start.run ops with
  | none => rw [hoff, e]; simp
  | some r =>
    cases r with
    | error x => rw [hoff, e]; simp [Machine.mapOk]
    | ok r =>
      obtain ⟨w0, log0⟩ := r
      rw [hoff, e]
      refine ⟨by simp [Machine.mapOk], by simp [Machine.mapOk], ?_⟩
      intro w log over h
      simp only [Option.map_some, Machine.mapOk, Option.some.injEq, Except.ok.injEq, Prod.mk.injEq] at h
      obtain ⟨rfl, _, rfl⟩ := h
      refine ⟨rfl, fun i hi => ?_⟩
      obtain ⟨m, hm⟩ := World.leaks i ops _ _ _ e (.inl ⟨_, _, _, _, Inv.start⟩) (.inr hi)
      exact dead_of_entered (b := Machine.wrapB (w0 i).builder) hm.entered

theorem Idle.finish_declared [Target] {b recs paths} (h : Idle b recs paths) (hd : (recs.map Rec.size).sum < Usize.half) (c : Machine.Checks) (ord : HashOrder TreeId) :
    Machine.finish c ord b = b.finish ord := by
  obtain ⟨fg, ws, e, hb, hs, _⟩ := h.finish ord (fun _ => True) (fun _ _ _ _ => trivial)
  rw [e]
  refine (Machine.finish_both h (fun p => ⟨?_, ?_⟩) c ord).1 _ e ?_
  · have := sizeAt_le_declared recs p; omega
  · have := childrenAt_le_declared recs p; omega
  · -- the total is at most what was declared
    have hok := hb.ok
    have hl' : ∀ p, p ∈ FlameGraph.allPaths fg ↔ p = [] ∨ entered recs p := by
      intro p
      rw [FlameGraph.mem_allPaths _ hok, hs p, ← h.rep.mem p]
      split <;> simp_all
    have hnd := FlameGraph.nodup_allPaths _ hok
    simp only
    rw [hok.totalSize_eq_sum hnd (fun p hp => (FlameGraph.mem_allPaths _ hok p).2 hp)]
    have h1 : ∀ p, (fg.selfAt p).getD 0 ≤ sizeAt recs p := by
      intro p
      rw [hs p]
      split
      · simp only [Option.getD_some, selfSpec, remAt]
        split
        · omega
        · split <;> omega
      · simp
    have h2 : ((FlameGraph.allPaths fg).map (sizeAt recs)).sum = (recs.map Rec.size).sum :=
      sum_fiber Rec.path Rec.size _ hnd recs (fun r hr => (hl' _).2 (.inr ⟨r, hr, rfl⟩))
    suffices hle : ((FlameGraph.allPaths fg).map fun p => (fg.selfAt p).getD 0).sum ≤ ((FlameGraph.allPaths fg).map (sizeAt recs)).sum by
      rw [h2] at hle
      word_omega
    generalize FlameGraph.allPaths fg = l
    clear hl' hnd h2
    induction l with
    | nil => simp
    | cons p l ih => simp only [List.map_cons, List.sum_cons]; have := h1 p; omega

/-- C68. A debug build: a builder one of whose calls overflowed (the panic was caught and calls went on), or one of whose visitors was forgotten, at any time, gives no
flame graph and accepts no other root, whatever is called afterwards. -/
theorem C68_debug_dead [Target] (ops : List (Nat × Op)) (w : World) (log : List (Nat × Event)) (over : List Nat)
    (h : Machine.runWorld .on World.start ops = some (.ok (w, log, over))) (i : Nat) (hi : i ∈ over ∨ (i, .forget) ∈ ops) :
    (w i).builder.rootVisitor = .error .assertRootNotEntered ∧ ∀ c ord, Machine.finish c ord (w i).builder = .error .assertFinish := by
  rcases Machine.WInv.run ops _ _ _ Machine.WInv.start with e | ⟨_, _, _, _, _, e, _⟩ | ⟨w', log', over', e, hw⟩
  · rw [h] at e; cases e
  · rw [h] at e; cases e
  · rw [h] at e
    simp only [Option.some.injEq, Except.ok.injEq, Prod.mk.injEq] at e
    obtain ⟨rfl, rfl, rfl⟩ := e
    obtain ⟨m, hm⟩ := (hw i).1 (.inr hi)
    exact dead_of_entered hm.entered

/-- C68. A debug build, any other builder, whatever happened to the rest: its calls returned what they return with unbounded numbers, no sum of a stack has reached
`usize::MAX + 1`, and the builder is the one of unbounded numbers: it reports its own calls if no visitor of it is live - exactly if less than `isize::MAX + 1` bytes were declared, and
if all sums are below `isize::MAX + 1` either exactly or by a panic. -/
theorem C68_debug_exact [Target] (ops : List (Nat × Op)) (w : World) (log : List (Nat × Event)) (over : List Nat)
    (h : Machine.runWorld .on World.start ops = some (.ok (w, log, over))) (i : Nat) (hi : i ∉ over) (hf : (i, .forget) ∉ ops) :
    ∃ (frames : List Frame) (recs : List Rec), replay [] (callsOf i log) = some (frames, recs) ∧ (w i).live = frames.map Frame.kind ∧
      (∀ p, sizeAt recs p < Usize.modulus) ∧
      (∀ before name size ptr returnedSome after, callsOf i log = before ++ .shared name size ptr returnedSome :: after →
        (returnedSome = true ↔ ∀ name' size' r', Event.shared name' size' ptr r' ∉ before)) ∧
      ((w i).live = [] → (∀ r ∈ recs, ∀ k ∈ r.path, k.Proper) → (w i).builder.Reports recs) ∧
      ((w i).live = [] → (recs.map Rec.size).sum < Usize.half → ∀ c ord, Machine.finish c ord (w i).builder = (w i).builder.finish ord) ∧
      ((w i).live = [] → (∀ p, sizeAt recs p < Usize.half ∧ childrenAt recs p < Usize.half) →
        ∀ ord out, Machine.finish .on ord (w i).builder = .ok out → (w i).builder.finish ord = .ok out) := by
  rcases Machine.WInv.run ops _ _ _ Machine.WInv.start with e | ⟨_, _, _, _, _, e, _⟩ | ⟨w', log', over', e, hw⟩
  · rw [h] at e; cases e
  · rw [h] at e; cases e
  · rw [h] at e
    simp only [Option.some.injEq, Except.ok.injEq, Prod.mk.injEq] at e
    obtain ⟨rfl, rfl, rfl⟩ := e
    obtain ⟨frames, recs, paths, hinv, hfit⟩ := (hw i).2 (by simp [hi, hf])
    simp only [List.nil_append] at hinv
    have idle : (w i).live = [] → Idle (w i).builder recs paths := by
      intro hl
      have : frames = [] := by rw [hinv.live] at hl; exact List.map_eq_nil_iff.1 hl
      subst this
      exact hinv.idle
    refine ⟨frames, recs, hinv.replays, hinv.live, hfit, ?_, fun hl => (idle hl).reports, fun hl => (idle hl).finish_declared,
      fun hl hb ord => (Machine.finish_both (idle hl) hb .on ord).2⟩
    intro before name size ptr r after e
    rw [hinv.first _ _ _ _ _ _ e, mem_sharedPtrs]

/-- C68. A debug build: besides overflows the only panic is that of `root_visitor` on such a dead builder. -/
theorem C68_debug_panic [Target] (ops : List (Nat × Op)) (e : Panic) (h : Machine.runWorld .on World.start ops = some (.error e)) :
    e = .assertRootNotEntered ∧ ∃ done i w log over, done ++ [(i, .root)] <+: ops ∧ Machine.runWorld .on World.start done = some (.ok (w, log, over)) ∧
      (i ∈ over ∨ (i, .forget) ∈ done) := by
  rcases Machine.WInv.run ops _ _ _ Machine.WInv.start with e' | ⟨done, i, w, log, over, e', h1, h2, h3⟩ | ⟨w', log', over', e', _⟩
  · rw [h] at e'; cases e'
  · rw [h] at e'
    simp only [Option.some.injEq, Except.error.injEq] at e'
    exact ⟨e', done, i, w, log, over, h1, h2, h3.resolve_left id⟩
  · rw [h] at e'; cases e'

/-- C68. As long as the sum of every stack of every builder stays below `usize::MAX + 1`, debug and release builds do exactly what the model over unbounded numbers does. -/
theorem C68_exact [Target] (c : Machine.Checks) (ops : List (Nat × Op)) (hf : ∀ x ∈ ops, x.2 ≠ .forget) (w : World) (log : List (Nat × Event))
    (h : World.start.run ops = some (.ok (w, log)))
    (hb : ∀ i frames recs, replay [] (callsOf i log) = some (frames, recs) → ∀ p, sizeAt recs p < Usize.modulus) :
    Machine.runWorld c World.start ops = some (.ok (w, log, [])) :=
  Machine.run_exact c ops hf _ (fun _ => []) (fun _ => ⟨_, _, _, Inv.start, fun p => by simp [Machine.sizeAt_nil, Usize.modulus_pos]⟩) w log h (by simpa using hb)

/-! ### Visit programs are such sequences of calls. -/

/-- By some operations, with machine arithmetic. -/
def Machine.Reaches [Target] (c : Machine.Checks) (s s' : Session) : Prop := ∃ (ops : List Op), ∀ w : World, w 0 = s → ∃ w' log over,
  Machine.runWorld c w (ops.map fun op => (0, op)) = some (.ok (w', log, over)) ∧ w' 0 = s'

namespace Machine
variable {c : Checks}

theorem Reaches.refl [Target] (s : Session) : Reaches c s s := ⟨[], fun w h => ⟨w, [], [], rfl, h⟩⟩

theorem Reaches.cons [Target] {s s1 s2 : Session} (op : Op) {evs : List Event} {ctl : Ctl} (h : step c s op = some (.ok (s1, evs, ctl)))
    (h' : Reaches c s1 s2) : Reaches c s s2 := by
  obtain ⟨ops, ho⟩ := h'
  refine ⟨op :: ops, fun w hw => ?_⟩
  obtain ⟨w', log, over, e, h2⟩ := ho (fun j => if j = 0 then s1 else w j) (by simp)
  exact ⟨w', _, _, by simp only [List.map_cons, runWorld, hw, h, e]; rfl, h2⟩

theorem runWorld_append [Target] (a b : List (Nat × Op)) : ∀ (w w1 w2 : World) (l1 l2 o1 o2), runWorld c w a = some (.ok (w1, l1, o1)) →
    runWorld c w1 b = some (.ok (w2, l2, o2)) → runWorld c w (a ++ b) = some (.ok (w2, l1 ++ l2, o1 ++ o2)) := by
  induction a with
  | nil =>
    intro w w1 w2 l1 l2 o1 o2 h1 h2
    simp only [runWorld, Option.some.injEq, Except.ok.injEq, Prod.mk.injEq] at h1
    obtain ⟨rfl, rfl, rfl⟩ := h1
    exact h2
  | cons x a ih =>
    intro w w1 w2 l1 l2 o1 o2 h1 h2
    obtain ⟨i, op⟩ := x
    simp only [runWorld] at h1
    split at h1
    · cases h1
    · cases h1
    rename_i s evs ctl e
    split at h1
    · cases h1
    · cases h1
    rename_i w3 l3 o3 e3
    simp only [Option.some.injEq, Except.ok.injEq, Prod.mk.injEq] at h1
    obtain ⟨rfl, rfl, rfl⟩ := h1
    simp only [List.cons_append, runWorld, e, ih _ _ _ _ _ _ _ e3 h2, List.append_assoc]

theorem Reaches.trans [Target] {s s1 s2 : Session} (h : Reaches c s s1) (h' : Reaches c s1 s2) : Reaches c s s2 := by
  obtain ⟨a1, h1⟩ := h
  obtain ⟨a2, h2⟩ := h'
  refine ⟨a1 ++ a2, fun w hw => ?_⟩
  obtain ⟨w1, l1, o1, e1, hw1⟩ := h1 w hw
  obtain ⟨w2, l2, o2, e2, hw2⟩ := h2 w1 hw1
  exact ⟨w2, l1 ++ l2, o1 ++ o2, by rw [List.map_append]; exact runWorld_append _ _ _ _ _ _ _ _ _ e1 e2, hw2⟩

theorem finishChild_reaches [Target] {b b' : Builder} {kind : NodeKind} {f : Fate} {ctl : Ctl} (h : Builder.visitorImpl.finishChild kind f ctl b = .ok b')
    (live : List NodeKind) : Reaches c ⟨b, kind :: live⟩ ⟨b', live⟩ := by
  have hexit : ∀ {b b'}, Builder.visitorImpl.exit kind b = .ok b' → Reaches c ⟨b, kind :: live⟩ ⟨b', live⟩ := by
    intro b b' h
    exact .cons .exit (by simp only [step, h]; rfl) (.refl _)
  have hdrop : ∀ {b b'}, Builder.visitorImpl.drop kind b = .ok b' → Reaches c ⟨b, kind :: live⟩ ⟨b', live⟩ := by
    intro b b' h
    exact .cons .drop (by simp only [step, h]; rfl) (.refl _)
  have hforget : ∀ {b b' : Builder}, (.ok b : Except Panic Builder) = .ok b' → Reaches c ⟨b, kind :: live⟩ ⟨b', live⟩ := by
    intro b b' h
    simp only [Except.ok.injEq] at h
    subst h
    exact .cons .forget rfl (.refl _)
  cases f <;> cases ctl <;> first | exact hexit h | exact hdrop h | exact hforget h

theorem exec_reaches [Target] (prog : Prog) : ∀ (kind : NodeKind) (b b' : Builder) (ctl : Ctl) (live : List NodeKind),
    exec c prog kind b = .ok (b', ctl) → Reaches c ⟨b, kind :: live⟩ ⟨b', kind :: live⟩ := by
  induction prog with
  | done => intro kind b b' ctl live h; cases h; exact .refl _
  | panic => intro kind b b' ctl live h; cases h; exact .refl _
  | enter k n f body rest ih1 ih2 =>
    intro kind b b' ctl live h
    simp only [exec] at h
    split at h
    · cases h
    · rename_i b1 e1
      cases h
      exact .cons (.enter k n) (by simp only [step, e1]; rfl) (.refl _)
    rename_i b1 e1
    split at h
    · cases h
    rename_i b2 ctl2 e2
    split at h
    · cases h
    rename_i b3 e3
    refine .cons (.enter k n) (by simp only [step, e1]; rfl) ((ih1 _ _ _ _ (kind :: live) e2).trans ((finishChild_reaches e3 _).trans ?_))
    cases ctl2 with
    | unwinding => cases h; exact .refl _
    | returned => exact ih2 _ _ _ _ live h
  | enterUnique k n f body rest ih1 ih2 =>
    intro kind b b' ctl live h
    simp only [exec] at h
    split at h
    · cases h
    · rename_i b1 e1
      cases h
      exact .cons (.enterUnique k n) (by simp only [step, e1]; rfl) (.refl _)
    rename_i b1 e1
    split at h
    · cases h
    rename_i b2 ctl2 e2
    split at h
    · cases h
    rename_i b3 e3
    refine .cons (.enterUnique k n) (by simp only [step, e1]; rfl) ((ih1 _ _ _ _ (kind :: live) e2).trans ((finishChild_reaches e3 _).trans ?_))
    cases ctl2 with
    | unwinding => cases h; exact .refl _
    | returned => exact ih2 _ _ _ _ live h
  | enterShared k n p f body rs rn ih1 ih2 ih3 =>
    intro kind b b' ctl live h
    simp only [exec] at h
    split at h
    · cases h
    · rename_i r b1 e1
      cases h
      exact .cons (.enterShared k n p) (by simp only [step, e1]; rfl) (.refl _)
    · rename_i b1 e1
      exact .cons (.enterShared k n p) (by simp only [step, e1]; rfl) (ih3 _ _ _ _ live h)
    · rename_i b1 e1
      split at h
      · cases h
      rename_i b2 ctl2 e2
      split at h
      · cases h
      rename_i b3 e3
      refine .cons (.enterShared k n p) (by simp only [step, e1]; rfl) ((ih1 _ _ _ _ (kind :: live) e2).trans ((finishChild_reaches e3 _).trans ?_))
      cases ctl2 with
      | unwinding => cases h; exact .refl _
      | returned => exact ih2 _ _ _ _ live h
  | catchUnwind body rest ih1 ih2 =>
    intro kind b b' ctl live h
    simp only [exec] at h
    split at h
    · cases h
    rename_i b1 ctl1 e1
    exact (ih1 _ _ _ _ live e1).trans (ih2 _ _ _ _ live h)

end Machine

/-- C68. Every history of visit programs with machine arithmetic (the user code of C42, C46, C56), overflowing and leaking ones included, is such a sequence of
operations on one builder. -/
theorem C68_programs [Target] (c : Machine.Checks) (hist : List (Prog × Fate)) (b : Builder) (h : Machine.useRoots c Builder.default hist = .ok b) :
    ∃ (ops : List Op) (w : World) (log : List (Nat × Event)) (over : List Nat),
      Machine.runWorld c World.start (ops.map fun op => (0, op)) = some (.ok (w, log, over)) ∧ w 0 = ⟨b, []⟩ := by
  have : ∀ (hist : List (Prog × Fate)) (b0 : Builder), Machine.useRoots c b0 hist = .ok b → Machine.Reaches c ⟨b0, []⟩ ⟨b, []⟩ := by
    intro hist
    induction hist with
    | nil => intro b0 h; cases h; exact .refl _
    | cons x hist ih =>
      intro b0 h
      obtain ⟨prog, fate⟩ := x
      simp only [Machine.useRoots] at h
      split at h
      · cases h
      rename_i b1 ctl e
      refine .trans ?_ (ih _ h)
      simp only [Machine.useRoot] at e
      split at e
      · cases e
      rename_i b2 e2
      split at e
      · cases e
      rename_i b3 ctl3 e3
      split at e
      · cases e
      rename_i b4 e4
      simp only [Except.ok.injEq, Prod.mk.injEq] at e
      obtain ⟨rfl, rfl⟩ := e
      exact .cons .root (by simp only [Machine.step, e2]; rfl) ((Machine.exec_reaches _ _ _ _ _ [] e3).trans (Machine.finishChild_reaches e4 _))
  obtain ⟨ops, ho⟩ := this hist _ h
  obtain ⟨w, log, over, e, hw⟩ := ho World.start rfl
  exact ⟨ops, w, log, over, e, hw⟩

/-! ### `size_of_unique_allocated_data` -/

namespace Machine

theorem sizeStep_cases [Target] (c : Checks) (s : SizeOf.Session) (h : s.Unshared) (op : Op) :
    sizeStep c s op = none ∨
    (∃ s', sizeStep c s op = some (.ok (s', .returned)) ∧ s'.Unshared ∧ s'.live = op.liveAfter s.live ∧
      s'.size % Usize.modulus = (s.size + bytesBehindUnique s.live [op]) % Usize.modulus ∧ (c = .on → s'.size = s.size + bytesBehindUnique s.live [op]) ∧
      (s.size < Usize.modulus → s'.size < Usize.modulus)) ∨
    (c = .on ∧ sizeStep c s op = some (.ok (s, .unwinding)) ∧ Usize.modulus ≤ s.size + bytesBehindUnique s.live [op]) := by
  have gen : (∀ name size, op ≠ .enter name size) → sizeStep c s op = none ∨ ∃ s', sizeStep c s op = some (.ok (s', .returned)) ∧ s'.Unshared ∧ s'.live = op.liveAfter s.live ∧
      s'.size % Usize.modulus = (s.size + bytesBehindUnique s.live [op]) % Usize.modulus ∧ (c = .on → s'.size = s.size + bytesBehindUnique s.live [op]) ∧
      (s.size < Usize.modulus → s'.size < Usize.modulus) := by
    intro hne
    have hb : bytesBehindUnique s.live [op] = 0 := by
      cases op <;> first | exact absurd rfl (hne _ _) | simp [bytesBehindUnique]
    have hst : sizeStep c s op = (match s.step op with
      | none => none
      | some (.error e) => some (.error e)
      | some (.ok (s, _)) => some (.ok (s, .returned))) := by
      cases op <;> first | exact absurd rfl (hne _ _) | rfl
    rcases s.step_cases h op with e | ⟨s', evs, e, h1, h2, h3, _⟩
    · left; rw [hst, e]
    · right
      rw [hb, Nat.add_zero] at h3 ⊢
      exact ⟨s', by rw [hst, e], h1, h2, by rw [h3], fun _ => h3, fun hl => by omega⟩
  cases op with
  | enter k n =>
    obtain ⟨size, live⟩ := s
    cases live with
    | nil => exact .inl rfl
    | cons kind live =>
      have hl : ∀ m : Nat, SizeOf.Session.Unshared ⟨m, .inline :: kind :: live⟩ := by
        intro m
        simp only [SizeOf.Session.Unshared] at h ⊢
        simp_all
      cases kind with
      | unique =>
        have hbb : bytesBehindUnique (.unique :: live) [.enter k n] = n := by simp [bytesBehindUnique]
        simp only [hbb]
        simp only [sizeStep, sizeOfInline, addUsize]
        by_cases hlt : size + n < Usize.modulus
        · simp only [if_pos hlt]
          exact .inr (.inl ⟨_, rfl, hl _, rfl, rfl, fun _ => rfl, fun _ => hlt⟩)
        · simp only [if_neg hlt]
          cases c with
          | on => exact .inr (.inr ⟨rfl, rfl, by omega⟩)
          | off =>
            exact .inr (.inl ⟨_, rfl, hl _, rfl, by simp, fun e => by (cases e), fun _ => Nat.mod_lt _ Usize.modulus_pos⟩)
      | inline => exact .inr (.inl ⟨_, rfl, hl _, rfl, by simp [bytesBehindUnique], by simp [bytesBehindUnique], fun h => h⟩)
      | root => exact .inr (.inl ⟨_, rfl, hl _, rfl, by simp [bytesBehindUnique], by simp [bytesBehindUnique], fun h => h⟩)
      | shared => exact .inr (.inl ⟨_, rfl, hl _, rfl, by simp [bytesBehindUnique], by simp [bytesBehindUnique], fun h => h⟩)
  | root => exact (gen (by simp)).imp id .inl
  | enterUnique => exact (gen (by simp)).imp id .inl
  | enterShared => exact (gen (by simp)).imp id .inl
  | exit => exact (gen (by simp)).imp id .inl
  | drop => exact (gen (by simp)).imp id .inl
  | forget => exact (gen (by simp)).imp id .inl

theorem bytesBehindUnique_cons (live : List NodeKind) (op : Op) (ops : List Op) :
    bytesBehindUnique live (op :: ops) = bytesBehindUnique live [op] + bytesBehindUnique (op.liveAfter live) ops := by
  simp [bytesBehindUnique]

theorem sizeRun_cases [Target] (c : Checks) (ops : List Op) : ∀ s : SizeOf.Session, s.Unshared → s.size < Usize.modulus → sizeRun c s ops = none ∨
    ∃ s' done, sizeRun c s ops = some (.ok (s', done)) ∧ done.Sublist ops ∧ s'.live = liveAfter s.live done ∧ s'.size < Usize.modulus ∧
      s'.size = (s.size + bytesBehindUnique s.live done) % Usize.modulus ∧ (c = .on → s.size + bytesBehindUnique s.live done < Usize.modulus) ∧
      (c = .off ∨ s.size + bytesBehindUnique s.live ops < Usize.modulus → done = ops) := by
  induction ops with
  | nil =>
    intro s h hlt
    exact .inr ⟨s, [], rfl, .slnil, rfl, hlt, by simp only [bytesBehindUnique, Nat.add_zero, Nat.mod_eq_of_lt hlt],
      fun _ => by simpa [bytesBehindUnique] using hlt, fun _ => rfl⟩
  | cons op ops ih =>
    intro s h hlt
    rcases sizeStep_cases c s h op with e | ⟨s1, e, h1, hl1, hs1, hs1', hlt1⟩ | ⟨hc, e, hov⟩
    · left; simp only [sizeRun, e]
    · rcases ih s1 h1 (hlt1 hlt) with e2 | ⟨s', done, e2, hsub, hl', hlt', hsz, hon, hd⟩
      · left; simp only [sizeRun, e, e2]
      · right
        refine ⟨s', op :: done, by simp only [sizeRun, e, e2], hsub.cons_cons op, by rw [hl', hl1]; rfl, hlt', ?_, ?_, ?_⟩
        · rw [hsz, bytesBehindUnique_cons, hl1, ← Nat.add_assoc, ← Nat.mod_add_mod, hs1, Nat.mod_add_mod]
        · intro hc
          have := hon hc
          rw [hs1' hc, hl1] at this
          rw [bytesBehindUnique_cons]; omega
        · intro hh
          rw [hd]
          rcases hh with hh | hh
          · exact .inl hh
          · cases c with
            | off => exact .inl rfl
            | on =>
              right
              rw [hs1' rfl, hl1]
              rw [bytesBehindUnique_cons] at hh; omega
    · subst hc
      rcases ih s h hlt with e2 | ⟨s', done, e2, hsub, hl', hlt', hsz, hon, hd⟩
      · left; simp only [sizeRun, e, e2]
      · right
        refine ⟨s', done, by simp only [sizeRun, e, e2], hsub.cons op, hl', hlt', hsz, hon, ?_⟩
        rintro (hh | hh)
        · cases hh
        · rw [bytesBehindUnique_cons] at hh; omega

end Machine

/-- C68. Any calls during `size_of_unique_allocated_data`: nothing but an overflow panics.  A release build completes all of them and has the sum of the bytes behind
`enter_unique` modulo `usize::MAX + 1`; a debug build has the exact sum of the completed calls, and all are completed if the sum fits; a caught overflow changes nothing. -/
theorem C68_size_of [Target] (c : Machine.Checks) (ops : List Op) (r : Except Panic (SizeOf.Session × List Op))
    (h : Machine.sizeRun c SizeOf.Session.start ops = some r) :
    ∃ (s : SizeOf.Session) (done : List Op), r = .ok (s, done) ∧ done.Sublist ops ∧ s.live = liveAfter [.root] done ∧
      (c = .off → done = ops ∧ s.size = bytesBehindUnique [.root] ops % Usize.modulus) ∧
      (c = .on → s.size = bytesBehindUnique [.root] done ∧ s.size < Usize.modulus ∧ (bytesBehindUnique [.root] ops < Usize.modulus → done = ops)) := by
  rcases Machine.sizeRun_cases c ops .start (by simp [SizeOf.Session.Unshared, SizeOf.Session.start]) Usize.modulus_pos with e | ⟨s, done, e, h1, h2, h3, h4, h5, h6⟩
  · rw [h] at e; cases e
  · rw [h] at e
    have h0 : SizeOf.Session.start.size = 0 := rfl
    have hl : SizeOf.Session.start.live = [.root] := rfl
    rw [h0, hl, Nat.zero_add] at h4 h5 h6
    refine ⟨s, done, Option.some.inj e, h1, h2, ?_, ?_⟩
    · intro hc
      have hd := h6 (.inl hc)
      exact ⟨hd, by rw [h4, hd]⟩
    · intro hc
      exact ⟨by rw [h4, Nat.mod_eq_of_lt (h5 hc)], h3, fun hh => h6 (.inr hh)⟩

/-! ### A concrete case -/

namespace MachineSessionExamples

attribute [local instance] Target.x64
open SessionExamples (k)

/-- Builder 0 overflows in the middle of a visit; the panic is caught, the visit goes on and is ended properly.  Builder 1 is used in between. -/
def ops : List (Nat × Op) :=
  [(0, .root), (0, .enter (k "A") (Usize.modulus - 8)), (0, .exit), (1, .root), (1, .enter (k "B") 16), (0, .enter (k "A") 16), (0, .enter (k "C") 4), (0, .drop),
    (0, .drop), (1, .drop), (1, .drop)]

example : ∀ x ∈ ops, x.2 ≠ .forget := by decide

-- debug: the second `A` of builder 0 panics and its visitor does not exist, so the two drops end `C` and the root
example : (match Machine.runWorld .on World.start ops with
    | some (.ok (w, log, over)) => ((w 0).live, (w 1).live, over, callsOf 0 log)
    | _ => ([.shared], [], [], [])) =
    ([], [], [0], [.root, .inline (k "A") (Usize.modulus - 8), .exit .inline, .inline (k "C") 4, .exit .inline, .exit .root]) := by decide +kernel

-- and then `root_visitor` panics
example : (match Machine.runWorld .on World.start (ops ++ [(0, .root)]) with
    | some (.error .assertRootNotEntered) => true
    | _ => false) = true := by decide +kernel

-- release: the same operations are admitted, but the root visitor of builder 0 is still live at the end
example : (match Machine.runWorld .off World.start ops with
    | some (.ok (w, _, over)) => ((w 0).live, (w 1).live, over)
    | _ => ([], [], [0])) = ([.root], [], []) := by decide +kernel

-- the records of builder 0 in the release build: the sum of `A` is 8 after cutting
example : (match Machine.runWorld .off World.start ops with
    | some (.ok (_, log, _)) => (replay [] (callsOf 0 log)).map fun r => (sizeAt r.2 [k "A"], selfWrap r.2 [k "A"])
    | _ => none) = some (Usize.modulus + 8, 4) := by decide +kernel

-- `SessionExamples.ops` meets the hypotheses of `C68_exact`: sums below 2^64
example : (match World.start.run SessionExamples.ops with
    | some (.ok (_, log)) => [0, 1].map fun i => (replay [] (callsOf i log)).map fun r => (r.2.map Rec.size).sum
    | _ => []) = [some 56, some 40] := by decide +kernel

-- `size_of`: the second call behind the pointer overflows
def sizeOps : List Op := [.enterUnique (k "p") 8, .enter (k "a") (Usize.modulus - 8), .exit, .enter (k "b") 16, .enter (k "c") 4, .drop, .drop, .drop]

example : (Machine.sizeRun .on SizeOf.Session.start sizeOps).map (fun r => match r with | .ok (s, done) => (s.size, s.live, done.length) | .error _ => (0, [], 0)) =
    some (Usize.modulus - 4, [], 7) := by decide +kernel
example : (Machine.sizeRun .off SizeOf.Session.start sizeOps).map (fun r => match r with | .ok (s, done) => (s.size, s.live, done.length) | .error _ => (0, [], 0)) =
    some (8, [.root], 8) := by decide +kernel
end MachineSessionExamples

/-! The theorems of this file with a concrete case of their hypotheses. -/
namespace MachineSessionExamples

attribute [local instance] Target.x64
open SessionExamples (k)

theorem ops_noForget : ∀ x ∈ ops, x.2 ≠ .forget := by decide

/-- Release: no panic, and what was summed up is cut. -/
example : ∃ w log, Machine.runWorld .off World.start ops = some (.ok (w, log, [])) ∧ ∀ i, ∃ frames recs, replay [] (callsOf i log) = some (frames, recs) ∧ (w i).live = frames.map Frame.kind := by
  have h := show (Machine.runWorld .off World.start ops).isSome = true by decide +kernel
  cases e : Machine.runWorld .off World.start ops with
  | none => rw [e] at h; cases h
  | some r =>
    obtain ⟨w, log, rfl, -, h2⟩ := C68_release ops ops_noForget r e
    exact ⟨w, log, rfl, fun i => by obtain ⟨f, recs, h3, h4, -⟩ := h2 i; exact ⟨f, recs, h3, h4⟩⟩

theorem ops_debug : ∃ w log, Machine.runWorld .on World.start ops = some (.ok (w, log, [0])) := by
  have h := show (match Machine.runWorld .on World.start ops with | some (.ok (_, _, over)) => over == [0] | _ => false) = true by decide +kernel
  cases e : Machine.runWorld .on World.start ops with
  | none => rw [e] at h; cases h
  | some r =>
    rw [e] at h
    cases r with
    | error p => cases h
    | ok x => obtain ⟨w, log, over⟩ := x; exact ⟨w, log, by rw [eq_of_beq h]⟩

/-- Debug: builder 0, which overflowed, is dead; builder 1 is exact. -/
example (c : Machine.Checks) (ord : HashOrder TreeId) : ∃ w log, Machine.runWorld .on World.start ops = some (.ok (w, log, [0])) ∧ Machine.finish c ord (w 0).builder = .error .assertFinish ∧
    ∃ frames recs, replay [] (callsOf 1 log) = some (frames, recs) ∧ ((w 1).live = [] → (∀ r ∈ recs, ∀ k ∈ r.path, k.Proper) → (w 1).builder.Reports recs) := by
  obtain ⟨w, log, h⟩ := ops_debug
  obtain ⟨frames, recs, h1, -, -, -, h2, -⟩ := C68_debug_exact ops w log [0] h 1 (by decide) (by decide)
  exact ⟨w, log, h, (C68_debug_dead ops w log [0] h 0 (.inl (by decide))).2 c ord, frames, recs, h1, h2⟩

example : ∃ done i w log over, done ++ [(i, .root)] <+: ops ++ [(0, .root)] ∧ Machine.runWorld .on World.start done = some (.ok (w, log, over)) ∧ (i ∈ over ∨ (i, .forget) ∈ done) :=
  (C68_debug_panic (ops ++ [(0, .root)]) .assertRootNotEntered (by
    have h := show (match Machine.runWorld .on World.start (ops ++ [(0, .root)]) with | some (.error .assertRootNotEntered) => true | _ => false) = true by decide +kernel
    cases e : Machine.runWorld .on World.start (ops ++ [(0, .root)]) with
    | none => rw [e] at h; cases h
    | some x =>
      cases x with
      | ok x => rw [e] at h; cases h
      | error p => rw [e] at h; cases p <;> first | rfl | cases h)).2

/-- Two visits of two builders, whose sums fit. -/
def small : List (Nat × Op) := [(0, .root), (1, .root), (0, .enterShared (k "p") 8 7), (1, .enter (k "A") 16), (0, .enter (k "B") 4), (0, .drop), (1, .exit), (0, .exit), (0, .drop), (1, .drop)]
theorem small_run : ∃ w log, World.start.run small = some (.ok (w, log)) ∧ callsOf 0 log = [.root, .shared (k "p") 8 7 true, .inline (k "B") 4, .exit .inline, .exit .shared, .exit .root] ∧
    callsOf 1 log = [.root, .inline (k "A") 16, .exit .inline, .exit .root] ∧ ∀ x ∈ log, x.1 = 0 ∨ x.1 = 1 := by
  have h := show (match World.start.run small with
    | some (.ok (_, log)) => decide (callsOf 0 log = [.root, .shared (k "p") 8 7 true, .inline (k "B") 4, .exit .inline, .exit .shared, .exit .root]) &&
        decide (callsOf 1 log = [.root, .inline (k "A") 16, .exit .inline, .exit .root]) && decide (∀ x ∈ log, x.1 = 0 ∨ x.1 = 1)
    | _ => false) = true by decide +kernel
  cases e : World.start.run small with
  | none => rw [e] at h; cases h
  | some x =>
    rw [e] at h
    cases x with
    | error p => cases h
    | ok x =>
      obtain ⟨w, log⟩ := x
      simp only [Bool.and_eq_true, decide_eq_true_eq] at h
      exact ⟨w, log, rfl, h.1.1, h.1.2, h.2⟩

example (c : Machine.Checks) : ∃ w log, Machine.runWorld c World.start small = some (.ok (w, log, [])) := by
  obtain ⟨w, log, h, h0, h1, h2⟩ := small_run
  refine ⟨w, log, C68_exact c small (by decide) w log h fun i frames recs hr p => ?_⟩
  have key : (recs.map Rec.size).sum < Usize.modulus := by
    by_cases hi : i = 0
    · subst hi; rw [h0] at hr
      have := show ((replay [] [.root, .shared (k "p") 8 7 true, .inline (k "B") 4, .exit .inline, .exit .shared, .exit .root]).map fun r => (r.2.map Rec.size).sum) = some 12 by decide +kernel
      rw [hr] at this; simp only [Option.map_some, Option.some.injEq] at this; rw [this]; decide
    · by_cases hi1 : i = 1
      · subst hi1; rw [h1] at hr
        have := show ((replay [] [.root, .inline (k "A") 16, .exit .inline, .exit .root]).map fun r => (r.2.map Rec.size).sum) = some 16 by decide +kernel
        rw [hr] at this; simp only [Option.map_some, Option.some.injEq] at this; rw [this]; decide
      · have : callsOf i log = [] := by
          unfold callsOf
          rw [List.map_eq_nil_iff, List.filter_eq_nil_iff]
          intro x hx
          rw [decide_eq_true_eq]
          rcases h2 x hx with h | h <;> rw [h] <;> omega
        rw [this] at hr; cases hr; decide
  exact Nat.lt_of_le_of_lt (sizeAt_le_declared recs p) key

def sharedHist : List (Prog × Fate) :=
  [(.enter (k "A") 16 .drop (.enterShared (k "p") 8 7 .exit (.enter (k "T") 24 .exit .done .done) .done .done) .done, .exit)]
example (c : Machine.Checks) : ∃ b, Machine.useRoots c Builder.default sharedHist = .ok b ∧
    ∃ (ops : List Op) (w : World) (log : List (Nat × Event)) (over : List Nat), Machine.runWorld c World.start (ops.map fun op => (0, op)) = some (.ok (w, log, over)) ∧ w 0 = ⟨b, []⟩ := by
  cases c
  all_goals
    obtain ⟨b, h⟩ : ∃ b, Machine.useRoots _ Builder.default sharedHist = .ok b := ⟨_, rfl⟩
    exact ⟨b, h, C68_programs _ sharedHist b h⟩

example : ∃ s done, Machine.sizeRun .on SizeOf.Session.start sizeOps = some (.ok (s, done)) ∧ s.size = bytesBehindUnique [.root] done := by
  have h := show (Machine.sizeRun .on SizeOf.Session.start sizeOps).isSome = true by decide +kernel
  cases e : Machine.sizeRun .on SizeOf.Session.start sizeOps with
  | none => rw [e] at h; cases h
  | some r =>
    obtain ⟨s, done, rfl, -, -, -, h2⟩ := C68_size_of .on sizeOps r e
    exact ⟨s, done, rfl, (h2 rfl).1⟩

end MachineSessionExamples

end Allocative
