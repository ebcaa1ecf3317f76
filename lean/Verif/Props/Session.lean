import Verif.Lemmas.Session
import Verif.Props.Core
set_option linter.unusedSimpArgs false
/-
C58: any calls, on any number of builders, in any order that the borrow checker admits.
-/
namespace Allocative

/-- The builder reports the records: `finish` succeeds, the text has one line per entered stack with a self size other than zero, sorted; one warning per over-full
stack, sorted. -/
def Builder.Reports (b : Builder) (recs : List Rec) : Prop :=
  ∀ (ord : HashOrder TreeId) (ord' : HashOrder (List Str)), ∃ (out : Builder.Output) (lines : List (Path × Nat)) (ws : List Path),
    b.finish ord = .ok out ∧ out.flamegraph.write ord' = lines.flatMap renderLine ∧ lines.Pairwise (fun a b => pathLt a.1.names b.1.names) ∧
    (∀ p n, (p, n) ∈ lines ↔ p ≠ [] ∧ entered recs p ∧ n = selfSpec recs p ∧ n ≠ 0) ∧
    out.warnings = ws.flatMap (renderWarning recs) ∧ ws.Pairwise (fun a b => pathLt a.names b.names) ∧ ∀ p, p ∈ ws ↔ overfull recs p

theorem Idle.reports {b recs paths} (h : Idle b recs paths) (hk : ∀ r ∈ recs, ∀ k ∈ r.path, k.Proper) : b.Reports recs := by
  intro ord ord'
  obtain ⟨fg, ws, e, hb, hs, hn, hm, hso⟩ := h.finish ord Key.Proper hk
  obtain ⟨lines, h1, h2, h3⟩ := C02_text_exact_sorted fg hb ord'
  refine ⟨_, lines, ws, e, h1, h2, ?_, rfl, hso fun _ h => h, hm⟩
  intro p n
  rw [h3]
  simp only [hs p, h.rep.mem p]
  by_cases hp : p = []
  · simp [hp]
  by_cases he : entered recs p
  · simp only [hp, he, or_true, if_true, Option.some.injEq, ne_eq, not_false_eq_true, true_and]
    constructor
    · rintro ⟨a, rfl⟩; exact ⟨rfl, a⟩
    · rintro ⟨rfl, a⟩; exact ⟨a, rfl⟩
  · simp [hp, he]

theorem Inv.idle {s own recs paths} (h : Inv s own [] recs paths) : Idle s.builder recs paths := by
  rcases h.pos with ⟨_, h1, h2, h3⟩ | ⟨hp, _⟩
  · exact ⟨h.rep, h1, h2, h.root, h3⟩
  · exact absurd rfl hp.ne

theorem callsOf_append (i : Nat) (a b : List (Nat × Event)) : callsOf i (a ++ b) = callsOf i a ++ callsOf i b := by simp [callsOf]
theorem callsOf_same (i : Nat) (evs : List Event) : callsOf i (evs.map fun ev => (i, ev)) = evs := by
  induction evs <;> simp_all [callsOf]
theorem callsOf_other {i j : Nat} (h : j ≠ i) (evs : List Event) : callsOf j (evs.map fun ev => (i, ev)) = [] := by
  simp only [callsOf, List.map_eq_nil_iff, List.filter_eq_nil_iff, List.mem_map]
  rintro x ⟨ev, _, rfl⟩
  simpa using Ne.symm h

/-- All sessions are in order, after the calls `own`. -/
def World.Inv (w : World) (own : Nat → List Event) : Prop := ∀ i, ∃ frames recs paths, Allocative.Inv (w i) (own i) frames recs paths

theorem World.Inv.run (ops : List (Nat × Op)) : (∀ x ∈ ops, x.2 ≠ .forget) → ∀ (w : World) (own : Nat → List Event), w.Inv own →
    w.run ops = none ∨ ∃ w' log, w.run ops = some (.ok (w', log)) ∧ w'.Inv fun i => own i ++ callsOf i log := by
  induction ops with
  | nil => intro _ w own h; exact .inr ⟨w, [], rfl, by simpa [callsOf] using h⟩
  | cons x ops ih =>
    intro hf w own h
    obtain ⟨i, op⟩ := x
    obtain ⟨frames, recs, paths, hi⟩ := h i
    rcases hi.step op (hf (i, op) (by simp)) with e | ⟨s', evs, frames', recs', paths', e, hi'⟩
    · left; simp only [World.run, e]
    · have hnext : World.Inv (fun j => if j = i then s' else w j) (fun j => own j ++ callsOf j (evs.map fun ev => (i, ev))) := by
        intro j
        by_cases hj : j = i
        · subst hj; simp only [if_true, callsOf_same]; exact ⟨_, _, _, hi'⟩
        · simp only [if_neg hj, callsOf_other hj, List.append_nil]; exact h j
      rcases ih (fun x hx => hf x (by simp [hx])) _ _ hnext with e' | ⟨w', log, e', h'⟩
      · left; simp only [World.run, e, e']
      · right
        refine ⟨w', evs.map (fun ev => (i, ev)) ++ log, by simp only [World.run, e, e'], ?_⟩
        intro j
        have := h' j
        simp only [callsOf_append, List.append_assoc] at this ⊢
        exact this

theorem World.Inv.start : World.start.Inv fun _ => [] := fun _ => ⟨_, _, _, Allocative.Inv.start⟩

/-- C58. No sequence of calls on any number of builders, interleaved in any way, makes the library panic, as long as visitors are not forgotten. -/
theorem C58_never_panics (ops : List (Nat × Op)) (hf : ∀ x ∈ ops, x.2 ≠ .forget) (e : Panic) : World.start.run ops ≠ some (.error e) := by
  rcases World.Inv.run ops hf _ _ World.Inv.start with h | ⟨w, log, h, _⟩ <;> rw [h] <;> simp

theorem mem_sharedPtrs (p : Ptr) (l : List Event) : p ∉ sharedPtrs l ↔ ∀ k n r, Event.shared k n p r ∉ l := by
  induction l with
  | nil => simp [sharedPtrs]
  | cons e es ih =>
    cases e <;> simp only [sharedPtrs, List.mem_cons, not_or, ih, reduceCtorEq, not_false_eq_true, true_and]
    constructor
    · rintro ⟨h1, h2⟩ k n r
      exact ⟨by simp only [Event.shared.injEq]; rintro ⟨_, _, h, _⟩; exact h1 h, h2 k n r⟩
    · intro h
      exact ⟨fun hp => (h _ _ _).1 (by subst hp; rfl), fun k n r => (h k n r).2⟩

/-- C58. After any such calls, each builder for itself: its own calls are a well-formed log; `enter_shared` has returned `Some` exactly for addresses new to this
builder; and if no visitor of it is live, it reports the records of its own calls. -/
theorem C58_report (ops : List (Nat × Op)) (hf : ∀ x ∈ ops, x.2 ≠ .forget) (w : World) (log : List (Nat × Event))
    (h : World.start.run ops = some (.ok (w, log))) (i : Nat) :
    ∃ (frames : List Frame) (recs : List Rec), replay [] (callsOf i log) = some (frames, recs) ∧ (w i).live = frames.map Frame.kind ∧
      (∀ before name size ptr returnedSome after, callsOf i log = before ++ .shared name size ptr returnedSome :: after →
        (returnedSome = true ↔ ∀ name' size' r', Event.shared name' size' ptr r' ∉ before)) ∧
      ((w i).live = [] → (∀ r ∈ recs, ∀ k ∈ r.path, k.Proper) → (w i).builder.Reports recs) := by
  rcases World.Inv.run ops hf _ _ World.Inv.start with h' | ⟨w', log', h', hi⟩
  · rw [h] at h'; cases h'
  rw [h] at h'
  simp only [Option.some.injEq, Except.ok.injEq, Prod.mk.injEq] at h'
  obtain ⟨rfl, rfl⟩ := h'
  obtain ⟨frames, recs, paths, hi⟩ := hi i
  simp only [List.nil_append] at hi
  refine ⟨frames, recs, hi.replays, hi.live, ?_, ?_⟩
  · intro before name size ptr r after e
    rw [hi.first _ _ _ _ _ _ e, mem_sharedPtrs]
  · intro hl hk
    have : frames = [] := by rw [hi.live] at hl; exact List.map_eq_nil_iff.1 hl
    subst this
    exact hi.idle.reports hk

theorem Inv.dropAll : ∀ (frames : List Frame) (w : World) (i : Nat) (own recs paths), Inv (w i) own frames recs paths →
    ∃ w' log, w.run (List.replicate frames.length (i, .drop)) = some (.ok (w', log)) ∧ (∃ paths', Inv (w' i) (own ++ callsOf i log) [] recs paths') ∧
      ∀ j, j ≠ i → w' j = w j ∧ callsOf j log = [] := by
  intro frames
  induction frames with
  | nil => intro w i own recs paths h; exact ⟨w, [], rfl, ⟨paths, by simpa [callsOf] using h⟩, fun j _ => ⟨rfl, rfl⟩⟩
  | cons f fs ih =>
    intro w i own recs paths h
    have hl : (w i).live = f.kind :: fs.map Frame.kind := h.live
    rcases h.step .drop (by simp) with e | ⟨s', evs, frames', recs', paths', e, hi'⟩
    · simp only [Session.step, hl] at e; cases e
    · -- the frames and records after the exit
      have hr := hi'.replays
      have hevs : evs = [.exit f.kind] := by
        simp only [Session.step, hl, Option.some.injEq] at e
        split at e
        · cases e
        · simp only [Except.ok.injEq, Prod.mk.injEq] at e; exact e.2.symm
      subst hevs
      rw [replay_snoc (frames' := fs) (r := []) h.replays (.exit f.kind) (by simp [replay])] at hr
      simp only [List.append_nil, Option.some.injEq, Prod.mk.injEq] at hr
      obtain ⟨rfl, rfl⟩ := hr
      obtain ⟨w', log, e', h', ho⟩ := ih (fun j => if j = i then s' else w j) i (own ++ [.exit f.kind]) recs paths' (by simpa using hi')
      refine ⟨w', [(i, .exit f.kind)] ++ log, by simp only [List.length_cons, List.replicate_succ, World.run, e, e']; rfl, ?_, ?_⟩
      · have : callsOf i [(i, Event.exit f.kind)] = [.exit f.kind] := callsOf_same i [.exit f.kind]
        rw [callsOf_append, this, ← List.append_assoc]
        exact h'
      · intro j hj
        obtain ⟨h1, h2⟩ := ho j hj
        have : callsOf j [(i, Event.exit f.kind)] = [] := callsOf_other hj [.exit f.kind]
        exact ⟨by simpa [hj] using h1, by rw [callsOf_append, this, h2]; rfl⟩
/-- C58. At every moment, also in the middle of code that would never end: dropping the live visitors of a builder (as unwinding does) is possible, does not touch other
builders, and leaves a builder that reports the records of the calls made so far. -/
theorem C58_any_moment (ops : List (Nat × Op)) (hf : ∀ x ∈ ops, x.2 ≠ .forget) (w : World) (log : List (Nat × Event))
    (h : World.start.run ops = some (.ok (w, log))) (i : Nat) :
    ∃ (frames : List Frame) (recs : List Rec) (w' : World) (log' : List (Nat × Event)), replay [] (callsOf i log) = some (frames, recs) ∧
      w.run (List.replicate (w i).live.length (i, .drop)) = some (.ok (w', log')) ∧ (w' i).live = [] ∧ (∀ j, j ≠ i → w' j = w j) ∧
      ((∀ r ∈ recs, ∀ k ∈ r.path, k.Proper) → (w' i).builder.Reports recs) := by
  rcases World.Inv.run ops hf _ _ World.Inv.start with h' | ⟨w', log', h', hi⟩
  · rw [h] at h'; cases h'
  rw [h] at h'
  simp only [Option.some.injEq, Except.ok.injEq, Prod.mk.injEq] at h'
  obtain ⟨rfl, rfl⟩ := h'
  obtain ⟨frames, recs, paths, hi⟩ := hi i
  obtain ⟨w', log', e, ⟨paths', h'⟩, ho⟩ := Inv.dropAll frames w i _ recs paths hi
  refine ⟨frames, recs, w', log', by simpa using hi.replays, ?_, by rw [h'.live]; rfl, fun j hj => (ho j hj).1, h'.idle.reports⟩
  rw [hi.live, List.length_map]
  exact e

/-- C58. What happens to a builder is determined by the operations on it alone: leaving out those on other builders (those that run in between, or whose visitors were
exchanged with it) gives the same builder and the same calls. -/
theorem C58_independent (i : Nat) (ops : List (Nat × Op)) : ∀ (w v w' : World) (log : List (Nat × Event)), v i = w i → w.run ops = some (.ok (w', log)) →
    ∃ v', v.run (ops.filter fun x => x.1 = i) = some (.ok (v', log.filter fun x => x.1 = i)) ∧ v' i = w' i ∧ ∀ j, j ≠ i → v' j = v j := by
  induction ops with
  | nil =>
    intro w v w' log hv h
    simp only [World.run, Option.some.injEq, Except.ok.injEq, Prod.mk.injEq] at h
    obtain ⟨rfl, rfl⟩ := h
    exact ⟨v, rfl, hv, fun _ _ => rfl⟩
  | cons x ops ih =>
    intro w v w' log hv h
    obtain ⟨j, op⟩ := x
    simp only [World.run] at h
    split at h
    · cases h
    · cases h
    rename_i s evs e
    split at h
    · cases h
    · cases h
    rename_i w1 log1 e1
    simp only [Option.some.injEq, Except.ok.injEq, Prod.mk.injEq] at h
    obtain ⟨rfl, rfl⟩ := h
    by_cases hj : j = i
    · subst hj
      obtain ⟨v', h1, h2, h3⟩ := ih _ (fun k => if k = j then s else v k) w1 log1 (by simp) e1
      refine ⟨v', ?_, h2, fun k hk => by rw [h3 k hk, if_neg hk]⟩
      rw [List.filter_cons_of_pos (by simp), World.run, hv, e]
      simp only [h1, List.filter_append]
      congr 4
      symm
      rw [List.filter_eq_self]
      simp
    · obtain ⟨v', h1, h2, h3⟩ := ih _ v w1 log1 (by simp [Ne.symm hj, hv]) e1
      refine ⟨v', ?_, h2, h3⟩
      rw [List.filter_cons_of_neg (by simpa using hj), h1, List.filter_append]
      congr 3
      have : (evs.map fun ev => (j, ev)).filter (fun x => decide (x.1 = i)) = [] := by
        rw [List.filter_eq_nil_iff]
        intro x hx
        obtain ⟨ev, _, rfl⟩ := List.mem_map.1 hx
        simpa using hj
      rw [this, List.nil_append]

/-- A session whose builder has a leaked visitor. -/
def Session.Leaked (s : Session) : Prop := ∃ m, Live s.builder (s.live.length + (m + 1))

theorem World.leaks (i : Nat) (ops : List (Nat × Op)) : ∀ (w w' : World) (log : List (Nat × Event)), w.run ops = some (.ok (w', log)) →
    ((∃ own frames recs paths, Allocative.Inv (w i) own frames recs paths) ∨ (w i).Leaked) → (w i).Leaked ∨ (i, .forget) ∈ ops → (w' i).Leaked := by
  induction ops with
  | nil =>
    intro w w' log h _ hl
    simp only [World.run, Option.some.injEq, Except.ok.injEq, Prod.mk.injEq] at h
    obtain ⟨rfl, rfl⟩ := h
    simpa using hl
  | cons x ops ih =>
    intro w w' log h hw hl
    obtain ⟨j, op⟩ := x
    simp only [World.run] at h
    split at h
    · cases h
    · cases h
    rename_i s evs e
    split at h
    · cases h
    · cases h
    rename_i w1 log1 e1
    simp only [Option.some.injEq, Except.ok.injEq, Prod.mk.injEq] at h
    obtain ⟨rfl, rfl⟩ := h
    by_cases hj : j = i
    · subst hj
      -- after a leak: still leaked
      have keep : (w j).Leaked → s.Leaked := by
        rintro ⟨m, hm⟩
        rcases hm.step op with h | h | ⟨s', evs', m', h, h'⟩
        · rw [h] at e; cases e
        · rw [h] at e; cases e
        · rw [h] at e
          simp only [Option.some.injEq, Except.ok.injEq, Prod.mk.injEq] at e
          exact ⟨m', e.1 ▸ h'⟩
      by_cases hop : op = .forget
      · subst hop
        have : s.Leaked := by
          rcases hw with ⟨own, frames, recs, paths, hi⟩ | hw
          · simp only [Session.step] at e
            cases hlv : (w j).live with
            | nil => simp [hlv] at e
            | cons k rest =>
              simp only [hlv, Option.some.injEq, Except.ok.injEq, Prod.mk.injEq] at e
              have hne : frames ≠ [] := by
                rintro rfl
                rw [hi.live] at hlv
                cases hlv
              have := hi.toLive hne
              rw [hlv, List.length_cons] at this
              exact ⟨0, by rw [← e.1]; exact this⟩
          · exact keep hw
        exact ih _ _ _ e1 (.inr (by simpa using this)) (.inl (by simpa using this))
      · refine ih _ _ _ e1 ?_ ?_
        · rcases hw with ⟨own, frames, recs, paths, hi⟩ | hw
          · rcases hi.step op hop with h | ⟨s', evs', frames', recs', paths', h, h'⟩
            · rw [h] at e; cases e
            · rw [h] at e
              simp only [Option.some.injEq, Except.ok.injEq, Prod.mk.injEq] at e
              left
              simp only [if_true]
              exact ⟨_, _, _, _, e.1 ▸ h'⟩
          · right; simpa using keep hw
        · rcases hl with hl | hl
          · left; simpa using keep hl
          · right
            simp only [List.mem_cons, Prod.mk.injEq, true_and] at hl
            rcases hl with hl | hl
            · exact absurd hl.symm hop
            · exact hl
    · have hji : ¬ i = j := fun h => hj h.symm
      refine ih _ _ _ e1 (by simpa [hji] using hw) ?_
      simpa [hji] using hl

/-- C58. A builder one of whose visitors was forgotten, at any time, whatever else was called before and after, gives no flame graph and accepts no other root. -/
theorem C58_leak (ops : List (Nat × Op)) (w : World) (log : List (Nat × Event)) (h : World.start.run ops = some (.ok (w, log))) (i : Nat)
    (hi : (i, .forget) ∈ ops) (ord : HashOrder TreeId) :
    (w i).builder.finish ord = .error .assertFinish ∧ (w i).builder.rootVisitor = .error .assertRootNotEntered := by
  obtain ⟨m, hm⟩ := World.leaks i ops _ _ _ h (.inl ⟨_, _, _, _, Inv.start⟩) (.inr hi)
  constructor
  · have : (w i).builder.finishImpl ord = .error .assertFinish := by
      simp only [Builder.finishImpl, hm.entered, if_true]
      split
      · rfl
      · split <;> rfl
    simp only [Builder.finish, this]
  · simp only [Builder.rootVisitor, hm.entered, if_true]

/-! ### Visit programs are such sequences of calls. -/

/-- By some operations. -/
def Session.Reaches (s s' : Session) : Prop := ∃ (ops : List Op), ∀ w : World, w 0 = s → ∃ w' log,
  w.run (ops.map fun op => (0, op)) = some (.ok (w', log)) ∧ w' 0 = s'

theorem Session.Reaches.refl (s : Session) : s.Reaches s := ⟨[], fun w h => ⟨w, [], rfl, h⟩⟩

theorem Session.Reaches.cons {s s1 s2 : Session} (op : Op) {evs : List Event} (h : s.step op = some (.ok (s1, evs))) (h' : s1.Reaches s2) : s.Reaches s2 := by
  obtain ⟨ops, ho⟩ := h'
  refine ⟨op :: ops, fun w hw => ?_⟩
  obtain ⟨w', log, e, h2⟩ := ho (fun j => if j = 0 then s1 else w j) (by simp)
  exact ⟨w', _, by simp only [List.map_cons, World.run, hw, h, e]; rfl, h2⟩

theorem World.run_append (a b : List (Nat × Op)) : ∀ (w w1 w2 : World) (l1 l2), w.run a = some (.ok (w1, l1)) → w1.run b = some (.ok (w2, l2)) →
    w.run (a ++ b) = some (.ok (w2, l1 ++ l2)) := by
  induction a with
  | nil =>
    intro w w1 w2 l1 l2 h1 h2
    simp only [World.run, Option.some.injEq, Except.ok.injEq, Prod.mk.injEq] at h1
    obtain ⟨rfl, rfl⟩ := h1
    exact h2
  | cons x a ih =>
    intro w w1 w2 l1 l2 h1 h2
    obtain ⟨i, op⟩ := x
    simp only [World.run] at h1
    split at h1
    · cases h1
    · cases h1
    rename_i s evs e
    split at h1
    · cases h1
    · cases h1
    rename_i w3 l3 e3
    simp only [Option.some.injEq, Except.ok.injEq, Prod.mk.injEq] at h1
    obtain ⟨rfl, rfl⟩ := h1
    simp only [List.cons_append, World.run, e, ih _ _ _ _ _ e3 h2, List.append_assoc]

theorem Session.Reaches.trans {s s1 s2 : Session} (h : s.Reaches s1) (h' : s1.Reaches s2) : s.Reaches s2 := by
  obtain ⟨o1, h1⟩ := h
  obtain ⟨o2, h2⟩ := h'
  refine ⟨o1 ++ o2, fun w hw => ?_⟩
  obtain ⟨w1, l1, e1, hw1⟩ := h1 w hw
  obtain ⟨w2, l2, e2, hw2⟩ := h2 w1 hw1
  exact ⟨w2, l1 ++ l2, by rw [List.map_append]; exact World.run_append _ _ _ _ _ _ _ e1 e2, hw2⟩

theorem finishChild_reaches {b b' : Builder} {kind : NodeKind} {f : Fate} {ctl : Ctl} (h : Builder.visitorImpl.finishChild kind f ctl b = .ok b')
    (live : List NodeKind) : Session.Reaches ⟨b, kind :: live⟩ ⟨b', live⟩ := by
  have hexit : ∀ {b b'}, Builder.visitorImpl.exit kind b = .ok b' → Session.Reaches ⟨b, kind :: live⟩ ⟨b', live⟩ := by
    intro b b' h
    exact .cons .exit (by simp only [Session.step, h]; rfl) (.refl _)
  have hdrop : ∀ {b b'}, Builder.visitorImpl.drop kind b = .ok b' → Session.Reaches ⟨b, kind :: live⟩ ⟨b', live⟩ := by
    intro b b' h
    exact .cons .drop (by simp only [Session.step, h]; rfl) (.refl _)
  have hforget : ∀ {b b' : Builder}, (.ok b : Except Panic Builder) = .ok b' → Session.Reaches ⟨b, kind :: live⟩ ⟨b', live⟩ := by
    intro b b' h
    simp only [Except.ok.injEq] at h
    subst h
    exact .cons .forget rfl (.refl _)
  cases f <;> cases ctl <;> first | exact hexit h | exact hdrop h | exact hforget h

theorem exec_reaches (prog : Prog) : ∀ (kind : NodeKind) (b b' : Builder) (ctl : Ctl) (live : List NodeKind),
    exec Builder.visitorImpl prog kind b = .ok (b', ctl) → Session.Reaches ⟨b, kind :: live⟩ ⟨b', kind :: live⟩ := by
  induction prog with
  | done => intro kind b b' ctl live h; cases h; exact .refl _
  | panic => intro kind b b' ctl live h; cases h; exact .refl _
  | enter k n f body rest ih1 ih2 =>
    intro kind b b' ctl live h
    simp only [exec] at h
    split at h
    · cases h
    rename_i b1 e1
    split at h
    · cases h
    rename_i b2 ctl2 e2
    split at h
    · cases h
    rename_i b3 e3
    refine .cons (.enter k n) (by simp only [Session.step, e1]; rfl) ((ih1 _ _ _ _ (kind :: live) e2).trans ((finishChild_reaches e3 _).trans ?_))
    cases ctl2 with
    | unwinding => cases h; exact .refl _
    | returned => exact ih2 _ _ _ _ live h
  | enterUnique k n f body rest ih1 ih2 =>
    intro kind b b' ctl live h
    simp only [exec] at h
    split at h
    · cases h
    rename_i b1 e1
    split at h
    · cases h
    rename_i b2 ctl2 e2
    split at h
    · cases h
    rename_i b3 e3
    refine .cons (.enterUnique k n) (by simp only [Session.step, e1]; rfl) ((ih1 _ _ _ _ (kind :: live) e2).trans ((finishChild_reaches e3 _).trans ?_))
    cases ctl2 with
    | unwinding => cases h; exact .refl _
    | returned => exact ih2 _ _ _ _ live h
  | enterShared k n p f body rs rn ih1 ih2 ih3 =>
    intro kind b b' ctl live h
    simp only [exec] at h
    split at h
    · cases h
    · rename_i b1 e1
      exact .cons (.enterShared k n p) (by simp only [Session.step, e1]; rfl) (ih3 _ _ _ _ live h)
    · rename_i b1 e1
      split at h
      · cases h
      rename_i b2 ctl2 e2
      split at h
      · cases h
      rename_i b3 e3
      refine .cons (.enterShared k n p) (by simp only [Session.step, e1]; rfl) ((ih1 _ _ _ _ (kind :: live) e2).trans ((finishChild_reaches e3 _).trans ?_))
      cases ctl2 with
      | unwinding => cases h; exact .refl _
      | returned => exact ih2 _ _ _ _ live h
  | catchUnwind body rest ih1 ih2 =>
    intro kind b b' ctl live h
    simp only [exec] at h
    split at h
    · cases h
    rename_i b1 ctl1 e1
    exact (ih1 _ _ _ _ live e1).trans (ih2 _ _ _ _ live h)

/-- C58. Every history of visit programs (the user code of C01 to C57), leaking ones included, is such a sequence of operations on one builder. -/
theorem C58_programs (hist : List (Prog × Fate)) (b : Builder) (h : Builder.default.useRoots hist = .ok b) :
    ∃ (ops : List Op) (w : World) (log : List (Nat × Event)), World.start.run (ops.map fun op => (0, op)) = some (.ok (w, log)) ∧
      w 0 = ⟨b, []⟩ := by
  have : ∀ (hist : List (Prog × Fate)) (b0 : Builder), b0.useRoots hist = .ok b → Session.Reaches ⟨b0, []⟩ ⟨b, []⟩ := by
    intro hist
    induction hist with
    | nil => intro b0 h; cases h; exact .refl _
    | cons x hist ih =>
      intro b0 h
      obtain ⟨prog, fate⟩ := x
      simp only [Builder.useRoots] at h
      split at h
      · cases h
      rename_i b1 ctl e
      refine .trans ?_ (ih _ h)
      simp only [Builder.useRoot] at e
      split at e
      · cases e
      rename_i b2 e2
      split at e
      · cases e
      rename_i b3 ctl3 e3
      split at e
      · cases e
      rename_i b4 e4
      simp only [Except.ok.injEq, Prod.mk.injEq] at e
      obtain ⟨rfl, rfl⟩ := e
      exact .cons .root (by simp only [Session.step, e2]; rfl) ((exec_reaches _ _ _ _ _ [] e3).trans (finishChild_reaches e4 _))
  obtain ⟨ops, ho⟩ := this hist _ h
  obtain ⟨w, log, e, hw⟩ := ho World.start rfl
  exact ⟨ops, w, log, e, hw⟩

/-! ### A concrete case -/

namespace SessionExamples
def k (s : String) : Key := Key.new (ascii s)

/-- Two builders whose visits are interleaved without nesting: builder 1 is entered inside of the visit of builder 0 and left after it; the same address is met twice
by each. -/
def ops : List (Nat × Op) :=
  [(0, .root), (0, .enter (k "A") 16), (1, .root), (0, .enterShared (k "ptr") 8 7), (1, .enterUnique (k "B") 8), (0, .enter (k "T") 24),
    (1, .enterShared (k "p") 8 7), (0, .drop), (0, .exit), (0, .enterShared (k "ptr2") 8 7), (1, .enter (k "T") 24), (0, .exit), (0, .drop),
    (1, .exit), (1, .exit), (1, .drop), (1, .drop), (0, .root)]

example : ∀ x ∈ ops, x.2 ≠ .forget := by decide

-- admitted by the borrow checker, and the records are those of the calls of each
example : (World.start.run ops).isSome = true := by decide +kernel

example : (match World.start.run ops with
    | some (.ok (w, log)) => ((w 0).live, (w 1).live,
        (replay [] (callsOf 0 log)).map (fun r => r.2.map fun r => (r.path.length, r.size)),
        (replay [] (callsOf 1 log)).map (fun r => r.2.map fun r => (r.path.length, r.size)))
    | _ => ([], [], none, none)) =
    ([.root], [], some [(1, 16), (2, 8), (1, 24), (2, 8)], some [(1, 8), (2, 8), (1, 24)]) := by decide +kernel

-- with a forgotten visitor: the rest is admitted, but the next `root_visitor` panics
example : (World.start.run [(0, .root), (0, .enter (k "A") 16), (0, .forget), (0, .drop)]).isSome = true ∧
    World.start.run [(0, .root), (0, .enter (k "A") 16), (0, .forget), (0, .drop), (0, .root)] = some (.error .assertRootNotEntered) :=
  ⟨by decide +kernel, rfl⟩

-- the borrow checker rejects a call on a parent that is borrowed, here: a second root
example : World.start.run [(0, .root), (0, .root)] = none := rfl
end SessionExamples

/-! The theorems of this file with a concrete case of their hypotheses. -/
namespace SessionExamples

theorem ops_noForget : ∀ x ∈ ops, x.2 ≠ .forget := by decide
example (e : Panic) := C58_never_panics ops ops_noForget e

/-- They can be made, and do not panic. -/
theorem ops_run : ∃ w log, World.start.run ops = some (.ok (w, log)) := by
  have h := show (World.start.run ops).isSome = true by decide +kernel
  cases e : World.start.run ops with
  | none => rw [e] at h; cases h
  | some x =>
    cases x with
    | error p => exact absurd e (C58_never_panics ops ops_noForget p)
    | ok x => exact ⟨x.1, x.2, rfl⟩

example (i : Nat) : ∃ w log, World.start.run ops = some (.ok (w, log)) ∧
    (∃ frames recs, replay [] (callsOf i log) = some (frames, recs) ∧ (w i).live = frames.map Frame.kind ∧ ((w i).live = [] → (∀ r ∈ recs, ∀ k ∈ r.path, k.Proper) → (w i).builder.Reports recs)) ∧
    (∃ frames recs w' log', replay [] (callsOf i log) = some (frames, recs) ∧ w.run (List.replicate (w i).live.length (i, .drop)) = some (.ok (w', log')) ∧ (w' i).live = []) ∧
    ∃ v', World.start.run (ops.filter fun x => x.1 = i) = some (.ok (v', log.filter fun x => x.1 = i)) ∧ v' i = w i := by
  obtain ⟨w, log, h⟩ := ops_run
  obtain ⟨frames, recs, h1, h2, -, h3⟩ := C58_report ops ops_noForget w log h i
  obtain ⟨frames', recs', w', log', h4, h5, h6, -⟩ := C58_any_moment ops ops_noForget w log h i
  obtain ⟨v', h7, h8, -⟩ := C58_independent i ops World.start World.start w log rfl h
  exact ⟨w, log, h, ⟨frames, recs, h1, h2, h3⟩, ⟨frames', recs', w', log', h4, h5, h6⟩, v', h7, h8⟩

example (ord : HashOrder TreeId) : ∃ w log, World.start.run [(1, .root), (0, .root), (0, .enter (k "A") 16), (0, .forget), (0, .drop)] = some (.ok (w, log)) ∧
    (w 0).builder.finish ord = .error .assertFinish ∧ (w 0).builder.rootVisitor = .error .assertRootNotEntered :=
  ⟨_, _, rfl, C58_leak [(1, .root), (0, .root), (0, .enter (k "A") 16), (0, .forget), (0, .drop)] _ _ rfl 0 (by decide) ord⟩

def sharedHist : List (Prog × Fate) :=
  [(.enter (k "A") 16 .drop (.enterShared (k "p") 8 7 .exit (.enter (k "T") 24 .exit .done .done) .done .done) .done, .exit)]
example : ∃ b, Builder.default.useRoots sharedHist = .ok b ∧
    ∃ (ops : List Op) (w : World) (log : List (Nat × Event)), World.start.run (ops.map fun op => (0, op)) = some (.ok (w, log)) ∧ w 0 = ⟨b, []⟩ := by
  obtain ⟨b, h⟩ : ∃ b, Builder.default.useRoots sharedHist = .ok b := ⟨_, rfl⟩
  exact ⟨b, h, C58_programs sharedHist b h⟩

end SessionExamples

end Allocative
