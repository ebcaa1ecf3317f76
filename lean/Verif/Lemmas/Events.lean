import Verif.Spec.Events
import Verif.Lemmas.Leak
/-
The log of a run of the builder.
-/
set_option linter.unusedSimpArgs false

namespace Allocative

/-- Forget the log. -/
def eraseLog {σ α : Type} (r : Except Panic ((σ × List Event) × α)) : Except Panic (σ × α) :=
  match r with
  | .error e => .error e
  | .ok ((s, _), a) => .ok (s, a)

theorem logged_exitImpl {σ} (impl : VisitorImpl σ) (kind : NodeKind) (s : σ) (evs) :
    impl.logged.exitImpl kind (s, evs) = match impl.exitImpl kind s with
      | .error e => .error e
      | .ok s => .ok (s, evs ++ [.exit kind]) := by
  cases kind <;> rfl

theorem logged_inline {σ} (impl : VisitorImpl σ) (s : σ) (evs k n kind) :
    impl.logged.enterInlineImpl (s, evs) k n kind = match impl.enterInlineImpl s k n kind with
      | .error e => .error e
      | .ok s => .ok (s, evs ++ [.inline k n]) := rfl
theorem logged_unique {σ} (impl : VisitorImpl σ) (s : σ) (evs k n kind) :
    impl.logged.enterUniqueImpl (s, evs) k n kind = match impl.enterUniqueImpl s k n kind with
      | .error e => .error e
      | .ok s => .ok (s, evs ++ [.unique k n]) := rfl
theorem logged_shared {σ} (impl : VisitorImpl σ) (s : σ) (evs k n ptr kind) :
    impl.logged.enterSharedImpl (s, evs) k n ptr kind = match impl.enterSharedImpl s k n ptr kind with
      | .error e => .error e
      | .ok (r, s) => .ok (r, (s, evs ++ [.shared k n ptr r])) := rfl

theorem finishChild_of_leaks {σ} (impl : VisitorImpl σ) (kind : NodeKind) {f : Fate} {ctl : Ctl} (hf : f.leaks ctl ≠ 0) (s : σ) :
    impl.finishChild kind f ctl s = .ok s ∧ f.leaks ctl = 1 := by
  cases f <;> cases ctl <;> first | exact ⟨rfl, rfl⟩ | (simp [Fate.leaks] at hf; done)

theorem logged_finishChild {σ} (impl : VisitorImpl σ) (kind f ctl) (s : σ) (evs) :
    impl.logged.finishChild kind f ctl (s, evs) =
      match impl.finishChild kind f ctl s with
      | .error e => .error e
      | .ok s => .ok (s, evs ++ if f.leaks ctl = 0 then [.exit kind] else []) := by
  by_cases hf : f.leaks ctl = 0
  · rw [finishChild_closes _ _ hf, finishChild_closes _ _ hf, logged_exitImpl]; simp [hf]
  · rw [(finishChild_of_leaks _ _ hf _).1, (finishChild_of_leaks _ _ hf _).1]; simp [hf]

/-- The log does not influence the run, whatever the visitor implementation. -/
theorem exec_logged_erase {σ} (impl : VisitorImpl σ) (prog : Prog) : ∀ (kind : NodeKind) (s : σ) (evs : List Event),
    eraseLog (exec impl.logged prog kind (s, evs)) = exec impl prog kind s := by
  have fin := logged_finishChild impl
  induction prog with
  | done => intro kind s evs; rfl
  | panic => intro kind s evs; rfl
  | enter k n f body rest ih1 ih2 =>
    intro kind s evs
    simp only [exec, logged_inline, logged_unique, logged_shared]
    cases impl.enterInlineImpl s k n kind with
    | error e => rfl
    | ok s1 =>
      simp only
      have h1 := ih1 .inline s1 (evs ++ [.inline k n])
      rw [← h1]
      cases exec impl.logged body .inline (s1, evs ++ [.inline k n]) with
      | error e => rfl
      | ok r =>
        obtain ⟨⟨s2, ev2⟩, ctl⟩ := r
        simp only [eraseLog]
        have := fin .inline f ctl s2 ev2
        rw [this]
        cases impl.finishChild .inline f ctl s2 with
        | error e => rfl
        | ok s3 =>
          cases ctl with
          | unwinding => rfl
          | returned => exact ih2 kind s3 _
  | enterUnique k n f body rest ih1 ih2 =>
    intro kind s evs
    simp only [exec, logged_inline, logged_unique, logged_shared]
    cases impl.enterUniqueImpl s k n kind with
    | error e => rfl
    | ok s1 =>
      simp only
      have h1 := ih1 .unique s1 (evs ++ [.unique k n])
      rw [← h1]
      cases exec impl.logged body .unique (s1, evs ++ [.unique k n]) with
      | error e => rfl
      | ok r =>
        obtain ⟨⟨s2, ev2⟩, ctl⟩ := r
        simp only [eraseLog]
        have := fin .unique f ctl s2 ev2
        rw [this]
        cases impl.finishChild .unique f ctl s2 with
        | error e => rfl
        | ok s3 =>
          cases ctl with
          | unwinding => rfl
          | returned => exact ih2 kind s3 _
  | enterShared k n ptr f body rs rn ih1 ih2 ih3 =>
    intro kind s evs
    simp only [exec, logged_inline, logged_unique, logged_shared]
    cases impl.enterSharedImpl s k n ptr kind with
    | error e => rfl
    | ok r =>
      obtain ⟨r, s1⟩ := r
      cases r with
      | false => exact ih3 kind s1 _
      | true =>
        simp only
        have h1 := ih1 .shared s1 (evs ++ [.shared k n ptr true])
        rw [← h1]
        cases exec impl.logged body .shared (s1, evs ++ [.shared k n ptr true]) with
        | error e => rfl
        | ok r =>
          obtain ⟨⟨s2, ev2⟩, ctl⟩ := r
          simp only [eraseLog]
          have := fin .shared f ctl s2 ev2
          rw [this]
          cases impl.finishChild .shared f ctl s2 with
          | error e => rfl
          | ok s3 =>
            cases ctl with
            | unwinding => rfl
            | returned => exact ih2 kind s3 _
  | catchUnwind body rest ih1 ih2 =>
    intro kind s evs
    simp only [exec]
    rw [← ih1 kind s evs]
    cases exec impl.logged body kind (s, evs) with
    | error e => rfl
    | ok r => obtain ⟨⟨s2, ev2⟩, ctl⟩ := r; exact ih2 kind s2 ev2

/-- `enter_shared` returned `Some` exactly for addresses not in `vis` and not used before in the log. -/
def firstOnly : List Ptr → List Event → Prop
  | _, [] => True
  | vis, .shared _ _ p r :: es => (r = true ↔ p ∉ vis) ∧ firstOnly (p :: vis) es
  | vis, .root :: es => firstOnly vis es
  | vis, .inline _ _ :: es => firstOnly vis es
  | vis, .unique _ _ :: es => firstOnly vis es
  | vis, .exit _ :: es => firstOnly vis es

theorem firstOnly_congr {es : List Event} : ∀ {v w : List Ptr}, (∀ p, p ∈ v ↔ p ∈ w) → firstOnly v es → firstOnly w es := by
  induction es with
  | nil => intros; trivial
  | cons e es ih =>
    intro v w h
    cases e <;> simp only [firstOnly] <;> try exact ih h
    rintro ⟨h1, h2⟩
    exact ⟨by rw [h1, h], ih (by intro p; simp [h]) h2⟩

theorem firstOnly_append {a b : List Event} : ∀ {v w : List Ptr}, (∀ p, p ∈ w ↔ p ∈ v ∨ p ∈ sharedPtrs a) → firstOnly v a →
    firstOnly w b → firstOnly v (a ++ b) := by
  induction a with
  | nil => intro v w h _ hb; exact firstOnly_congr (by intro p; simp [h, sharedPtrs]) hb
  | cons e es ih =>
    intro v w h
    cases e <;> simp only [firstOnly, List.cons_append] <;> try exact ih h
    rintro ⟨h1, h2⟩ hb
    exact ⟨h1, ih (by intro p; simp [h, sharedPtrs, or_assoc, or_left_comm]) h2 hb⟩

theorem firstOnly_split {es : List Event} : ∀ {v : List Ptr}, firstOnly v es → ∀ {l1 k n p r l2},
    es = l1 ++ .shared k n p r :: l2 → (r = true ↔ p ∉ v ∧ p ∉ sharedPtrs l1) := by
  induction es with
  | nil => intro v _ l1 k n p r l2 e; cases l1 <;> cases e
  | cons e es ih =>
    intro v h l1 k n p r l2 he
    cases l1 with
    | nil =>
      simp only [List.nil_append, List.cons.injEq] at he
      obtain ⟨rfl, rfl⟩ := he
      simp [sharedPtrs, h.1]
    | cons e' l1 =>
      simp only [List.cons_append, List.cons.injEq] at he
      obtain ⟨rfl, rfl⟩ := he
      cases e <;> simp only [firstOnly, sharedPtrs] at h ⊢ <;> try exact ih h rfl
      rw [ih h.2 rfl]
      simp [not_or, and_comm, and_left_comm, and_assoc]

theorem sharedPtrs_append (a b : List Event) : sharedPtrs (a ++ b) = sharedPtrs a ++ sharedPtrs b := by
  induction a with
  | nil => rfl
  | cons e es ih => cases e <;> simp [sharedPtrs, ih]

theorem replay_append {a b : List Event} : ∀ {fs fs1 fs2 : List Frame} {r1 r2 : List Rec},
    replay fs a = some (fs1, r1) → replay fs1 b = some (fs2, r2) → replay fs (a ++ b) = some (fs2, r1 ++ r2) := by
  induction a with
  | nil => intro fs fs1 fs2 r1 r2 h1 h2; simp only [replay, Option.some.injEq, Prod.mk.injEq] at h1; obtain ⟨rfl, rfl⟩ := h1; simpa using h2
  | cons e es ih =>
    intro fs fs1 fs2 r1 r2 h1 h2
    cases e with
    | root =>
      simp only [replay, List.cons_append] at h1 ⊢
      split at h1
      · rename_i h; rw [if_pos h]; exact ih h1 h2
      · cases h1
    | exit kind =>
      simp only [replay, List.cons_append] at h1 ⊢
      split at h1
      · cases h1
      · split at h1
        · rename_i h; rw [if_pos h]; exact ih h1 h2
        · cases h1
    | inline k n =>
      simp only [replay, List.cons_append] at h1 ⊢
      split at h1
      · cases h1
      · rename_i h; rw [if_neg h]
        simp only [Option.map_eq_some_iff, Prod.mk.injEq] at h1
        obtain ⟨⟨f, r⟩, h3, rfl, rfl⟩ := h1
        rw [ih h3 h2]; simp
    | unique k n =>
      simp only [replay, List.cons_append] at h1 ⊢
      split at h1
      · cases h1
      · rename_i h; rw [if_neg h]
        simp only [Option.map_eq_some_iff, Prod.mk.injEq] at h1
        obtain ⟨⟨f, r⟩, h3, rfl, rfl⟩ := h1
        rw [ih h3 h2]; simp
    | shared k n p r =>
      simp only [replay, List.cons_append] at h1 ⊢
      split at h1
      · cases h1
      · rename_i h; rw [if_neg h]
        simp only [Option.map_eq_some_iff, Prod.mk.injEq] at h1
        obtain ⟨⟨f, r⟩, h3, rfl, rfl⟩ := h1
        rw [ih h3 h2]; simp

/-- What the log of a program part says. -/
structure Logs (vis : List Ptr) (cur : Path) (recs : List Rec) (visited : List Ptr) (leaked : Nat) (new : List Event) : Prop where
  cnt : new.countP Event.creates = new.countP Event.ends + leaked
  mem : ∀ p, p ∈ visited ↔ p ∈ vis ∨ p ∈ sharedPtrs new
  sh : firstOnly vis new
  rep : leaked = 0 → ∀ fs, fs ≠ [] → stackOf fs = cur → replay fs new = some (fs, recs)

theorem Logs.nil (vis cur) : Logs vis cur [] vis 0 [] :=
  ⟨rfl, by simp [sharedPtrs], trivial, fun _ _ _ _ => rfl⟩

theorem Logs.seq {vis cur r1 v1 l1 e1 r2 v2 l2 e2} (h1 : Logs vis cur r1 v1 l1 e1) (h2 : Logs v1 cur r2 v2 l2 e2) :
    Logs vis cur (r1 ++ r2) v2 (l1 + l2) (e1 ++ e2) := by
  refine ⟨?_, ?_, firstOnly_append h1.mem h1.sh h2.sh, ?_⟩
  · simp only [List.countP_append, h1.cnt, h2.cnt]; omega
  · intro p; rw [h2.mem, h1.mem, sharedPtrs_append, List.mem_append, or_assoc]
  · intro hl fs hne hs
    exact replay_append (h1.rep (by omega) fs hne hs) (h2.rep (by omega) fs hne hs)

/-- The tail of a child: its exit unless leaked. -/
def tailOf (f : Fate) (ctl : Ctl) (kind : NodeKind) : List Event := if f.leaks ctl = 0 then [.exit kind] else []

theorem Logs.child {vis vis' cur cur' r v l e} (ev : Event) (fr : Frame) (rc : Rec) (f : Fate) (ctl : Ctl)
    (hc : ev.creates = true) (he : ev.ends = false)
    (hm : ∀ p, p ∈ vis' ↔ p ∈ vis ∨ p ∈ sharedPtrs [ev])
    (hf : ∀ es, firstOnly vis' es → firstOnly vis (ev :: es))
    (hr : ∀ fs es, fs ≠ [] → stackOf fs = cur →
      replay fs (ev :: es) = (replay (fr :: fs) es).map fun r => (r.1, rc :: r.2))
    (hst : ∀ fs, stackOf fs = cur → stackOf (fr :: fs) = cur')
    (h : Logs vis' cur' r v l e) :
    Logs vis cur (rc :: r) v (l + f.leaks ctl) ((ev :: e) ++ tailOf f ctl fr.kind) := by
  have hsp : ∀ es, sharedPtrs (ev :: es) = sharedPtrs [ev] ++ sharedPtrs es := fun es => by
    rw [← sharedPtrs_append]; rfl
  have ht : sharedPtrs (tailOf f ctl fr.kind) = [] := by unfold tailOf; split <;> rfl
  refine ⟨?_, ?_, ?_, ?_⟩
  · simp only [List.countP_append, List.countP_cons, hc, he, h.cnt]
    unfold tailOf
    by_cases hl : f.leaks ctl = 0
    · simp [hl, Event.creates, Event.ends]; omega
    · have := (finishChild_of_leaks Builder.visitorImpl .root hl Builder.default).2
      simp [this]; omega
  · intro p
    rw [h.mem, hm, sharedPtrs_append, ht, List.append_nil, hsp e, List.mem_append, or_assoc]
  · apply hf
    have : ∀ vis es, firstOnly vis es → firstOnly vis (es ++ tailOf f ctl fr.kind) := by
      intro vis es hh
      refine firstOnly_append (w := sharedPtrs es ++ vis) (by intro p; simp [or_comm]) hh ?_
      unfold tailOf; split <;> trivial
    exact this _ _ h.sh
  · intro hl fs hne hs
    have h0 : f.leaks ctl = 0 := by omega
    rw [List.cons_append, hr fs _ hne hs]
    have h1 := h.rep (by omega) (fr :: fs) (by simp) (hst fs hs)
    have h2 : replay (fr :: fs) (tailOf f ctl fr.kind) = some (fs, []) := by simp [tailOf, h0, replay]
    rw [replay_append h1 h2]; simp

theorem Logs.inline {vis cur r v l e} (k : Key) (n : Nat) (f : Fate) (ctl : Ctl) (h : Logs vis (cur ++ [k]) r v l e) :
    Logs vis cur (⟨cur ++ [k], n, false⟩ :: r) v (l + f.leaks ctl) ((.inline k n :: e) ++ tailOf f ctl .inline) := by
  refine Logs.child (.inline k n) ⟨.inline, k⟩ _ f ctl rfl rfl (by simp [sharedPtrs]) (fun _ h => h) ?_ ?_ h
  · intro fs es hne hs; simp only [replay, if_neg hne, hs]
  · intro fs hs; simp [stackOf, hs]

theorem Logs.unique {vis cur r v l e} (k : Key) (n : Nat) (f : Fate) (ctl : Ctl) (h : Logs vis (cur ++ [k]) r v l e) :
    Logs vis cur (⟨cur ++ [k], n, true⟩ :: r) v (l + f.leaks ctl) ((.unique k n :: e) ++ tailOf f ctl .unique) := by
  refine Logs.child (.unique k n) ⟨.unique, k⟩ _ f ctl rfl rfl (by simp [sharedPtrs]) (fun _ h => h) ?_ ?_ h
  · intro fs es hne hs; simp only [replay, if_neg hne, hs]
  · intro fs hs; simp [stackOf, hs]

theorem Logs.shared {vis cur r v l e} (k : Key) (n : Nat) (ptr : Ptr) (f : Fate) (ctl : Ctl) (hv : ptr ∉ vis)
    (h : Logs (ptr :: vis) [] r v l e) :
    Logs vis cur (⟨cur ++ [k], n, false⟩ :: r) v (l + f.leaks ctl) ((.shared k n ptr true :: e) ++ tailOf f ctl .shared) := by
  refine Logs.child (.shared k n ptr true) ⟨.shared, k⟩ _ f ctl rfl rfl (by intro p; simp [sharedPtrs, or_comm]) ?_ ?_ ?_ h
  · intro es h; exact ⟨by simp [hv], h⟩
  · intro fs es hne hs; simp only [replay, if_neg hne, hs]; rfl
  · intro fs hs; simp [stackOf]

theorem Logs.sharedAgain {vis cur r v l e} (k : Key) (n : Nat) (ptr : Ptr) (hv : ptr ∈ vis)
    (h : Logs vis cur r v l e) : Logs vis cur (⟨cur ++ [k], n, false⟩ :: r) v l (.shared k n ptr false :: e) := by
  refine ⟨by simp [Event.creates, Event.ends, h.cnt], ?_, ⟨by simp [hv], ?_⟩, ?_⟩
  · intro p; rw [h.mem]; simp only [sharedPtrs, List.mem_cons]
    constructor
    · rintro (h | h) <;> simp [h]
    · rintro (h | rfl | h) <;> simp [*]
  · exact firstOnly_congr (by intro p; simp; rintro rfl; exact hv) h.sh
  · intro hl fs hne hs
    simp only [replay, if_neg hne, hs, Bool.false_eq_true, ↓reduceIte, h.rep hl fs hne hs, Option.map_some]

theorem exec_logged (prog : Prog) : ∀ (kind : NodeKind) (b : Builder) (n : Nat) (cur : Path) (evs : List Event), Live b (n + 1) →
    ∃ b' new, exec Builder.visitorImpl.logged prog kind (b, evs) = .ok ((b', evs ++ new), (prog.trace cur b.visitedShared).ctl) ∧
      Live b' (n + 1 + (prog.trace cur b.visitedShared).leaked) ∧
      b'.visitedShared = (prog.trace cur b.visitedShared).visited ∧
      Logs b.visitedShared cur (prog.trace cur b.visitedShared).recs (prog.trace cur b.visitedShared).visited
        (prog.trace cur b.visitedShared).leaked new := by
  induction prog with
  | done => intro kind b n cur evs h; exact ⟨b, [], by simp [exec, Prog.trace], h, rfl, .nil _ _⟩
  | panic => intro kind b n cur evs h; exact ⟨b, [], by simp [exec, Prog.trace], h, rfl, .nil _ _⟩
  | enter k sz f body rest ih1 ih2 =>
    intro kind b n cur evs h
    obtain ⟨b1, e1, h1, v1, _⟩ := h.enter k sz false id (by simp)
    obtain ⟨b2, new2, e2, h2, v2, g2⟩ := ih1 .inline b1 (n + 1) (cur ++ [k]) (evs ++ [.inline k sz]) h1
    rw [v1] at e2 h2 v2 g2
    obtain ⟨b3, e3, h3, v3⟩ := Live.finishChild (n := n + (body.trace (cur ++ [k]) b.visitedShared).leaked)
      (by have : n + 1 + 1 + (body.trace (cur ++ [k]) b.visitedShared).leaked =
            n + (body.trace (cur ++ [k]) b.visitedShared).leaked + 2 := by omega
          rw [← this]; exact h2) .inline f (body.trace (cur ++ [k]) b.visitedShared).ctl
    simp only [exec, logged_inline, vi_inline, Builder.enterInlineImpl, e1, e2, logged_finishChild, e3, Prog.trace]
    have g3 := g2.inline k sz f (body.trace (cur ++ [k]) b.visitedShared).ctl
    cases hc : (body.trace (cur ++ [k]) b.visitedShared).ctl with
    | unwinding =>
      simp only [hc] at h3 g3
      exact ⟨b3, _, by simp [tailOf], by simpa [Nat.add_assoc, Nat.add_comm, Nat.add_left_comm] using h3, by rw [v3, v2], g3⟩
    | returned =>
      simp only [hc] at h3 g3
      obtain ⟨b4, new4, e4, h4, v4, g4⟩ := ih2 kind b3 (n + (body.trace (cur ++ [k]) b.visitedShared).leaked + f.leaks .returned) cur
        (evs ++ ((.inline k sz :: new2) ++ tailOf f .returned .inline))
        (by rw [show n + (body.trace (cur ++ [k]) b.visitedShared).leaked + f.leaks .returned + 1 =
              n + (body.trace (cur ++ [k]) b.visitedShared).leaked + 1 + f.leaks .returned by omega]; exact h3)
      rw [v3, v2] at e4 h4 v4 g4
      exact ⟨b4, _, by simpa [tailOf] using e4, by simpa [Nat.add_assoc, Nat.add_comm, Nat.add_left_comm] using h4, v4,
        g3.seq g4⟩
  | enterUnique k sz f body rest ih1 ih2 =>
    intro kind b n cur evs h
    obtain ⟨b1, e1, h1, v1, _⟩ := h.enter k sz true (fun d => { d with unique := true }) (by simp)
    obtain ⟨b2, new2, e2, h2, v2, g2⟩ := ih1 .unique b1 (n + 1) (cur ++ [k]) (evs ++ [.unique k sz]) h1
    rw [v1] at e2 h2 v2 g2
    obtain ⟨b3, e3, h3, v3⟩ := Live.finishChild (n := n + (body.trace (cur ++ [k]) b.visitedShared).leaked)
      (by have : n + 1 + 1 + (body.trace (cur ++ [k]) b.visitedShared).leaked =
            n + (body.trace (cur ++ [k]) b.visitedShared).leaked + 2 := by omega
          rw [← this]; exact h2) .unique f (body.trace (cur ++ [k]) b.visitedShared).ctl
    simp only [exec, logged_unique, vi_unique, Builder.enterUniqueImpl, e1, e2, logged_finishChild, e3, Prog.trace]
    have g3 := g2.unique k sz f (body.trace (cur ++ [k]) b.visitedShared).ctl
    cases hc : (body.trace (cur ++ [k]) b.visitedShared).ctl with
    | unwinding =>
      simp only [hc] at h3 g3
      exact ⟨b3, _, by simp [tailOf], by simpa [Nat.add_assoc, Nat.add_comm, Nat.add_left_comm] using h3, by rw [v3, v2], g3⟩
    | returned =>
      simp only [hc] at h3 g3
      obtain ⟨b4, new4, e4, h4, v4, g4⟩ := ih2 kind b3 (n + (body.trace (cur ++ [k]) b.visitedShared).leaked + f.leaks .returned) cur
        (evs ++ ((.unique k sz :: new2) ++ tailOf f .returned .unique))
        (by rw [show n + (body.trace (cur ++ [k]) b.visitedShared).leaked + f.leaks .returned + 1 =
              n + (body.trace (cur ++ [k]) b.visitedShared).leaked + 1 + f.leaks .returned by omega]; exact h3)
      rw [v3, v2] at e4 h4 v4 g4
      exact ⟨b4, _, by simpa [tailOf] using e4, by simpa [Nat.add_assoc, Nat.add_comm, Nat.add_left_comm] using h4, v4,
        g3.seq g4⟩
  | enterShared k sz ptr f body rs rn ih1 ih2 ih3 =>
    intro kind b n cur evs h
    obtain ⟨b1, e1, h1, v1, hne1, hsh1⟩ := h.enter k sz false id (by simp)
    simp only [exec, logged_shared, vi_shared, Builder.enterSharedImpl, e1, v1, Prog.trace]
    by_cases hv : ptr ∈ b.visitedShared
    · simp only [if_pos hv]
      obtain ⟨b2, e2, h2, v2⟩ := h1.exit
      simp only [e2]
      obtain ⟨b4, new4, e4, h4, v4, g4⟩ := ih3 kind b2 n cur (evs ++ [.shared k sz ptr false]) h2
      rw [v2, v1] at e4 h4 v4 g4
      exact ⟨b4, _, by simpa using e4, h4, v4, g4.sharedAgain k sz ptr hv⟩
    · simp only [if_neg hv]
      have hlive : Live { b1 with
          visitedShared := ptr :: b.visitedShared
          shared := b1.current :: b1.shared
          current := { stack := [], tree := b1.root } } (n + 2) := by
        obtain ⟨⟨recs, paths, hrep, ⟨p, hst⟩, hsh⟩, hroot, hent, hdepth⟩ := h1
        refine ⟨⟨recs, paths, hrep, ⟨[], .nil (by rw [hroot]; exact hrep.root)⟩, ?_⟩, hroot, hent, ?_⟩
        · intro st hm
          rcases List.mem_cons.1 hm with rfl | hm
          · exact ⟨hne1, p, hst⟩
          · exact hsh st hm
        · simp only [Builder.depth, List.length_nil, List.map_cons, List.sum_cons] at hdepth ⊢; omega
      obtain ⟨b2, new2, e2, h2, v2, g2⟩ := ih1 .shared _ (n + 1) [] (evs ++ [.shared k sz ptr true]) hlive
      simp only at e2 h2 v2 g2
      obtain ⟨b3, e3, h3, v3⟩ := Live.finishChild (n := n + (body.trace [] (ptr :: b.visitedShared)).leaked)
        (by have : n + 1 + 1 + (body.trace [] (ptr :: b.visitedShared)).leaked =
              n + (body.trace [] (ptr :: b.visitedShared)).leaked + 2 := by omega
            rw [← this]; exact h2) .shared f (body.trace [] (ptr :: b.visitedShared)).ctl
      simp only [e2, logged_finishChild, e3]
      have g3 := g2.shared (cur := cur) k sz ptr f (body.trace [] (ptr :: b.visitedShared)).ctl hv
      cases hc : (body.trace [] (ptr :: b.visitedShared)).ctl with
      | unwinding =>
        simp only [hc] at h3 g3
        exact ⟨b3, _, by simp [tailOf], by simpa [Nat.add_assoc, Nat.add_comm, Nat.add_left_comm] using h3, by rw [v3, v2], g3⟩
      | returned =>
        simp only [hc] at h3 g3
        obtain ⟨b4, new4, e4, h4, v4, g4⟩ := ih2 kind b3 (n + (body.trace [] (ptr :: b.visitedShared)).leaked + f.leaks .returned) cur
          (evs ++ ((.shared k sz ptr true :: new2) ++ tailOf f .returned .shared))
          (by rw [show n + (body.trace [] (ptr :: b.visitedShared)).leaked + f.leaks .returned + 1 =
                n + (body.trace [] (ptr :: b.visitedShared)).leaked + 1 + f.leaks .returned by omega]; exact h3)
        rw [v3, v2] at e4 h4 v4 g4
        exact ⟨b4, _, by simpa [tailOf] using e4, by simpa [Nat.add_assoc, Nat.add_comm, Nat.add_left_comm] using h4, v4, g3.seq g4⟩
  | catchUnwind body rest ih1 ih2 =>
    intro kind b n cur evs h
    obtain ⟨b1, new1, e1, h1, v1, g1⟩ := ih1 kind b n cur evs h
    obtain ⟨b2, new2, e2, h2, v2, g2⟩ := ih2 kind b1 (n + (body.trace cur b.visitedShared).leaked) cur (evs ++ new1)
      (by rw [show n + (body.trace cur b.visitedShared).leaked + 1 = n + 1 + (body.trace cur b.visitedShared).leaked by omega]
          exact h1)
    rw [v1] at e2 h2 v2 g2
    exact ⟨b2, new1 ++ new2, by simp only [exec, e1, e2, Prog.trace, List.append_assoc],
      by simpa [Prog.trace, Nat.add_assoc, Nat.add_comm, Nat.add_left_comm] using h2, v2, g1.seq g2⟩

theorem Live.fate_root {b n} (h : Live b (n + 1)) (f : Fate) (ctl : Ctl) :
    ∃ b', Builder.visitorImpl.finishChild .root f ctl b = .ok b' ∧ b'.visitedShared = b.visitedShared := by
  by_cases hf : f.leaks ctl = 0
  · rw [finishChild_closes _ _ hf, builder_exitImpl]
    cases n with
    | succ m => obtain ⟨b', e, _, v⟩ := h.exit; exact ⟨b', e, v⟩
    | zero =>
      have hd := h.depth
      have h1 : b.current.stack = [] := by
        unfold Builder.depth at hd; exact List.eq_nil_of_length_eq_zero (by omega)
      have h2 : b.shared = [] := by
        cases hs : b.shared with
        | nil => rfl
        | cons st sh =>
          obtain ⟨recs, paths, _, _, h3⟩ := h.wf
          have := (h3 st (by simp [hs])).1
          have : 0 < st.stack.length := by cases hh : st.stack <;> simp_all
          simp only [Builder.depth, hs, List.map_cons, List.sum_cons] at hd; omega
      exact ⟨{ b with enteredRootVisitor := false }, by simp [Builder.exitImpl, h.entered, up, h1, h2], rfl⟩
  · exact ⟨b, (finishChild_of_leaks _ _ hf b).1, rfl⟩

/-- The log does not influence a root visit. -/
theorem useRootLogged_erase (b : Builder) (evs) (prog : Prog) (fate : Fate) :
    (match b.useRootLogged evs prog fate with | .error e => .error e | .ok (b, _) => .ok b) =
    (match b.useRoot prog fate with | .error e => (.error e : Except Panic Builder) | .ok (b, _) => .ok b) := by
  simp only [Builder.useRootLogged, Builder.useRoot]
  cases b.rootVisitor with
  | error e => rfl
  | ok b1 =>
    simp only
    have := exec_logged_erase Builder.visitorImpl prog .root b1 (evs ++ [.root])
    rw [← this]
    cases exec Builder.visitorImpl.logged prog .root (b1, evs ++ [.root]) with
    | error e => rfl
    | ok r =>
      obtain ⟨⟨s, e⟩, ctl⟩ := r
      simp only [eraseLog, logged_finishChild]
      cases Builder.visitorImpl.finishChild .root fate ctl s <;> rfl

theorem useRootsLogged_erase (hist : List (Prog × Fate)) : ∀ (b : Builder) (evs : List Event),
    (match b.useRootsLogged evs hist with | .error e => .error e | .ok (b, _) => .ok b) = b.useRoots hist := by
  induction hist with
  | nil => intro b evs; rfl
  | cons x rest ih =>
    intro b evs
    obtain ⟨prog, fate⟩ := x
    simp only [Builder.useRootsLogged, Builder.useRoots]
    have h := useRootLogged_erase b evs prog fate
    cases h1 : b.useRootLogged evs prog fate with
    | error e =>
      rw [h1] at h
      cases h2 : b.useRoot prog fate with
      | error e' => rw [h2] at h; simp only [Except.error.injEq] at h; rw [h]
      | ok r => rw [h2] at h; cases h
    | ok r =>
      rw [h1] at h
      cases h2 : b.useRoot prog fate with
      | error e' => rw [h2] at h; cases h
      | ok r' => rw [h2] at h; simp only [Except.ok.injEq] at h; simp only [← h]; exact ih r.1 r.2

theorem Idle.useRootLogged {b recs paths} (h : Idle b recs paths) (evs) (prog : Prog) (fate : Fate) :
    ∃ b' new, b.useRootLogged evs prog fate = .ok (b', evs ++ new) ∧
      firstOnly b.visitedShared new ∧ b'.visitedShared = (prog.trace [] b.visitedShared).visited ∧
      (∀ p, p ∈ b'.visitedShared ↔ p ∈ b.visitedShared ∨ p ∈ sharedPtrs new) ∧
      new.countP Event.creates = new.countP Event.ends +
        ((prog.trace [] b.visitedShared).leaked + fate.leaks (prog.trace [] b.visitedShared).ctl) ∧
      ((prog.trace [] b.visitedShared).leaked + fate.leaks (prog.trace [] b.visitedShared).ctl = 0 →
        replay [] new = some ([], (prog.trace [] b.visitedShared).recs)) := by
  have h0 : Live { b with enteredRootVisitor := true } (0 + 1) := by
    refine ⟨⟨recs, paths, h.rep, ⟨[], ?_⟩, ?_⟩, h.root, rfl, ?_⟩
    · simp only [h.current]; exact .nil h.rep.root
    · simp [h.shared]
    · simp [Builder.depth, h.current, h.shared]
  obtain ⟨b2, new, e2, h2, v2, g⟩ := exec_logged prog .root _ 0 [] (evs ++ [.root]) h0
  simp only at e2 h2 v2 g
  obtain ⟨b3, e3, v3⟩ := Live.fate_root (n := (prog.trace [] b.visitedShared).leaked)
    (by rw [show (prog.trace [] b.visitedShared).leaked + 1 = 0 + 1 + (prog.trace [] b.visitedShared).leaked by omega]; exact h2)
    fate (prog.trace [] b.visitedShared).ctl
  refine ⟨b3, .root :: (new ++ tailOf fate (prog.trace [] b.visitedShared).ctl .root), ?_, ?_, by rw [v3, v2], ?_, ?_, ?_⟩
  · simp only [Builder.useRootLogged, Builder.rootVisitor, h.notEntered, Bool.false_eq_true, ↓reduceIte, e2, logged_finishChild, e3]
    simp [tailOf]
  · simp only [firstOnly]
    refine firstOnly_append (w := sharedPtrs new ++ b.visitedShared) (by intro p; simp [or_comm]) g.sh ?_
    unfold tailOf; split <;> trivial
  · intro p
    have : sharedPtrs (tailOf fate (prog.trace [] b.visitedShared).ctl .root) = [] := by unfold tailOf; split <;> rfl
    rw [v3, v2, g.mem]; simp [sharedPtrs, sharedPtrs_append, this]
  · simp only [List.countP_append, List.countP_cons, g.cnt]
    unfold tailOf
    by_cases hl : fate.leaks (prog.trace [] b.visitedShared).ctl = 0
    · simp [hl, Event.creates, Event.ends]; omega
    · have := (finishChild_of_leaks Builder.visitorImpl .root hl Builder.default).2
      simp [this, Event.creates, Event.ends]; omega
  · intro hl
    have hf : fate.leaks (prog.trace [] b.visitedShared).ctl = 0 := by omega
    simp only [replay, ↓reduceIte]
    have h1 := g.rep (by omega) [⟨.root, Key.new []⟩] (by simp) rfl
    have h2 : replay [⟨.root, Key.new []⟩] (tailOf fate (prog.trace [] b.visitedShared).ctl .root) = some ([], []) := by
      simp [tailOf, hf, replay]
    rw [replay_append h1 h2]; simp

theorem Idle.useRootsLogged {hist : List (Prog × Fate)} : ∀ {b recs paths evs b' evs'}, Idle b recs paths →
    b.useRootsLogged evs hist = .ok (b', evs') →
    ∃ new, evs' = evs ++ new ∧ firstOnly b.visitedShared new ∧
      new.countP Event.creates = new.countP Event.ends + (traceRoots hist b.visitedShared).leaked ∧
      ((traceRoots hist b.visitedShared).leaked = 0 → replay [] new = some ([], (traceRoots hist b.visitedShared).recs)) := by
  induction hist with
  | nil =>
    intro b recs paths evs b' evs' h e
    simp only [Builder.useRootsLogged, Except.ok.injEq, Prod.mk.injEq] at e
    exact ⟨[], by simp [e.2], trivial, rfl, fun _ => rfl⟩
  | cons x rest ih =>
    intro b recs paths evs b' evs' h e
    obtain ⟨prog, fate⟩ := x
    obtain ⟨b1, new1, e1, f1, v1, m1, c1, r1⟩ := h.useRootLogged evs prog fate
    simp only [Builder.useRootsLogged, e1] at e
    by_cases hl : (prog.trace [] b.visitedShared).leaked + fate.leaks (prog.trace [] b.visitedShared).ctl = 0
    · obtain ⟨b2, paths2, e2, i2, v2⟩ := h.useRoot (prog := prog) (fate := fate) (by omega) (by omega)
      have : b2 = b1 := by
        have := useRootLogged_erase b evs prog fate
        rw [e1, e2] at this; simpa using this.symm
      subst this
      obtain ⟨new2, rfl, f2, c2, r2⟩ := ih i2 e
      rw [v2] at f2 c2 r2
      refine ⟨new1 ++ new2, by simp, firstOnly_append (by rw [← v2]; exact m1) f1 f2, ?_, ?_⟩
      · simp only [List.countP_append, c1, c2, traceRoots]; omega
      · intro h0
        simp only [traceRoots] at h0
        exact replay_append (r1 hl) (r2 (by omega))
    · cases rest with
      | nil =>
        simp only [Builder.useRootsLogged, Except.ok.injEq, Prod.mk.injEq] at e
        obtain ⟨rfl, rfl⟩ := e
        exact ⟨new1, rfl, f1, by simp only [c1, traceRoots]; omega, fun h0 => by simp only [traceRoots] at h0; omega⟩
      | cons y rest =>
        obtain ⟨b2, ctl, e2, l2⟩ := h.useRoot_leak prog fate (by omega)
        have : b2 = b1 := by
          have := useRootLogged_erase b evs prog fate
          rw [e1, e2] at this; simpa using this.symm
        subst this
        obtain ⟨prog', fate'⟩ := y
        simp [Builder.useRootsLogged, Builder.useRootLogged, Builder.rootVisitor, l2.entered] at e

end Allocative
