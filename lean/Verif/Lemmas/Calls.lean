import Verif.Spec.SizeOf
import Verif.Lemmas.Totals
/-
Logs and calls.
-/
set_option linter.unusedSimpArgs false

namespace Allocative

theorem calls_append {a b : List Event} : ∀ {fs fs1 : List Frame} {r1 : List Rec},
    replay fs a = some (fs1, r1) → calls fs (a ++ b) = calls fs a ++ calls fs1 b := by
  induction a with
  | nil =>
    intro fs fs1 r1 h1
    simp only [replay, Option.some.injEq, Prod.mk.injEq] at h1
    obtain ⟨rfl, rfl⟩ := h1; rfl
  | cons e es ih =>
    intro fs fs1 r1 h1
    cases e with
    | root =>
      simp only [replay] at h1
      split at h1
      · rename_i h; subst h; simp only [List.cons_append, calls]; exact ih h1
      · cases h1
    | exit kind =>
      simp only [replay] at h1
      split at h1
      · cases h1
      · split at h1
        · simp only [List.cons_append, calls, List.tail_cons]; exact ih h1
        · cases h1
    | inline k n =>
      simp only [replay] at h1
      split at h1
      · cases h1
      · simp only [Option.map_eq_some_iff, Prod.mk.injEq] at h1
        obtain ⟨⟨f, r⟩, h3, rfl, rfl⟩ := h1
        simp only [List.cons_append, calls, ih h3]
    | unique k n =>
      simp only [replay] at h1
      split at h1
      · cases h1
      · simp only [Option.map_eq_some_iff, Prod.mk.injEq] at h1
        obtain ⟨⟨f, r⟩, h3, rfl, rfl⟩ := h1
        simp only [List.cons_append, calls, ih h3]
    | shared k n p r =>
      simp only [replay] at h1
      split at h1
      · cases h1
      · simp only [Option.map_eq_some_iff, Prod.mk.injEq] at h1
        obtain ⟨⟨f, r⟩, h3, rfl, rfl⟩ := h1
        simp only [List.cons_append, calls, ih h3]

theorem calls_rec {es : List Event} : ∀ {fs fs1 : List Frame} {r1 : List Rec},
    replay fs es = some (fs1, r1) → (calls fs es).map Call.toRec = r1 := by
  induction es with
  | nil =>
    intro fs fs1 r1 h1
    simp only [replay, Option.some.injEq, Prod.mk.injEq] at h1
    obtain ⟨rfl, rfl⟩ := h1; rfl
  | cons e es ih =>
    intro fs fs1 r1 h1
    cases e with
    | root =>
      simp only [replay] at h1
      split at h1
      · rename_i h; subst h; simp only [calls]; exact ih h1
      · cases h1
    | exit kind =>
      simp only [replay] at h1
      split at h1
      · cases h1
      · split at h1
        · simp only [calls, List.tail_cons]; exact ih h1
        · cases h1
    | inline k n =>
      simp only [replay] at h1
      split at h1
      · cases h1
      · simp only [Option.map_eq_some_iff, Prod.mk.injEq] at h1
        obtain ⟨⟨f, r⟩, h3, rfl, rfl⟩ := h1
        simp [calls, ih h3, Call.toRec]
    | unique k n =>
      simp only [replay] at h1
      split at h1
      · cases h1
      · simp only [Option.map_eq_some_iff, Prod.mk.injEq] at h1
        obtain ⟨⟨f, r⟩, h3, rfl, rfl⟩ := h1
        simp [calls, ih h3, Call.toRec]
    | shared k n p r =>
      simp only [replay] at h1
      split at h1
      · cases h1
      · simp only [Option.map_eq_some_iff, Prod.mk.injEq] at h1
        obtain ⟨⟨f, r⟩, h3, rfl, rfl⟩ := h1
        simp [calls, ih h3, Call.toRec]

/-- Unique frames have a unique record. -/
def FramesOk (pre : List Rec) : List Frame → Prop
  | [] => True
  | f :: fs => (f.kind = .unique → uniqueAt pre (stackOf (f :: fs)) = true) ∧
      (f.kind = .inline → ∃ r ∈ pre, r.path = stackOf (f :: fs) ∧ r.unique = false) ∧ FramesOk pre fs

theorem FramesOk.mono {pre more : List Rec} {fs} (h : FramesOk pre fs) : FramesOk (pre ++ more) fs := by
  induction fs with
  | nil => trivial
  | cons f fs ih => exact ⟨fun hk => by rw [uniqueAt_append, h.1 hk, Bool.true_or],
      fun hk => by obtain ⟨r, hr, e⟩ := h.2.1 hk; exact ⟨r, by simp [hr], e⟩, ih h.2.2⟩

/-- What the kind of the visitor a call is made on says about its stack. -/
structure CallOk (recs : List Rec) (c : Call) : Prop where
  top : c.parent = .root ∨ c.parent = .shared → c.stack = []
  uniq : c.parent = .unique → uniqueAt recs c.stack = true ∧ c.stack ≠ []
  inl : c.parent = .inline → c.stack ≠ [] ∧ ∃ r ∈ recs, r.path = c.stack ∧ r.unique = false

theorem FramesOk.call {pre fs} (h : FramesOk pre fs) (k n kind) : CallOk pre ⟨parentKind fs, stackOf fs, k, n, kind⟩ := by
  cases fs with
  | nil => exact ⟨fun _ => rfl, fun h => NodeKind.noConfusion h, fun h => NodeKind.noConfusion h⟩
  | cons f fs =>
    obtain ⟨kd, nm⟩ := f
    simp only [FramesOk] at h
    cases kd
    · exact ⟨fun h => h.elim (fun h => NodeKind.noConfusion h) (fun h => NodeKind.noConfusion h),
        fun h => NodeKind.noConfusion h, fun _ => ⟨by simp [stackOf], h.2.1 rfl⟩⟩
    · exact ⟨fun h => h.elim (fun h => NodeKind.noConfusion h) (fun h => NodeKind.noConfusion h),
        fun _ => ⟨h.1 rfl, by simp [stackOf]⟩, fun h => NodeKind.noConfusion h⟩
    · exact ⟨fun _ => by simp [stackOf], fun h => NodeKind.noConfusion h, fun h => NodeKind.noConfusion h⟩
    · exact ⟨fun _ => by simp [stackOf], fun h => NodeKind.noConfusion h, fun h => NodeKind.noConfusion h⟩

theorem CallOk.mono {pre more c} (h : CallOk pre c) : CallOk (pre ++ more) c :=
  ⟨h.top, fun hk => ⟨by rw [uniqueAt_append, (h.uniq hk).1, Bool.true_or], (h.uniq hk).2⟩,
    fun hk => ⟨(h.inl hk).1, by obtain ⟨r, hr, e⟩ := (h.inl hk).2; exact ⟨r, by simp [hr], e⟩⟩⟩

theorem calls_ok {es : List Event} : ∀ {fs fs1 : List Frame} {pre r1 : List Rec}, FramesOk pre fs →
    replay fs es = some (fs1, r1) → ∀ c ∈ calls fs es, CallOk (pre ++ r1) c := by
  induction es with
  | nil => intro fs fs1 pre r1 _ _ c hc; simp [calls] at hc
  | cons e es ih =>
    intro fs fs1 pre r1 hf h1 c hc
    cases e with
    | root =>
      simp only [replay] at h1
      split at h1
      · rename_i h; subst h; simp only [calls] at hc
        exact ih (fs := [⟨.root, Key.new []⟩]) ⟨fun h => NodeKind.noConfusion h, fun h => NodeKind.noConfusion h, trivial⟩ h1 c hc
      · cases h1
    | exit kind =>
      simp only [replay] at h1
      split at h1
      · cases h1
      · split at h1
        · simp only [calls, List.tail_cons] at hc; exact ih hf.2.2 h1 c hc
        · cases h1
    | inline k n =>
      simp only [replay] at h1
      split at h1
      · cases h1
      · simp only [Option.map_eq_some_iff, Prod.mk.injEq] at h1
        obtain ⟨⟨f, r⟩, h3, rfl, rfl⟩ := h1
        simp only [calls, List.mem_cons] at hc
        rcases hc with rfl | hc
        · exact (hf.call _ _ _).mono
        · have := ih (fs := ⟨.inline, k⟩ :: fs) (pre := pre ++ [⟨stackOf fs ++ [k], n, false⟩]) ⟨fun h => NodeKind.noConfusion h,
            fun _ => ⟨⟨stackOf fs ++ [k], n, false⟩, by simp, rfl, rfl⟩, hf.mono⟩ h3 c hc
          simpa using this
    | unique k n =>
      simp only [replay] at h1
      split at h1
      · cases h1
      · simp only [Option.map_eq_some_iff, Prod.mk.injEq] at h1
        obtain ⟨⟨f, r⟩, h3, rfl, rfl⟩ := h1
        simp only [calls, List.mem_cons] at hc
        rcases hc with rfl | hc
        · exact (hf.call _ _ _).mono
        · have := ih (fs := ⟨.unique, k⟩ :: fs) (pre := pre ++ [⟨stackOf fs ++ [k], n, true⟩])
            ⟨fun _ => by rw [uniqueAt_append]; simp [uniqueAt, stackOf], fun h => NodeKind.noConfusion h, hf.mono⟩ h3 c hc
          simpa using this
    | shared k n p r =>
      simp only [replay] at h1
      split at h1
      · cases h1
      · simp only [Option.map_eq_some_iff, Prod.mk.injEq] at h1
        obtain ⟨⟨f, r'⟩, h3, rfl, rfl⟩ := h1
        simp only [calls, List.mem_cons] at hc
        rcases hc with rfl | hc
        · exact (hf.call _ _ _).mono
        · have := ih (pre := pre ++ [⟨stackOf fs ++ [k], n, false⟩]) (by
            cases r
            · exact hf.mono
            · exact ⟨fun h => NodeKind.noConfusion h, fun h => NodeKind.noConfusion h, hf.mono⟩) h3 c hc
          simpa using this

/-- The attributed bytes in terms of calls. -/
theorem attributed_calls {log : List Event} {recs : List Rec} (h : replay [] log = some ([], recs)) :
    attributed recs = sumCalls (fun c => c.parent ≠ .inline) (calls [] log) +
      sumCalls (fun c => c.parent = .inline && uniqueAt recs c.stack) (calls [] log) := by
  have hr := calls_rec h
  have hok := calls_ok (pre := []) (fs := []) trivial h
  unfold attributed sumCalls
  rw [← sum_map_add]
  conv => lhs; rw [← hr]
  rw [List.map_map]
  apply sum_map_congr
  intro c hc
  have ok := hok c hc
  simp only [List.nil_append] at ok
  rw [hr]
  simp only [Function.comp, Call.toRec, List.dropLast_concat]
  obtain ⟨parent, st, nm, sz, kd⟩ := c
  cases parent with
  | inline => simp [(ok.inl rfl).1]
  | unique => simp [(ok.uniq rfl).1]
  | shared => have : st = [] := ok.top (.inr rfl)
              simp [this]
  | root => have : st = [] := ok.top (.inl rfl)
            simp [this]

theorem sumCalls_append (p) (a b : List Call) : sumCalls p (a ++ b) = sumCalls p a + sumCalls p b := by
  unfold sumCalls; rw [List.map_append, List.sum_append_nat]

/-- Bytes counted by `size_of_unique_allocated_data` in a log. -/
def heapCalls (cs : List Call) : Nat := sumCalls (fun c => c.parent = .unique && c.kind = .inline) cs

theorem closes_leaks {f : Fate} (h : f = .exit ∨ f = .drop) (c : Ctl) : f.leaks c = 0 := by
  rcases h with rfl | rfl <;> cases c <;> rfl

theorem so_inline (s : Nat) (k n kind) : SizeOf.visitorImpl.enterInlineImpl s k n kind =
    .ok (s + if kind = .unique then n else 0) := by cases kind <;> rfl
theorem so_unique (s : Nat) (k n kind) : SizeOf.visitorImpl.enterUniqueImpl s k n kind = .ok s := rfl
theorem so_shared (s : Nat) (k n p kind) : SizeOf.visitorImpl.enterSharedImpl s k n p kind = .ok (false, s) := rfl
theorem so_exit (s : Nat) (kind : NodeKind) (h : kind ≠ .shared) : SizeOf.visitorImpl.exitImpl kind s = .ok s := by
  cases kind <;> first | rfl | (simp at h; done)

theorem sizeOf_logged (prog : Prog) : ∀ (kind : NodeKind) (fs : List Frame) (s : Nat) (evs : List Event), prog.Closes → fs ≠ [] →
    parentKind fs = kind →
    ∃ new ctl rs, exec SizeOf.visitorImpl.logged prog kind (s, evs) = .ok ((s + heapCalls (calls fs new), evs ++ new), ctl) ∧
      replay fs new = some (fs, rs) ∧ ∀ k n p r, Event.shared k n p r ∈ new → r = false := by
  have step : ∀ (ev : Event) (fr : Frame) (cl : Call) (fs : List Frame) (new : List Event) (rc : Rec) (rs : List Rec) (new' : List Event) (rs' : List Rec),
      (h1 : ∀ es, calls fs (ev :: es) = cl :: calls (fr :: fs) es) →
      (h2 : ∀ es, replay fs (ev :: es) = (replay (fr :: fs) es).map fun r => (r.1, rc :: r.2)) →
      (h3 : replay (fr :: fs) new = some (fr :: fs, rs)) → replay fs new' = some (fs, rs') →
      replay fs (ev :: new ++ [.exit fr.kind] ++ new') = some (fs, rc :: rs ++ rs') ∧
      heapCalls (calls fs (ev :: new ++ [.exit fr.kind] ++ new')) =
        heapCalls [cl] + heapCalls (calls (fr :: fs) new) + heapCalls (calls fs new') := by
    intro ev fr cl fs new rc rs new' rs' h1 h2 h3 h4
    have hx : replay (fr :: fs) [.exit fr.kind] = some (fs, []) := by simp [replay]
    have h5 := replay_append h3 hx
    constructor
    · have := replay_append h5 h4
      rw [List.cons_append, List.cons_append, h2, this]; simp
    · have e : calls fs (ev :: new ++ [.exit fr.kind] ++ new') = cl :: (calls (fr :: fs) new ++ calls fs new') := by
        rw [List.cons_append, List.cons_append, h1, calls_append h5, calls_append h3]; simp [calls]
      rw [e]
      unfold heapCalls
      rw [show cl :: (calls (fr :: fs) new ++ calls fs new') = [cl] ++ (calls (fr :: fs) new ++ calls fs new') from rfl,
        sumCalls_append, sumCalls_append]
      omega
  induction prog with
  | done => intro kind fs s evs _ hne hk; exact ⟨[], .returned, [], by simp [exec, calls, heapCalls, sumCalls], rfl, by simp⟩
  | panic => intro kind fs s evs _ hne hk; exact ⟨[], .unwinding, [], by simp [exec, calls, heapCalls, sumCalls], rfl, by simp⟩
  | enter k n f body rest ih1 ih2 =>
    intro kind fs s evs hc hne hk
    obtain ⟨hf, hb, hr⟩ := hc
    obtain ⟨new1, ctl1, rs1, e1, r1, s1⟩ := ih1 .inline (⟨.inline, k⟩ :: fs) (s + if kind = .unique then n else 0)
      (evs ++ [.inline k n]) hb (by simp) rfl
    obtain ⟨new2, ctl2, rs2, e2, r2, s2⟩ := ih2 kind fs ((s + if kind = .unique then n else 0) + heapCalls (calls (⟨.inline, k⟩ :: fs) new1))
      (evs ++ (.inline k n :: new1 ++ [.exit .inline])) hr hne hk
    simp only [exec, logged_inline, so_inline, e1, logged_finishChild, finishChild_closes SizeOf.visitorImpl .inline (closes_leaks hf ctl1),
      so_exit _ .inline (by simp), closes_leaks hf ctl1]
    have base := step (.inline k n) ⟨.inline, k⟩ ⟨parentKind fs, stackOf fs, k, n, .inline⟩ fs new1 ⟨stackOf fs ++ [k], n, false⟩
      rs1 (h1 := fun _ => rfl) (h2 := fun es => by simp only [replay, if_neg hne]) (h3 := r1)
    have hcl : heapCalls [⟨parentKind fs, stackOf fs, k, n, .inline⟩] = if kind = .unique then n else 0 := by
      rw [hk]; simp [heapCalls, sumCalls]
    cases ctl1 with
    | unwinding =>
      obtain ⟨ra, rb⟩ := base [] [] rfl
      rw [List.append_nil] at ra rb
      refine ⟨.inline k n :: new1 ++ [.exit .inline], .unwinding, _, ?_, ra, ?_⟩
      · rw [rb, hcl]; simp [show heapCalls (calls fs []) = 0 from rfl, Nat.add_assoc]
      · intro k n p r hm; simp at hm; exact s1 _ _ _ _ hm
    | returned =>
      obtain ⟨ra, rb⟩ := base new2 rs2 r2
      refine ⟨.inline k n :: new1 ++ [.exit .inline] ++ new2, ctl2, _, ?_, ra, ?_⟩
      · rw [rb, hcl]
        simp only [List.append_assoc, List.cons_append, List.nil_append] at e2 ⊢
        simp only [↓reduceIte]
        rw [e2]
        simp [Nat.add_assoc]
      · intro k n p r hm; simp at hm
        exact hm.elim (s1 _ _ _ _) (s2 _ _ _ _)
  | enterUnique k n f body rest ih1 ih2 =>
    intro kind fs s evs hc hne hk
    obtain ⟨hf, hb, hr⟩ := hc
    obtain ⟨new1, ctl1, rs1, e1, r1, s1⟩ := ih1 .unique (⟨.unique, k⟩ :: fs) s
      (evs ++ [.unique k n]) hb (by simp) rfl
    obtain ⟨new2, ctl2, rs2, e2, r2, s2⟩ := ih2 kind fs (s + heapCalls (calls (⟨.unique, k⟩ :: fs) new1))
      (evs ++ (.unique k n :: new1 ++ [.exit .unique])) hr hne hk
    simp only [exec, logged_unique, so_unique, e1, logged_finishChild, finishChild_closes SizeOf.visitorImpl .unique (closes_leaks hf ctl1),
      so_exit _ .unique (by simp), closes_leaks hf ctl1]
    have base := step (.unique k n) ⟨.unique, k⟩ ⟨parentKind fs, stackOf fs, k, n, .unique⟩ fs new1 ⟨stackOf fs ++ [k], n, true⟩
      rs1 (h1 := fun _ => rfl) (h2 := fun es => by simp only [replay, if_neg hne]) (h3 := r1)
    have hcl : heapCalls [⟨parentKind fs, stackOf fs, k, n, .unique⟩] = 0 := by
      simp [heapCalls, sumCalls]
    cases ctl1 with
    | unwinding =>
      obtain ⟨ra, rb⟩ := base [] [] rfl
      rw [List.append_nil] at ra rb
      refine ⟨.unique k n :: new1 ++ [.exit .unique], .unwinding, _, ?_, ra, ?_⟩
      · rw [rb, hcl]; simp [calls, heapCalls, sumCalls]
      · intro k n p r hm; simp at hm; exact s1 _ _ _ _ hm
    | returned =>
      obtain ⟨ra, rb⟩ := base new2 rs2 r2
      refine ⟨.unique k n :: new1 ++ [.exit .unique] ++ new2, ctl2, _, ?_, ra, ?_⟩
      · rw [rb, hcl]
        simp only [List.append_assoc, List.cons_append, List.nil_append] at e2 ⊢
        simp only [↓reduceIte]
        rw [e2]
        simp [Nat.add_assoc]
      · intro k n p r hm; simp at hm
        exact hm.elim (s1 _ _ _ _) (s2 _ _ _ _)
  | enterShared k n p f body rs rn ih1 ih2 ih3 =>
    intro kind fs s evs hc hne hk
    obtain ⟨new2, ctl2, rs2, e2, r2, s2⟩ := ih3 kind fs s (evs ++ [.shared k n p false]) hc.2.2.2 hne hk
    simp only [exec, logged_shared, so_shared]
    refine ⟨.shared k n p false :: new2, ctl2, ⟨stackOf fs ++ [k], n, false⟩ :: rs2, ?_, ?_, ?_⟩
    · rw [e2]; simp [calls, heapCalls, sumCalls]
    · simp [replay, hne, r2]
    · intro k n p r hm
      rcases List.mem_cons.1 hm with h | h
      · simp only [Event.shared.injEq] at h; exact h.2.2.2
      · exact s2 _ _ _ _ h
  | catchUnwind body rest ih1 ih2 =>
    intro kind fs s evs hc hne hk
    obtain ⟨new1, ctl1, rs1, e1, r1, s1⟩ := ih1 kind fs s evs hc.1 hne hk
    obtain ⟨new2, ctl2, rs2, e2, r2, s2⟩ := ih2 kind fs (s + heapCalls (calls fs new1)) (evs ++ new1) hc.2 hne hk
    refine ⟨new1 ++ new2, ctl2, _, ?_, replay_append r1 r2, ?_⟩
    · simp only [exec, e1, e2, calls_append r1]
      unfold heapCalls; rw [sumCalls_append, Nat.add_assoc, List.append_assoc]
    · intro k n p r hm
      rcases List.mem_append.1 hm with h | h
      · exact s1 _ _ _ _ h
      · exact s2 _ _ _ _ h

/-- `size_of` never fails, whatever the program does. -/
theorem sizeOf_ok (prog : Prog) : ∀ (kind : NodeKind) (s : Nat), ∃ r, exec SizeOf.visitorImpl prog kind s = .ok r := by
  have fin : ∀ kind f ctl (s : Nat), kind ≠ NodeKind.shared → SizeOf.visitorImpl.finishChild kind f ctl s = .ok s := by
    intro kind f ctl s hk
    by_cases hf : f.leaks ctl = 0
    · rw [finishChild_closes _ _ hf, so_exit _ _ hk]
    · exact (finishChild_of_leaks _ _ hf _).1
  induction prog with
  | done => intro kind s; exact ⟨_, rfl⟩
  | panic => intro kind s; exact ⟨_, rfl⟩
  | enter k n f body rest ih1 ih2 =>
    intro kind s
    simp only [exec, so_inline]
    obtain ⟨⟨s1, c1⟩, e1⟩ := ih1 .inline (s + if kind = .unique then n else 0)
    rw [e1]
    simp only [fin .inline f c1 s1 (by simp)]
    cases c1
    · exact ih2 kind s1
    · exact ⟨_, rfl⟩
  | enterUnique k n f body rest ih1 ih2 =>
    intro kind s
    simp only [exec, so_unique]
    obtain ⟨⟨s1, c1⟩, e1⟩ := ih1 .unique s
    rw [e1]
    simp only [fin .unique f c1 s1 (by simp)]
    cases c1
    · exact ih2 kind s1
    · exact ⟨_, rfl⟩
  | enterShared k n p f body rs rn ih1 ih2 ih3 => intro kind s; simp only [exec, so_shared]; exact ih3 kind s
  | catchUnwind body rest ih1 ih2 =>
    intro kind s
    obtain ⟨⟨s1, c1⟩, e1⟩ := ih1 kind s
    simp only [exec, e1]
    exact ih2 kind s1

theorem sizeOf_rename (f : Key → Key) (g : Ptr → Ptr) (prog : Prog) : ∀ (kind : NodeKind) (s : Nat),
    exec SizeOf.visitorImpl (prog.rename f g) kind s = exec SizeOf.visitorImpl prog kind s := by
  induction prog with
  | done => intros; rfl
  | panic => intros; rfl
  | enter k n fate body rest ih1 ih2 => intro kind s; simp only [Prog.rename, exec, so_inline, ih1, ih2]
  | enterUnique k n fate body rest ih1 ih2 => intro kind s; simp only [Prog.rename, exec, so_unique, ih1, ih2]
  | enterShared k n p fate body rs rn ih1 ih2 ih3 => intro kind s; simp only [Prog.rename, exec, so_shared, ih3]
  | catchUnwind body rest ih1 ih2 => intro kind s; simp only [Prog.rename, exec, ih1, ih2]

/-- The log of a program without shared pointers, all of whose visitors are ended. -/
def Prog.log : Prog → List Event × Ctl
  | .done => ([], .returned)
  | .panic => ([], .unwinding)
  | .enter k n _ body rest =>
    match body.log.2 with
    | .unwinding => (.inline k n :: body.log.1 ++ [.exit .inline], .unwinding)
    | .returned => (.inline k n :: body.log.1 ++ [.exit .inline] ++ rest.log.1, rest.log.2)
  | .enterUnique k n _ body rest =>
    match body.log.2 with
    | .unwinding => (.unique k n :: body.log.1 ++ [.exit .unique], .unwinding)
    | .returned => (.unique k n :: body.log.1 ++ [.exit .unique] ++ rest.log.1, rest.log.2)
  | .enterShared .. => ([], .returned)
  | .catchUnwind body rest => (body.log.1 ++ rest.log.1, rest.log.2)

theorem exec_log {σ} (impl : VisitorImpl σ) (prog : Prog) : ∀ (kind : NodeKind) (s s' : σ) (evs evs' : List Event) (ctl : Ctl),
    prog.NoShared → prog.Closes → exec impl.logged prog kind (s, evs) = .ok ((s', evs'), ctl) →
    evs' = evs ++ prog.log.1 ∧ ctl = prog.log.2 := by
  have fin : ∀ {kind f ctl} {s : σ} {evs}, (f = .exit ∨ f = .drop) → impl.logged.finishChild kind f ctl (s, evs) =
      match impl.exitImpl kind s with
      | .error e => .error e
      | .ok s => .ok (s, evs ++ [.exit kind]) := by
    intro kind f ctl s evs hf
    rw [finishChild_closes _ _ (closes_leaks hf ctl), logged_exitImpl]
    cases impl.exitImpl kind s <;> rfl
  induction prog with
  | done => intro kind s s' evs evs' ctl _ _ h; simp only [exec, Except.ok.injEq, Prod.mk.injEq] at h; simp [Prog.log, h.1.2, ← h.2]
  | panic => intro kind s s' evs evs' ctl _ _ h; simp only [exec, Except.ok.injEq, Prod.mk.injEq] at h; simp [Prog.log, h.1.2, ← h.2]
  | enter k n f body rest ih1 ih2 =>
    intro kind s s' evs evs' ctl hn hc h
    obtain ⟨hf, hb, hr⟩ := hc
    simp only [exec, logged_inline] at h
    cases h1 : impl.enterInlineImpl s k n kind with
    | error e => rw [h1] at h; cases h
    | ok s1 =>
      rw [h1] at h
      simp only at h
      cases h2 : exec impl.logged body .inline (s1, evs ++ [.inline k n]) with
      | error e => rw [h2] at h; cases h
      | ok r =>
        obtain ⟨⟨s2, evs2⟩, ctl2⟩ := r
        obtain ⟨rfl, rfl⟩ := ih1 _ _ _ _ _ _ hn.1 hb h2
        rw [h2] at h
        simp only [fin hf] at h
        cases h3 : impl.exitImpl .inline s2 with
        | error e => rw [h3] at h; cases h
        | ok s3 =>
          rw [h3] at h
          simp only [Prog.log]
          cases hctl : body.log.2 with
          | unwinding => rw [hctl] at h; simp only [Except.ok.injEq, Prod.mk.injEq] at h; simp [← h.1.2, ← h.2]
          | returned =>
            rw [hctl] at h
            obtain ⟨rfl, rfl⟩ := ih2 _ _ _ _ _ _ hn.2 hr h
            simp
  | enterUnique k n f body rest ih1 ih2 =>
    intro kind s s' evs evs' ctl hn hc h
    obtain ⟨hf, hb, hr⟩ := hc
    simp only [exec, logged_unique] at h
    cases h1 : impl.enterUniqueImpl s k n kind with
    | error e => rw [h1] at h; cases h
    | ok s1 =>
      rw [h1] at h
      simp only at h
      cases h2 : exec impl.logged body .unique (s1, evs ++ [.unique k n]) with
      | error e => rw [h2] at h; cases h
      | ok r =>
        obtain ⟨⟨s2, evs2⟩, ctl2⟩ := r
        obtain ⟨rfl, rfl⟩ := ih1 _ _ _ _ _ _ hn.1 hb h2
        rw [h2] at h
        simp only [fin hf] at h
        cases h3 : impl.exitImpl .unique s2 with
        | error e => rw [h3] at h; cases h
        | ok s3 =>
          rw [h3] at h
          simp only [Prog.log]
          cases hctl : body.log.2 with
          | unwinding => rw [hctl] at h; simp only [Except.ok.injEq, Prod.mk.injEq] at h; simp [← h.1.2, ← h.2]
          | returned =>
            rw [hctl] at h
            obtain ⟨rfl, rfl⟩ := ih2 _ _ _ _ _ _ hn.2 hr h
            simp
  | enterShared => intro kind s s' evs evs' ctl hn; exact absurd hn (by simp [Prog.NoShared])
  | catchUnwind body rest ih1 ih2 =>
    intro kind s s' evs evs' ctl hn hc h
    simp only [exec] at h
    cases h2 : exec impl.logged body kind (s, evs) with
    | error e => rw [h2] at h; cases h
    | ok r =>
      obtain ⟨⟨s2, evs2⟩, ctl2⟩ := r
      obtain ⟨rfl, rfl⟩ := ih1 _ _ _ _ _ _ hn.1 hc.1 h2
      rw [h2] at h
      obtain ⟨rfl, rfl⟩ := ih2 _ _ _ _ _ _ hn.2 hc.2 h
      simp [Prog.log]

/-- The log of a program leaves the live visitors as they were. -/
theorem log_replay (prog : Prog) (hn : prog.NoShared) (hc : prog.Closes) (fs : List Frame) (hfs : fs ≠ []) :
    ∃ rs, replay fs prog.log.1 = some (fs, rs) := by
  obtain ⟨new, ctl, rs, e, r, _⟩ := sizeOf_logged prog (parentKind fs) fs 0 [] hc hfs rfl
  obtain ⟨h, _⟩ := exec_log _ prog _ _ _ _ _ _ hn hc e
  simp only [List.nil_append] at h
  exact ⟨rs, h ▸ r⟩

/-- Kinds of calls in the log. -/
theorem log_calls (prog : Prog) : ∀ (fs : List Frame), prog.NoShared → prog.Closes → fs ≠ [] →
    prog.UniqueApart (decide (parentKind fs = .unique)) → ∀ c ∈ calls fs prog.log.1,
    (c.parent = .unique → c.kind = .inline) ∧ (c.parent = .shared → parentKind fs = .shared) ∧
    (c.parent = .root → parentKind fs = .root) := by
  have tl : ∀ (ev : Event) (fr : Frame) (cl : Call) (fs : List Frame) (b : List Event) (rs : List Rec) (b' : List Event),
      (∀ es, calls fs (ev :: es) = cl :: calls (fr :: fs) es) → replay (fr :: fs) b = some (fr :: fs, rs) →
      calls fs (ev :: b ++ [.exit fr.kind] ++ b') = cl :: (calls (fr :: fs) b ++ calls fs b') := by
    intro ev fr cl fs b rs b' h1 h3
    have hx : replay (fr :: fs) [.exit fr.kind] = some (fs, []) := by simp [replay]
    rw [List.cons_append, List.cons_append, h1, calls_append (replay_append h3 hx), calls_append h3]; simp [calls]
  induction prog with
  | done => intro fs _ _ _ _ c hc; simp [Prog.log, calls] at hc
  | panic => intro fs _ _ _ _ c hc; simp [Prog.log, calls] at hc
  | enter k n f body rest ih1 ih2 =>
    intro fs hn hcl hfs hu c hc
    obtain ⟨rs, hrs⟩ := log_replay body hn.1 hcl.2.1 (⟨.inline, k⟩ :: fs) (by simp)
    have hb := ih1 (⟨.inline, k⟩ :: fs) hn.1 hcl.2.1 (by simp) (by simpa [parentKind] using hu.1) c
    have ht := fun b' => tl (.inline k n) ⟨.inline, k⟩ ⟨parentKind fs, stackOf fs, k, n, .inline⟩ fs body.log.1 rs b' (fun _ => rfl) hrs
    have h0 : ∀ c, c = (⟨parentKind fs, stackOf fs, k, n, .inline⟩ : Call) → (c.parent = .unique → c.kind = .inline) ∧
        (c.parent = .shared → parentKind fs = .shared) ∧ (c.parent = .root → parentKind fs = .root) := by
      rintro c rfl; exact ⟨fun _ => rfl, id, id⟩
    have hbb : c ∈ calls (⟨.inline, k⟩ :: fs) body.log.1 → (c.parent = .unique → c.kind = .inline) ∧
        (c.parent = .shared → parentKind fs = .shared) ∧ (c.parent = .root → parentKind fs = .root) := by
      intro h
      have := hb h
      exact ⟨this.1, fun h => (NodeKind.noConfusion (this.2.1 h)), fun h => (NodeKind.noConfusion (this.2.2 h))⟩
    simp only [Prog.log] at hc
    cases hctl : body.log.2 with
    | unwinding =>
      simp only [hctl] at hc
      have := ht []
      simp only [List.append_nil] at this
      rw [this] at hc
      simp only [calls, List.append_nil, List.mem_cons] at hc
      exact hc.elim (h0 c) hbb
    | returned =>
      simp only [hctl] at hc
      rw [ht] at hc
      simp only [List.mem_cons, List.mem_append] at hc
      rcases hc with h | h | h
      · exact h0 c h
      · exact hbb h
      · exact ih2 fs hn.2 hcl.2.2 hfs hu.2 c h
  | enterUnique k n f body rest ih1 ih2 =>
    intro fs hn hcl hfs hu c hc
    obtain ⟨rs, hrs⟩ := log_replay body hn.1 hcl.2.1 (⟨.unique, k⟩ :: fs) (by simp)
    have hb := ih1 (⟨.unique, k⟩ :: fs) hn.1 hcl.2.1 (by simp) (by simpa [parentKind] using hu.2.1) c
    have ht := fun b' => tl (.unique k n) ⟨.unique, k⟩ ⟨parentKind fs, stackOf fs, k, n, .unique⟩ fs body.log.1 rs b' (fun _ => rfl) hrs
    have h0 : ∀ c, c = (⟨parentKind fs, stackOf fs, k, n, .unique⟩ : Call) → (c.parent = .unique → c.kind = .inline) ∧
        (c.parent = .shared → parentKind fs = .shared) ∧ (c.parent = .root → parentKind fs = .root) := by
      rintro c rfl; exact ⟨fun h => absurd h (by simpa using hu.1), id, id⟩
    have hbb : c ∈ calls (⟨.unique, k⟩ :: fs) body.log.1 → (c.parent = .unique → c.kind = .inline) ∧
        (c.parent = .shared → parentKind fs = .shared) ∧ (c.parent = .root → parentKind fs = .root) := by
      intro h
      have := hb h
      exact ⟨this.1, fun h => (NodeKind.noConfusion (this.2.1 h)), fun h => (NodeKind.noConfusion (this.2.2 h))⟩
    simp only [Prog.log] at hc
    cases hctl : body.log.2 with
    | unwinding =>
      simp only [hctl] at hc
      have := ht []
      simp only [List.append_nil] at this
      rw [this] at hc
      simp only [calls, List.append_nil, List.mem_cons] at hc
      exact hc.elim (h0 c) hbb
    | returned =>
      simp only [hctl] at hc
      rw [ht] at hc
      simp only [List.mem_cons, List.mem_append] at hc
      rcases hc with h | h | h
      · exact h0 c h
      · exact hbb h
      · exact ih2 fs hn.2 hcl.2.2 hfs hu.2.2 c h
  | enterShared => intro fs hn; exact absurd hn (by simp [Prog.NoShared])
  | catchUnwind body rest ih1 ih2 =>
    intro fs hn hcl hfs hu c hc
    obtain ⟨rs, hrs⟩ := log_replay body hn.1 hcl.1 fs hfs
    simp only [Prog.log] at hc
    rw [calls_append hrs, List.mem_append] at hc
    exact hc.elim (ih1 fs hn.1 hcl.1 hfs hu.1 c) (ih2 fs hn.2 hcl.2 hfs hu.2 c)

theorem closes_noLeak (prog : Prog) : ∀ cur vis, prog.Closes → (prog.trace cur vis).leaked = 0 := by
  induction prog with
  | done => intros; rfl
  | panic => intros; rfl
  | enter k n f body rest ih1 ih2 =>
    intro cur vis hc
    simp only [Prog.trace]
    split <;> simp [ih1 _ _ hc.2.1, ih2 _ _ hc.2.2, closes_leaks hc.1]
  | enterUnique k n f body rest ih1 ih2 =>
    intro cur vis hc
    simp only [Prog.trace]
    split <;> simp [ih1 _ _ hc.2.1, ih2 _ _ hc.2.2, closes_leaks hc.1]
  | enterShared k n p f body rs rn ih1 ih2 ih3 =>
    intro cur vis hc
    simp only [Prog.trace]
    split
    · simp [ih3 _ _ hc.2.2.2]
    · split <;> simp [ih1 _ _ hc.2.1, ih2 _ _ hc.2.2.1, closes_leaks hc.1]
  | catchUnwind body rest ih1 ih2 => intro cur vis hc; simp [Prog.trace, ih1 _ _ hc.1, ih2 _ _ hc.2]

end Allocative
