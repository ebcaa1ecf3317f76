import Verif.Props.Threads
set_option linter.unusedSimpArgs false
/-
C83, continued: guards of several profiles exclude each other, and a last reference is dropped once.
-/
namespace Allocative
variable {σ : Type}

/-! ## Guards -/

theorem view_exclusive {k i : Nat} {g : Shared} {a : Ptr} (h : ((g.view k i).lock a).othersExclusive = false) :
    (g.lock a).outsideExclusive = false ∧ ∀ j, j < k → j ≠ i → (g.lock a).exclusive j = false := by
  simp only [Shared.view, Bool.or_eq_false_iff, List.any_eq_false, List.mem_range, Bool.and_eq_true, bne_iff_ne, not_and, Bool.not_eq_true] at h
  exact h

theorem sum_zero {f : Nat → Nat} : ∀ {l : List Nat}, (l.map f).sum = 0 → ∀ j ∈ l, f j = 0
  | [], _, j, h => by cases h
  | x :: l, h, j, hj => by
    simp only [List.map_cons, List.sum_cons] at h
    rcases List.mem_cons.1 hj with rfl | hj
    · omega
    · exact sum_zero (l := l) (by omega) j hj

theorem view_shared {k i : Nat} {g : Shared} {a : Ptr} (h : ((g.view k i).lock a).othersShared = 0) :
    (g.lock a).outsideShared = 0 ∧ ∀ j, j < k → j ≠ i → (g.lock a).shared j = 0 := by
  simp only [Shared.view] at h
  refine ⟨by omega, fun j hj hn => sum_zero (by omega : (((List.range k).filter (· != i)).map (g.lock a).shared).sum = 0) j ?_⟩
  simp [hj, hn]

theorem act_lock (st : Store) (act : Action) (b : Ptr) :
    (act.act st).lock b = st.lock b ∨ (∃ how, act = .call how b ∧ how.granted (st.lock b) = true ∧ (act.act st).lock b = how.acquire (st.lock b)) ∨
      ∃ how ctl, act = .release how b ctl ∧ (act.act st).lock b = how.release (st.lock b) ctl := by
  cases act with
  | call how c =>
    simp only [Action.act]
    split
    · rename_i hg
      by_cases e : b = c
      · subst e; exact .inr (.inl ⟨how, rfl, hg, by simp [setAt]⟩)
      · exact .inl (by simp [setAt, e])
    · exact .inl rfl
  | release how c ctl =>
    by_cases e : b = c
    · subst e; exact .inr (.inr ⟨how, ctl, rfl, by simp [Action.act, setAt]⟩)
    · exact .inl (by simp [Action.act, setAt, e])
  | upgrade p => left; simp only [Action.act]; split <;> rfl
  | dropRef p => exact .inl rfl
  | load p => exact .inl rfl

theorem free_out {s : LockState} (h : s.free = true) : s.othersExclusive = false ∧ s.heldExclusive = false ∧ s.othersShared = 0 ∧ s.heldShared = 0 := by
  simp only [LockState.free, LockState.readable, Bool.and_eq_true, Bool.not_eq_true', beq_iff_eq] at h
  exact ⟨h.1.1.1, h.1.1.2, h.1.2, h.2⟩

theorem readable_out {s : LockState} (h : s.readable = true) : s.othersExclusive = false ∧ s.heldExclusive = false := by
  simp only [LockState.readable, Bool.and_eq_true, Bool.not_eq_true'] at h
  exact h

/-- What a look may do to the guards of the thread: nothing, give back, take an exclusive one when nobody has any, take a shared one when nobody has an exclusive one. -/
theorem act_guards (st : Store) (act : Action) (b : Ptr) :
    (((act.act st).lock b).heldExclusive = true → (st.lock b).heldExclusive = true ∨ (st.lock b).free = true) ∧
    (((act.act st).lock b).heldExclusive = true → ((act.act st).lock b).heldShared ≤ (st.lock b).heldShared) ∧
    (0 < ((act.act st).lock b).heldShared → (0 < (st.lock b).heldShared ∨ (st.lock b).readable = true)) := by
  rcases act_lock st act b with e | ⟨how, -, hg, e⟩ | ⟨how, ctl, -, e⟩
  · rw [e]; exact ⟨.inl, fun _ => Nat.le_refl _, .inl⟩
  · rw [e]
    cases how with
    | stdTryLock =>
      simp only [Access.granted, Bool.and_eq_true] at hg
      exact ⟨fun _ => .inr hg.1.1, fun _ => Nat.le_refl _, .inl⟩
    | tryLock =>
      simp only [Access.granted, Bool.and_eq_true] at hg
      exact ⟨fun _ => .inr hg.1, fun _ => Nat.le_refl _, .inl⟩
    | stdTryRead =>
      simp only [Access.granted, Bool.and_eq_true] at hg
      have := (readable_out hg.1.1).2
      exact ⟨.inl, fun h => (by rw [show (st.lock b).heldExclusive = true from h] at this; cases this), fun _ => .inr hg.1.1⟩
    | tryRead =>
      simp only [Access.granted, Bool.and_eq_true] at hg
      have := (readable_out hg.1).2
      exact ⟨.inl, fun h => (by rw [show (st.lock b).heldExclusive = true from h] at this; cases this), fun _ => .inr hg.1⟩
    | read =>
      have := (readable_out hg).2
      exact ⟨.inl, fun h => (by rw [show (st.lock b).heldExclusive = true from h] at this; cases this), fun _ => .inr hg⟩
    | get => exact ⟨.inl, fun _ => Nat.le_refl _, .inl⟩
  · rw [e]
    have e1 : (how.release (st.lock b) ctl).heldExclusive = true → (st.lock b).heldExclusive = true := by
      cases how <;> cases ctl <;> simp [Access.release]
    have e2 : (how.release (st.lock b) ctl).heldShared ≤ (st.lock b).heldShared := by
      cases how <;> cases ctl <;> simp [Access.release]
    exact ⟨fun h => .inl (e1 h), fun _ => e2, fun h => .inl (by omega)⟩

/-- C83: the guards of several profiles exclude each other.  If outsiders respect exclusion, then at every moment of every run a profile that has an exclusive guard (of a `Mutex`) is the only one who has a guard of this lock:
no other profile and no other thread. -/
theorem C83_exclusive {k : Nat} {who : Nat → Option Nat} {y : Nat → Sys σ} (h : Sys.Runs k who y) (h0 : (y 0).shared.Excluding k)
    (ho : ∀ n, who n = none → (y n).shared.Excluding k → (y (n + 1)).shared.Excluding k) (n : Nat) : (y n).shared.Excluding k := by
  induction n with
  | zero => exact h0
  | succ n ih =>
    cases hw : who n with
    | none => exact ho n hw ih
    | some l =>
      have hs := h n
      rw [hw] at hs
      generalize y n = z at *
      generalize y (n + 1) = z' at *
      cases hs with
      | @look _ _ act next hl ht hr =>
        intro a i hi hx
        obtain ⟨g1, g2, g3⟩ := act_guards (z.shared.view k l) act a
        by_cases e : i = l
        · subst e
          simp only [Shared.put, if_true] at hx
          have hsh := g2 hx
          rcases g1 hx with hold | hfree
          · obtain ⟨o1, o2, o3⟩ := ih a i hi hold
            refine ⟨o1, o2, fun j hj => ?_⟩
            simp only [Shared.put]
            by_cases ej : j = i
            · subst ej
              have := (o3 j hj).1
              exact ⟨by rw [if_pos rfl]; exact Nat.le_zero.1 (Nat.le_trans hsh (by simp [Shared.view, this])), fun h => (h rfl).elim⟩
            · rw [if_neg ej, if_neg ej]; exact o3 j hj
          · obtain ⟨f1, f2, f3, f4⟩ := free_out hfree
            obtain ⟨v1, v2⟩ := view_exclusive f1
            obtain ⟨w1, w2⟩ := view_shared f3
            refine ⟨v1, w1, fun j hj => ?_⟩
            simp only [Shared.put]
            by_cases ej : j = i
            · subst ej
              exact ⟨by rw [if_pos rfl]; omega, fun h => (h rfl).elim⟩
            · rw [if_neg ej, if_neg ej]; exact ⟨w2 j hj ej, fun _ => v2 j hj ej⟩
        · simp only [Shared.put, e, if_false] at hx
          obtain ⟨o1, o2, o3⟩ := ih a i hi hx
          refine ⟨o1, o2, fun j hj => ?_⟩
          simp only [Shared.put]
          by_cases ej : j = l
          · subst ej
            rw [if_pos rfl, if_pos rfl]
            have busy : ((z.shared.view k j).lock a).othersExclusive = true := by
              simp only [Shared.view, Bool.or_eq_true, List.any_eq_true, List.mem_range, Bool.and_eq_true, bne_iff_ne]
              exact .inr ⟨i, hi, e, hx⟩
            refine ⟨?_, fun _ => ?_⟩
            · by_cases hz : 0 < ((act.act (z.shared.view k j)).lock a).heldShared
              · rcases g3 hz with hz | hz
                · have := (o3 j hj).1
                  simp only [Shared.view] at hz
                  omega
                · rw [(readable_out hz).1] at busy; cases busy
              · omega
            · cases hz : ((act.act (z.shared.view k j)).lock a).heldExclusive with
              | false => rfl
              | true =>
                rcases g1 hz with hz | hz
                · have := (o3 j hj).2 (fun h => e h.symm)
                  simp only [Shared.view] at hz
                  rw [this] at hz; cases hz
                · rw [(free_out hz).1] at busy; cases busy
          · rw [if_neg ej, if_neg ej]; exact o3 j hj

/-- C83: and while a profile reads under a shared guard, neither another profile nor anybody else has an exclusive one. -/
theorem C83_readers {k : Nat} {who : Nat → Option Nat} {y : Nat → Sys σ} (h : Sys.Runs k who y) (h0 : (y 0).shared.Excluding k ∧ (y 0).shared.Readers k)
    (ho : ∀ n, who n = none → (y n).shared.Excluding k ∧ (y n).shared.Readers k → (y (n + 1)).shared.Excluding k ∧ (y (n + 1)).shared.Readers k) (n : Nat) :
    (y n).shared.Readers k := by
  have key : ∀ n, (y n).shared.Excluding k ∧ (y n).shared.Readers k := by
    intro n
    induction n with
    | zero => exact h0
    | succ n ih =>
      cases hw : who n with
      | none => exact ho n hw ih
      | some l =>
        have hex : (y (n + 1)).shared.Excluding k := by
          have := C83_exclusive (k := k) (who := fun m => if m = 0 then some l else none) (y := fun m => if m = 0 then y n else y (n + 1)) (fun m => by
            by_cases hm : m = 0
            · subst hm; simpa [hw] using h n
            · simp only [hm, if_false, Nat.add_eq_zero_iff, false_and]
              exact .others ⟨fun _ => ⟨rfl, rfl⟩, fun _ => ⟨rfl, rfl⟩⟩) (by simpa using ih.1) (fun m hm hx => by
            by_cases hm0 : m = 0
            · subst hm0; simp at hm
            · simpa [hm0] using hx) 1
          simpa using this
        refine ⟨hex, ?_⟩
        have hs := h n
        rw [hw] at hs
        intro a i hi hx
        have hnx : ∀ j, j < k → ((y (n + 1)).shared.lock a).exclusive j = false := fun j hj => by
          cases hc : ((y (n + 1)).shared.lock a).exclusive j with
          | false => rfl
          | true => have := ((hex a j hj hc).2.2 i hi).1; omega
        refine ⟨?_, hnx⟩
        clear hnx hex
        generalize y n = z at *
        generalize y (n + 1) = z' at *
        cases hs with
        | @look _ _ act next hl ht hr =>
          obtain ⟨-, -, g3⟩ := act_guards (z.shared.view k l) act a
          show (z.shared.lock a).outsideExclusive = false
          by_cases e : i = l
          · subst e
            simp only [Shared.put, if_true] at hx
            rcases g3 hx with hz | hz
            · exact (ih.2 a i hi hz).1
            · exact (view_exclusive (readable_out hz).1).1
          · simp only [Shared.put, e, if_false] at hx
            exact (ih.2 a i hi hx).1
  exact (key n).2

/-! ## References -/

/-- The thread drops only references that it has: `own` are those it has to give back. -/
def Run.Owes (own : Ptr → Nat) : Run σ → Prop
  | .look (.dropRef p) next => 0 < own p ∧ ∀ st, (next st).Owes (setAt own p (own p - 1))
  | .look (.upgrade p) next => ∀ st, (next st).Owes (if (st.count p).alive then setAt own p (own p + 1) else own)
  | .look _ next => ∀ st, (next st).Owes own
  | _ => True

theorem setAt_back (f : Ptr → Nat) (p : Ptr) (n : Nat) (h : f p = n) (x : Nat) : setAt (setAt f p x) p n = f := by
  funext q
  simp only [setAt]
  split
  · rename_i e; rw [e, h]
  · rfl

theorem run_owes (impl : VisitorImpl σ) (p : LProg) : ∀ kind s (k : σ → Ctl → Run σ) own, (∀ s ctl, (k s ctl).Owes own) → (p.run impl kind s k).Owes own := by
  have after : ∀ {kind fate ctl s own} {f g : σ → Run σ}, (∀ s, (f s).Owes own) → (∀ s, (g s).Owes own) → (Run.afterChild impl kind fate ctl s f g).Owes own := by
    intro kind fate ctl s own f g hf hg
    simp only [Run.afterChild]
    cases impl.finishChild kind fate ctl s with
    | error => trivial
    | ok s => cases ctl <;> first | exact hg s | exact hf s
  induction p with
  | done => exact fun _ s k own hk => hk _ _
  | panic => exact fun _ s k own hk => hk _ _
  | enter name size fate body rest ihb ihr =>
    intro kind s k own hk
    simp only [LProg.run]
    cases impl.enterInlineImpl s name size kind with
    | error => trivial
    | ok s => exact ihb _ _ _ _ fun s ctl => after (fun s => hk _ _) fun s => ihr _ _ _ _ hk
  | enterUnique name size fate body rest ihb ihr =>
    intro kind s k own hk
    simp only [LProg.run]
    cases impl.enterUniqueImpl s name size kind with
    | error => trivial
    | ok s => exact ihb _ _ _ _ fun s ctl => after (fun s => hk _ _) fun s => ihr _ _ _ _ hk
  | enterShared name size ptr fate body rs rn ihb ihs ihn =>
    intro kind s k own hk
    simp only [LProg.run]
    cases impl.enterSharedImpl s name size ptr kind with
    | error => trivial
    | ok x =>
      obtain ⟨b, s⟩ := x
      cases b with
      | false => exact ihn _ _ _ _ hk
      | true => exact ihb _ _ _ _ fun s ctl => after (fun s => hk _ _) fun s => ihs _ _ _ _ hk
  | catchUnwind body rest ihb ihr => exact fun kind s k own hk => ihb _ _ _ _ fun s ctl => ihr _ _ _ _ hk
  | access how a inside rest ihi ihr =>
    intro kind s k own hk st
    dsimp only
    split
    · refine ihi _ _ _ _ fun s ctl st => ?_
      cases ctl <;> first | exact hk _ _ | exact ihr _ _ _ _ hk
    · exact ihr _ _ _ _ hk
  | upgrade p inside rest ihi ihr =>
    intro kind s k own hk st
    dsimp only
    split
    · refine ihi _ _ _ _ fun s ctl => ⟨by simp [setAt], fun st => ?_⟩
      rw [setAt_back own p _ (by simp [setAt])]
      cases ctl <;> first | exact hk _ _ | exact ihr _ _ _ _ hk
    · exact ihr _ _ _ _ hk
  | load a next ih => exact fun kind s k own hk st => ih _ _ _ _ _ hk

theorem runRoots_owes (hist : List (LProg × Fate)) : ∀ b : Builder, (b.runRoots hist).Owes fun _ => 0 := by
  induction hist with
  | nil => exact fun _ => trivial
  | cons x rest ih =>
    intro b
    simp only [Builder.runRoots, Builder.runRoot]
    cases b.rootVisitor with
    | error => trivial
    | ok b =>
      refine run_owes _ _ _ _ _ _ fun b ctl => ?_
      cases Builder.visitorImpl.finishChild .root x.2 ctl b with
      | error => trivial
      | ok b => exact ih b

theorem view_others {k i : Nat} {g : Shared} {p : Ptr} : ((g.view k i).count p).others = 0 ↔ (g.count p).outside = 0 ∧ ∀ j, j < k → j ≠ i → (g.count p).held j = 0 := by
  simp only [Shared.view, Nat.add_eq_zero_iff]
  refine and_congr Iff.rfl ⟨fun h j hj hn => sum_zero h j (by simp [hj, hn]), fun h => ?_⟩
  have : ∀ l : List Nat, (∀ j ∈ l, (g.count p).held j = 0) → (l.map (g.count p).held).sum = 0 := by
    intro l
    induction l with
    | nil => simp
    | cons x l ih => intro hl; simp only [List.map_cons, List.sum_cons]; rw [hl x (by simp), ih fun j hj => hl j (by simp [hj])]
  refine this _ fun j hj => ?_
  simp only [List.mem_filter, List.mem_range, bne_iff_ne] at hj
  exact h j hj.1 hj.2

theorem dead_iff {k i : Nat} (hi : i < k) {g : Shared} {p : Ptr} : g.Dead k p ↔ ((g.view k i).count p).others = 0 ∧ (g.count p).held i = 0 := by
  rw [view_others]
  refine ⟨fun ⟨h1, h2⟩ => ⟨⟨h1, fun j hj _ => h2 j hj⟩, h2 i hi⟩, fun ⟨⟨h1, h2⟩, h3⟩ => ⟨h1, fun j hj => ?_⟩⟩
  by_cases e : j = i
  · rw [e]; exact h3
  · exact h2 j hj e

theorem sum_put (f : Nat → Nat) (i x : Nat) : ∀ k, i < k → ((List.range k).map fun j => if j = i then x else f j).sum + f i = ((List.range k).map f).sum + x := by
  have same : ∀ k, k ≤ i → ((List.range k).map fun j => if j = i then x else f j).sum = ((List.range k).map f).sum := by
    intro k hk
    congr 1
    apply List.map_congr_left
    intro j hj
    rw [if_neg]
    have := List.mem_range.1 hj
    omega
  intro k
  induction k with
  | zero => intro h; omega
  | succ k ih =>
    intro h
    simp only [List.range_succ, List.map_append, List.sum_append, List.map_cons, List.map_nil, List.sum_cons, List.sum_nil]
    by_cases e : k = i
    · subst e; rw [same k (Nat.le_refl _)]; simp; omega
    · have := ih (by omega)
      rw [if_neg e]
      omega

/-- Effect of a look of the thread `i` on the references to `p`. -/
theorem look_refs {k i : Nat} (hi : i < k) {g : Shared} {act : Action} {next : Store → Run σ} {own : Ptr → Nat} (hown : (Run.look act next).Owes own) (hle : ∀ p, own p ≤ (g.count p).held i) :
    ∃ own', (next (g.view k i)).Owes own' ∧ (∀ p, own' p ≤ ((g.put i (act.act (g.view k i))).count p).held i) ∧
      ∀ p, ((g.put i (act.act (g.view k i))).destructions k p = g.destructions k p ∧ ((g.put i (act.act (g.view k i))).Dead k p ↔ g.Dead k p)) ∨
        ((g.put i (act.act (g.view k i))).destructions k p = g.destructions k p ∧ ¬ g.Dead k p) ∨
        ((g.put i (act.act (g.view k i))).destructions k p = g.destructions k p + 1 ∧ ¬ g.Dead k p ∧ (g.put i (act.act (g.view k i))).Dead k p) := by
  have still : ∀ st : Store, (∀ p, st.count p = (g.view k i).count p) → (∀ p, ((g.put i st).count p).held i = (g.count p).held i) ∧
      ∀ p, (g.put i st).destructions k p = g.destructions k p ∧ ((g.put i st).Dead k p ↔ g.Dead k p) := by
    intro st hst
    have hh : ∀ p j, ((g.put i st).count p).held j = (g.count p).held j := by
      intro p j
      simp only [Shared.put]
      split
      · rename_i e; rw [hst, e]; rfl
      · rfl
    refine ⟨fun p => hh p i, fun p => ⟨?_, ?_⟩⟩
    · simp only [Shared.destructions]
      congr 1
      apply List.map_congr_left
      intro j _
      simp only [Shared.put]
      split
      · rename_i e; rw [hst, e]; rfl
      · rfl
    · simp only [Shared.Dead, hh]; exact Iff.rfl
  have quiet : (∀ p, (act.act (g.view k i)).count p = (g.view k i).count p) → (next (g.view k i)).Owes own → _ := fun hc ho =>
    let ⟨a, b⟩ := still _ hc
    (⟨own, ho, fun p => by rw [a p]; exact hle p, fun p => .inl (b p)⟩ :
      ∃ own', (next (g.view k i)).Owes own' ∧ (∀ p, own' p ≤ ((g.put i (act.act (g.view k i))).count p).held i) ∧
      ∀ p, ((g.put i (act.act (g.view k i))).destructions k p = g.destructions k p ∧ ((g.put i (act.act (g.view k i))).Dead k p ↔ g.Dead k p)) ∨
        ((g.put i (act.act (g.view k i))).destructions k p = g.destructions k p ∧ ¬ g.Dead k p) ∨
        ((g.put i (act.act (g.view k i))).destructions k p = g.destructions k p + 1 ∧ ¬ g.Dead k p ∧ (g.put i (act.act (g.view k i))).Dead k p))
  cases act with
  | call how a => exact quiet (fun p => by simp only [Action.act]; split <;> rfl) (hown _)
  | release how a ctl => exact quiet (fun p => rfl) (hown _)
  | load a => exact quiet (fun p => rfl) (hown _)
  | upgrade q =>
    have ho := hown (g.view k i)
    by_cases al : ((g.view k i).count q).alive = true
    · rw [if_pos al] at ho
      refine ⟨_, ho, fun p => ?_, fun p => ?_⟩
      · simp only [Action.act, al, if_true, Shared.put, setAt]
        have := hle p
        split
        · rename_i e; subst e; simp only [Shared.view]; omega
        · exact this
      · have hd : (g.put i (Action.act (g.view k i) (.upgrade q))).destructions k p = g.destructions k p := by
          simp only [Shared.destructions]
          congr 1
          apply List.map_congr_left
          intro j _
          simp only [Action.act, al, if_true, Shared.put, setAt]
          split
          · rename_i e; subst e
            split
            · rename_i e; rw [e]; rfl
            · rfl
          · rfl
        by_cases e : p = q
        · subst e
          refine .inr (.inl ⟨hd, fun hdead => ?_⟩)
          obtain ⟨d1, d2⟩ := (dead_iff hi).1 hdead
          have d2' : ((g.view k i).count p).held = 0 := d2
          simp only [CountState.alive, d1, d2'] at al
          cases al
        · refine .inl ⟨hd, ?_⟩
          rw [dead_iff hi, dead_iff hi]
          simp only [view_others]
          have hc : ∀ j, ((g.put i (Action.act (g.view k i) (.upgrade q))).count p).held j = (g.count p).held j := by
            intro j
            simp only [Action.act, al, if_true, Shared.put, setAt, e, if_false]
            split
            · rename_i e; subst e; rfl
            · rfl
          simp only [hc]
          exact Iff.rfl
    · rw [if_neg al] at ho
      exact quiet (fun p => by simp only [Action.act, al]; rfl) ho
  | dropRef q =>
    obtain ⟨hpos, ho⟩ := hown
    have hq : 0 < (g.count q).held i := Nat.lt_of_lt_of_le hpos (hle q)
    refine ⟨_, ho _, fun p => ?_, fun p => ?_⟩
    · simp only [Action.act, Shared.put, setAt, if_true]
      have := hle p
      split
      · rename_i e; subst e; simp only [CountState.drop, Shared.view]; omega
      · exact this
    · by_cases e : p = q
      · subst e
        have alive : ¬ g.Dead k p := fun h => by have := h.2 i hi; omega
        have hput : (fun j => ((g.put i (Action.act (g.view k i) (.dropRef p))).count p).destroyed j) =
            fun j => if j = i then (((g.view k i).count p).drop).destroyed else (g.count p).destroyed j := by
          funext j; simp [Action.act, Shared.put, setAt]
        have hsum := sum_put (g.count p).destroyed i (((g.view k i).count p).drop).destroyed k hi
        by_cases last : ((g.view k i).count p).others + (((g.view k i).count p).held - 1) = 0
        · refine .inr (.inr ⟨?_, alive, ?_⟩)
          · simp only [Shared.destructions]
            rw [show ((g.put i (Action.act (g.view k i) (.dropRef p))).count p).destroyed = _ from hput]
            simp only [CountState.drop, last, if_true] at hsum ⊢
            have : ((g.view k i).count p).destroyed = (g.count p).destroyed i := rfl
            omega
          · obtain ⟨d1, d2⟩ := view_others.1 (by omega : ((g.view k i).count p).others = 0)
            refine ⟨d1, fun j hj => ?_⟩
            simp only [Action.act, Shared.put, setAt, if_true]
            split
            · simp only [CountState.drop]; omega
            · rename_i ej; exact d2 j hj ej
        · refine .inr (.inl ⟨?_, alive⟩)
          simp only [Shared.destructions]
          rw [show ((g.put i (Action.act (g.view k i) (.dropRef p))).count p).destroyed = _ from hput]
          simp only [CountState.drop, last, if_false] at hsum ⊢
          have : ((g.view k i).count p).destroyed = (g.count p).destroyed i := rfl
          omega
      · have hc : ∀ j, ((g.put i (Action.act (g.view k i) (.dropRef q))).count p).held j = (g.count p).held j ∧
            ((g.put i (Action.act (g.view k i) (.dropRef q))).count p).destroyed j = (g.count p).destroyed j := by
          intro j
          simp only [Action.act, Shared.put, setAt, e, if_false]
          constructor <;> (split <;> first | rfl | (rename_i e; subst e; rfl))
        refine .inl ⟨?_, ?_⟩
        · simp only [Shared.destructions]
          congr 1
          exact List.map_congr_left fun j _ => (hc j).2
        · simp only [Shared.Dead, (hc _).1]; exact Iff.rfl

/-- C83: references.  If outsiders do not bring dead allocations back to life: all profiles together run the destructor of the content of a shared allocation at most once, only if it was alive at first, and afterwards it is dead for ever
(no profile visits it after that). -/
theorem C83_destructor {k : Nat} {who : Nat → Option Nat} {y : Nat → Sys Builder} (h : Sys.Runs k who y) (hists : Nat → List (LProg × Fate)) (h0 : ∀ j, j < k → (y 0).threads j = Builder.default.runRoots (hists j))
    (p : Ptr) (ho : ∀ n, who n = none → (y n).shared.Dead k p → (y (n + 1)).shared.Dead k p) (n : Nat) :
    (y n).shared.destructions k p = (y 0).shared.destructions k p ∨
      ((y n).shared.destructions k p = (y 0).shared.destructions k p + 1 ∧ ¬ (y 0).shared.Dead k p ∧ ∀ m, n ≤ m → (y m).shared.Dead k p) := by
  have inv : ∀ n, ∀ j, j < k → ∃ own, ((y n).threads j).Owes own ∧ ∀ q, own q ≤ ((y n).shared.count q).held j := by
    intro n
    induction n with
    | zero => exact fun j hj => ⟨fun _ => 0, by rw [h0 j hj]; exact runRoots_owes _ _, fun _ => Nat.zero_le _⟩
    | succ n ih =>
      intro j hj
      obtain ⟨own, i1, i2⟩ := ih j hj
      have hs := h n
      generalize y n = z at *
      generalize y (n + 1) = z' at *
      generalize who n = w at hs
      cases hs with
      | others hp => exact ⟨own, i1, fun q => by rw [(hp.2 q).1]; exact i2 q⟩
      | @look _ l act next hl ht hr =>
        by_cases e : j = l
        · subst e
          rw [ht] at i1
          obtain ⟨own', a, b, -⟩ := look_refs hj i1 i2
          exact ⟨own', by simpa using a, b⟩
        · refine ⟨own, by simpa [e] using i1, fun q => ?_⟩
          simp only [Shared.put, e, if_false]
          exact i2 q
  have step : ∀ n, ((y (n + 1)).shared.destructions k p = (y n).shared.destructions k p ∧ ((y n).shared.Dead k p → (y (n + 1)).shared.Dead k p)) ∨
      ((y (n + 1)).shared.destructions k p = (y n).shared.destructions k p + 1 ∧ ¬ (y n).shared.Dead k p ∧ (y (n + 1)).shared.Dead k p) := by
    intro n
    have hi := inv n
    have hs := h n
    have hon := ho n
    clear h ho inv h0
    generalize who n = w at hs hon
    generalize y n = z at *
    generalize y (n + 1) = z' at *
    cases hs with
    | others hp => exact .inl ⟨by simp only [Shared.destructions, (hp.2 p).2], hon rfl⟩
    | @look _ l act next hl ht hr =>
      obtain ⟨own, i1, i2⟩ := hi l hl
      rw [ht] at i1
      obtain ⟨-, -, -, hc⟩ := look_refs hl i1 i2
      rcases hc p with ⟨c1, c2⟩ | ⟨c1, c2⟩ | hc
      · exact .inl ⟨c1, c2.2⟩
      · exact .inl ⟨c1, fun h => (c2 h).elim⟩
      · exact .inr hc
  have dead : ∀ n d, (y n).shared.Dead k p → (y (n + d)).shared.Dead k p := by
    intro n d hd
    induction d with
    | zero => exact hd
    | succ d ih => rcases step (n + d) with ⟨-, hx⟩ | ⟨-, -, hx⟩ <;> first | exact hx ih | exact hx
  induction n with
  | zero => exact .inl rfl
  | succ n ih =>
    have start : ¬ (y n).shared.Dead k p → ¬ (y 0).shared.Dead k p := fun hn hz => hn (by have := dead 0 n hz; rwa [Nat.zero_add] at this)
    rcases step n with ⟨s1, s2⟩ | ⟨s1, s2, s3⟩
    · rcases ih with ih | ⟨ih1, ih2, ih3⟩
      · exact .inl (s1.trans ih)
      · exact .inr ⟨s1.trans ih1, ih2, fun m hm => ih3 m (by omega)⟩
    · rcases ih with ih | ⟨ih1, ih2, ih3⟩
      · refine .inr ⟨by omega, start s2, fun m hm => ?_⟩
        have := dead (n + 1) (m - (n + 1)) s3
        rwa [Nat.add_sub_cancel' hm] at this
      · exact (s2 (ih3 n (Nat.le_refl _))).elim

/-- The infinite run of C83_profiles_hide meets the hypotheses. -/
example (n : Nat) := C83_readers ThreadsEx.runs_ok
  ⟨fun _ _ _ h => (by cases h), fun _ _ _ h => (by exact absurd h (Nat.lt_irrefl 0))⟩
  (fun n hn h => match n, hn with | _ + 3, _ => h) n
example (n : Nat) := C83_exclusive ThreadsEx.runs_ok (fun _ _ _ h => (by cases h)) (fun n hn h => match n, hn with | _ + 3, _ => h) n
example (n : Nat) := C83_destructor ThreadsEx.runs_ok (fun _ => ThreadsEx.hist) (fun _ _ => rfl) 7 (fun n hn h => match n, hn with | _ + 3, _ => h) n

/-! Two profiles upgrade the same weak pointer, the program then drops its own reference, the profiles drop theirs: the last one runs the destructor. -/
namespace ThreadsEx

def weak : List (LProg × Fate) := [(.upgrade 7 .done .done, .exit)]
def w₀ : Sys Builder := ⟨free, fun _ => Builder.default.runRoots weak⟩
/-- The program drops its reference. -/
def lose (y : Sys Builder) : Sys Builder := ⟨{ y.shared with count := fun p => { y.shared.count p with outside := 0 } }, y.threads⟩
def whoW : Nat → Option Nat
  | 0 => some 0
  | 1 => some 1
  | 3 => some 0
  | 4 => some 1
  | _ => none
def runsW : Nat → Sys Builder
  | 0 => w₀
  | 1 => next 0 w₀
  | 2 => next 1 (next 0 w₀)
  | 3 => lose (next 1 (next 0 w₀))
  | 4 => next 0 (lose (next 1 (next 0 w₀)))
  | _ => next 1 (next 0 (lose (next 1 (next 0 w₀))))

theorem runsW_ok : Sys.Runs 2 whoW runsW
  | 0 => next_step 0 (by decide) _ rfl
  | 1 => next_step 1 (by decide) _ rfl
  | 2 => .others ⟨fun _ => ⟨rfl, rfl⟩, fun _ => ⟨rfl, rfl⟩⟩
  | 3 => next_step 0 (by decide) _ rfl
  | 4 => next_step 1 (by decide) _ rfl
  | _ + 5 => .others ⟨fun _ => ⟨rfl, rfl⟩, fun _ => ⟨rfl, rfl⟩⟩

example (n : Nat) := C83_destructor runsW_ok (fun _ => weak) (fun _ _ => rfl) 7 (fun n hn h => match n, hn, h with
  | 2, _, h => ⟨rfl, h.2⟩
  | _ + 5, _, h => h) n
example : (runsW 4).shared.destructions 2 7 = 0 ∧ (runsW 5).shared.destructions 2 7 = 1 := ⟨rfl, rfl⟩

end ThreadsEx

end Allocative
