import Verif.Spec.CarryOver
import Verif.Lemmas.Cut
import Verif.Props.Bulk
import Verif.Props.Text
set_option linter.unusedSimpArgs false
/-
C72: what a builder carries over between roots.
-/
namespace Allocative

/-- The addresses visited before matter only as a set. -/
structure SameTrace (a b : Trace) : Prop where
  recs : a.recs = b.recs
  visited : ∀ x, x ∈ a.visited ↔ x ∈ b.visited
  ctl : a.ctl = b.ctl
  leaked : a.leaked = b.leaked

theorem trace_set (prog : Prog) : ∀ (cur : Path) (v1 v2 : List Ptr), (∀ x, x ∈ v1 ↔ x ∈ v2) → SameTrace (prog.trace cur v1) (prog.trace cur v2) := by
  induction prog with
  | done => intro cur v1 v2 h; exact ⟨rfl, h, rfl, rfl⟩
  | panic => intro cur v1 v2 h; exact ⟨rfl, h, rfl, rfl⟩
  | enter k n f body rest ih1 ih2 =>
    intro cur v1 v2 h
    have t := ih1 (cur ++ [k]) v1 v2 h
    have t' := ih2 cur _ _ t.visited
    simp only [Prog.trace, t.ctl]
    split
    · exact ⟨by simp only [t.recs], t.visited, rfl, by simp only [t.leaked]⟩
    · exact ⟨by simp only [t.recs, t'.recs], t'.visited, t'.ctl, by simp only [t.leaked, t'.leaked]⟩
  | enterUnique k n f body rest ih1 ih2 =>
    intro cur v1 v2 h
    have t := ih1 (cur ++ [k]) v1 v2 h
    have t' := ih2 cur _ _ t.visited
    simp only [Prog.trace, t.ctl]
    split
    · exact ⟨by simp only [t.recs], t.visited, rfl, by simp only [t.leaked]⟩
    · exact ⟨by simp only [t.recs, t'.recs], t'.visited, t'.ctl, by simp only [t.leaked, t'.leaked]⟩
  | enterShared k n ptr f body rs rn ih1 ih2 ih3 =>
    intro cur v1 v2 h
    simp only [Prog.trace]
    by_cases hp : ptr ∈ v1
    · have hp' := (h ptr).1 hp
      have t := ih3 cur v1 v2 h
      simp only [if_pos hp, if_pos hp']
      exact ⟨by simp only [t.recs], t.visited, t.ctl, t.leaked⟩
    · have hp' : ptr ∉ v2 := fun x => hp ((h ptr).2 x)
      have t := ih1 [] (ptr :: v1) (ptr :: v2) (fun x => by simp [h])
      have t' := ih2 cur _ _ t.visited
      simp only [if_neg hp, if_neg hp', t.ctl]
      split
      · exact ⟨by simp only [t.recs], t.visited, rfl, by simp only [t.leaked]⟩
      · exact ⟨by simp only [t.recs, t'.recs], t'.visited, t'.ctl, by simp only [t.leaked, t'.leaked]⟩
  | catchUnwind body rest ih1 ih2 =>
    intro cur v1 v2 h
    have t := ih1 cur v1 v2 h
    have t' := ih2 cur _ _ t.visited
    exact ⟨by simp only [Prog.trace, t.recs, t'.recs], t'.visited, t'.ctl, by simp only [Prog.trace, t.leaked, t'.leaked]⟩

theorem traceRoots_set (hist : List (Prog × Fate)) : ∀ (v1 v2 : List Ptr), (∀ x, x ∈ v1 ↔ x ∈ v2) → SameTrace (traceRoots hist v1) (traceRoots hist v2) := by
  induction hist with
  | nil => intro v1 v2 h; exact ⟨rfl, h, rfl, rfl⟩
  | cons x rest ih =>
    intro v1 v2 h
    obtain ⟨prog, fate⟩ := x
    have t := trace_set prog [] v1 v2 h
    have t' := ih _ _ t.visited
    exact ⟨by simp only [traceRoots, t.recs, t'.recs], t'.visited, rfl, by simp only [traceRoots, t.leaked, t'.leaked, t.ctl]⟩

theorem exists_nodup {α : Type} [DecidableEq α] (l : List α) : ∃ l' : List α, l'.Nodup ∧ ∀ x ∈ l, x ∈ l' := by
  induction l with
  | nil => exact ⟨[], .nil, fun _ h => h⟩
  | cons a l ih =>
    obtain ⟨l', h1, h2⟩ := ih
    by_cases ha : a ∈ l'
    · exact ⟨l', h1, fun x hx => (List.mem_cons.1 hx).elim (fun e => e ▸ ha) (h2 x)⟩
    · exact ⟨a :: l', List.nodup_cons.2 ⟨ha, h1⟩, fun x hx => (List.mem_cons.1 hx).elim (fun e => e ▸ .head _) (fun h => .tail _ (h2 x h))⟩

/-- What the children of a stack declare is the sum of what is declared at each of them. -/
theorem childrenAt_of_sizes {a b : List Rec} (h : ∀ p, sizeAt a p = sizeAt b p) (p : Path) : childrenAt a p = childrenAt b p := by
  obtain ⟨ks, hn, hk⟩ := exists_nodup ((a ++ b).filterMap fun r => r.path.getLast?)
  have cover : ∀ r ∈ a ++ b, ∀ k, r.path = p ++ [k] → k ∈ ks := fun r hr k e => hk k (List.mem_filterMap.2 ⟨r, hr, by simp [e]⟩)
  rw [← childrenAt_eq_sum (recs := a) (p := p) hn, ← childrenAt_eq_sum (recs := b) (p := p) hn]
  · simp only [h]
  · rintro k ⟨r, hr, e⟩; exact cover r (by simp [hr]) k e
  · rintro k ⟨r, hr, e⟩; exact cover r (by simp [hr]) k e

theorem SameSoFar.append {h1 h2 : List (Prog × Fate)} (h : SameSoFar h1 h2) (rest : List (Prog × Fate)) :
    SameSoFar (h1 ++ rest) (h2 ++ rest) ∧ (traceRoots rest (traceRoots h1 []).visited).leaked = (traceRoots rest (traceRoots h2 []).visited).leaked := by
  obtain ⟨a1, a2, a3⟩ := traceRoots_append h1 rest []
  obtain ⟨b1, b2, b3⟩ := traceRoots_append h2 rest []
  have t := traceRoots_set rest _ _ h.addresses
  refine ⟨⟨fun ptr => ?_, fun p => ?_, fun p => ?_⟩, t.leaked⟩
  · simp only [sharedSeen, a2, b2]; exact t.visited ptr
  · simp only [records, a1, b1, sizeAt_app, t.recs]
    have := h.sizes p
    simp only [records] at this
    rw [this]
  · simp only [records, a1, b1, uniqueAt_app, t.recs]
    have := h.unique p
    simp only [records] at this
    rw [this]

/-- C72. Nothing else is carried over: two histories that agree on the addresses entered, the bytes declared at each stack and the stacks entered as unique cannot
be told apart by any further use of the builder. -/
theorem C72_carried_over (h1 h2 : List (Prog × Fate)) (hl1 : NoLeaks h1) (hl2 : NoLeaks h2) (hk1 : ProperKeys h1) (hk2 : ProperKeys h2)
    (h : SameSoFar h1 h2) : Indistinguishable Key.Proper h1 h2 := by
  intro rest hk
  obtain ⟨hs, hleak⟩ := h.append rest
  have n1 : NoLeaks (h1 ++ rest) ↔ (traceRoots rest (traceRoots h1 []).visited).leaked = 0 := by
    unfold NoLeaks at hl1 ⊢; rw [(traceRoots_append h1 rest []).2.2, hl1, Nat.zero_add]
  have n2 : NoLeaks (h2 ++ rest) ↔ (traceRoots rest (traceRoots h2 []).visited).leaked = 0 := by
    unfold NoLeaks at hl2 ⊢; rw [(traceRoots_append h2 rest []).2.2, hl2, Nat.zero_add]
  have hiff : NoLeaks (h1 ++ rest) ↔ NoLeaks (h2 ++ rest) := by rw [n1, n2, hleak]
  refine ⟨hiff, fun hn o1 o1' o2 o2' => ?_⟩
  have app : ∀ {g : List (Prog × Fate)}, ProperKeys g → ProperKeys (g ++ rest) := fun hg x hx => by
    rcases List.mem_append.1 hx with hx | hx
    · exact hg x hx
    · exact hk x hx
  exact observe_of_counts hn (hiff.1 hn) (app hk1) (app hk2) ⟨hs.sizes, childrenAt_of_sizes hs.sizes, hs.unique⟩ o1 o2 o1' o2'

/-- One use of the builder: names entered one inside the other, the last one with a size. -/
def Prog.down : Path → Bool → Nat → Prog → Prog
  | [], _, _, _ => .done
  | [k], true, n, body => .enterUnique k n .exit body .done
  | [k], false, n, body => .enter k n .exit body .done
  | k :: k' :: p, u, n, body => .enter k 0 .exit (Prog.down (k' :: p) u n body) .done

theorem Prog.down_keys {Q : Key → Prop} {body : Prog} (hb : body.KeysAre Q) : ∀ (p : Path) (u : Bool) (n : Nat), (∀ k ∈ p, Q k) → (Prog.down p u n body).KeysAre Q
  | [], _, _, _ => trivial
  | [k], true, n, h => ⟨h k (by simp), hb, trivial⟩
  | [k], false, n, h => ⟨h k (by simp), hb, trivial⟩
  | k :: k' :: p, u, n, h => ⟨h k (by simp), Prog.down_keys hb (k' :: p) u n (fun x hx => h x (by simp [hx])), trivial⟩

/-- The records it makes, apart from ones of no bytes. -/
theorem Prog.down_trace {body : Prog} (hb : ∀ cur vis, (body.trace cur vis).ctl = .returned) : ∀ (p : Path) (u : Bool) (n : Nat) (cur : Path) (vis : List Ptr), p ≠ [] →
    let t := (Prog.down p u n body).trace cur vis
    t.ctl = .returned ∧ t.leaked = (body.trace (cur ++ p) vis).leaked ∧ ∃ pre, (∀ r ∈ pre, r.size = 0 ∧ r.unique = false) ∧
      t.recs = pre ++ ⟨cur ++ p, n, u⟩ :: (body.trace (cur ++ p) vis).recs
  | [], _, _, _, _, h => absurd rfl h
  | [k], true, n, cur, vis, _ => by
    simp only [Prog.down, Prog.trace, hb (cur ++ [k]) vis]
    exact ⟨trivial, by simp [Fate.leaks], [], by simp, by simp⟩
  | [k], false, n, cur, vis, _ => by
    simp only [Prog.down, Prog.trace, hb (cur ++ [k]) vis]
    exact ⟨trivial, by simp [Fate.leaks], [], by simp, by simp⟩
  | k :: k' :: p, u, n, cur, vis, _ => by
    obtain ⟨h1, h2, pre, h3, h4⟩ := Prog.down_trace hb (k' :: p) u n (cur ++ [k]) vis (by simp)
    have e : cur ++ [k] ++ k' :: p = cur ++ k :: k' :: p := by simp
    rw [e] at h2 h4
    simp only [Prog.down, Prog.trace, h1]
    refine ⟨trivial, by simpa [Fate.leaks] using h2, ⟨cur ++ [k], 0, false⟩ :: pre, ?_, ?_⟩
    · intro r hr
      rcases List.mem_cons.1 hr with rfl | hr
      · exact ⟨rfl, rfl⟩
      · exact h3 r hr
    · simp [h4]

theorem zeros_sizeAt {pre : List Rec} (h : ∀ r ∈ pre, r.size = 0 ∧ r.unique = false) (p : Path) : sizeAt pre p = 0 ∧ childrenAt pre p = 0 ∧ uniqueAt pre p = false := by
  refine ⟨sum_all_zero fun x hx => ?_, sum_all_zero fun x hx => ?_, ?_⟩
  · obtain ⟨r, hr, rfl⟩ := List.mem_map.1 hx
    simp [(h r hr).1]
  · obtain ⟨r, hr, rfl⟩ := List.mem_map.1 hx
    simp [(h r hr).1]
  · simp only [uniqueAt, List.any_eq_false, Bool.and_eq_true, not_and]
    intro r hr _
    simp [(h r hr).2]

/-- The text determines the self sizes of the run, if the names have no separators. -/
theorem selfSpec_of_observe {h1 h2 : List (Prog × Fate)} (hl1 : NoLeaks h1) (hl2 : NoLeaks h2) (hk1 : ∀ x ∈ h1, x.1.KeysAre fun k => k.Proper ∧ k.Plain)
    (hk2 : ∀ x ∈ h2, x.1.KeysAre fun k => k.Proper ∧ k.Plain) {o o' obs} (e1 : observe o o' h1 = .ok obs) (e2 : observe o o' h2 = .ok obs) (p : Path) :
    selfSpec (records h1) p = selfSpec (records h2) p := by
  obtain ⟨out1, ws1, r1, b1, s1, -⟩ := run_spec hl1 hk1 o
  obtain ⟨out2, ws2, r2, b2, s2, -⟩ := run_spec hl2 hk2 o
  simp only [observe, r1, Except.ok.injEq] at e1
  simp only [observe, r2, Except.ok.injEq] at e2
  have hw : out1.flamegraph.write o' = out2.flamegraph.write o' := by
    have := e1.trans e2.symm
    exact congrArg Obs.text this
  have inj := C03_text_injective _ _ b1 b2 o' o' hw
  by_cases hp : p = []
  · simp [selfSpec, hp]
  have get : ∀ {out : Builder.Output} {h : List (Prog × Fate)}, (∀ p, out.flamegraph.selfAt p = if p = [] ∨ entered (records h) p then some (selfSpec (records h) p) else none) →
      (out.flamegraph.selfAt p).getD 0 = selfSpec (records h) p := by
    intro out h s
    rw [s]
    split
    · rfl
    · rename_i h; rw [selfSpec_eq_zero (fun h' => h (.inr h'))]; rfl
  rw [← get s1, ← get s2]
  have := fun n hn => inj p n hp hn
  cases h1 : out1.flamegraph.selfAt p with
  | none =>
    cases h2 : out2.flamegraph.selfAt p with
    | none => rfl
    | some m =>
      by_cases hm : m = 0
      · rw [hm]; rfl
      · have := (this m hm).2 h2; rw [h1] at this; cases this
  | some n =>
    by_cases hn : n = 0
    · cases h2 : out2.flamegraph.selfAt p with
      | none => rw [hn]; rfl
      | some m =>
        by_cases hm : m = 0
        · rw [hn, hm]
        · have := (this m hm).2 h2; rw [h1] at this; cases this; exact absurd hn hm
    · rw [(this n hn).1 h1]

abbrev Key.Clean (k : Key) : Prop := k.Proper ∧ k.Plain

/-- What is observed after one more root that goes down to `p`. -/
theorem selfSpec_after {h1 h2 : List (Prog × Fate)} (hl1 : NoLeaks h1) (hk1 : ∀ x ∈ h1, x.1.KeysAre Key.Clean) (hk2 : ∀ x ∈ h2, x.1.KeysAre Key.Clean)
    (h : Indistinguishable Key.Clean h1 h2) {prog : Prog} (hk : prog.KeysAre Key.Clean) {more1 more2 : List Rec}
    (ht1 : (prog.trace [] (traceRoots h1 []).visited).recs = more1) (ht1' : (prog.trace [] (traceRoots h1 []).visited).leaked = 0)
    (ht2 : (prog.trace [] (traceRoots h2 []).visited).recs = more2) (q : Path) :
    selfSpec (records h1 ++ more1) q = selfSpec (records h2 ++ more2) q := by
  obtain ⟨a1, -, a3⟩ := traceRoots_append h1 [(prog, .exit)] []
  obtain ⟨b1, -, -⟩ := traceRoots_append h2 [(prog, .exit)] []
  obtain ⟨i1, i2⟩ := h [(prog, .exit)] (by simpa using hk)
  have hn : NoLeaks (h1 ++ [(prog, .exit)]) := by
    unfold NoLeaks at hl1 ⊢
    rw [a3, hl1]; simp [traceRoots, ht1', Fate.leaks]
  have hn2 := i1.1 hn
  obtain ⟨obs, e1, e2⟩ := i2 hn (HashOrder.id _) (HashOrder.id _) (HashOrder.id _) (HashOrder.id _)
  have app : ∀ {g : List (Prog × Fate)}, (∀ x ∈ g, x.1.KeysAre Key.Clean) → ∀ x ∈ g ++ [(prog, Fate.exit)], x.1.KeysAre Key.Clean := fun hg x hx => by
    rcases List.mem_append.1 hx with hx | hx
    · exact hg x hx
    · simp only [List.mem_singleton] at hx; subst hx; exact hk
  have := selfSpec_of_observe hn hn2 (app hk1) (app hk2) e1 e2 q
  simpa [records, a1, b1, traceRoots, ht1, ht2] using this

theorem sizes_of_indistinguishable {h1 h2 : List (Prog × Fate)} (hl1 : NoLeaks h1) (_ : NoLeaks h2) (hk1 : ∀ x ∈ h1, x.1.KeysAre Key.Clean) (hk2 : ∀ x ∈ h2, x.1.KeysAre Key.Clean)
    (h : Indistinguishable Key.Clean h1 h2) (p : Path) : sizeAt (records h1) p = sizeAt (records h2) p := by
  by_cases hp : entered (records h1) p ∨ entered (records h2) p
  · have hkeys : p ≠ [] ∧ ∀ k ∈ p, k.Clean := by
      rcases hp with ⟨r, hr, rfl⟩ | ⟨r, hr, rfl⟩
      · exact ⟨(records_closed h1).ne r hr, records_keys hk1 r hr⟩
      · exact ⟨(records_closed h2).ne r hr, records_keys hk2 r hr⟩
    have d := fun vis => Prog.down_trace (body := .done) (fun _ _ => rfl) p true 1 [] vis hkeys.1
    obtain ⟨-, l1, pre1, z1, t1⟩ := d (traceRoots h1 []).visited
    obtain ⟨-, -, pre2, z2, t2⟩ := d (traceRoots h2 []).visited
    have := selfSpec_after hl1 hk1 hk2 h (Prog.down_keys (body := .done) trivial p true 1 hkeys.2) t1 l1 t2 p
    simp only [selfSpec, if_neg hkeys.1, remAt, sizeAt_app, uniqueAt_app, List.nil_append, Prog.trace] at this
    have s : sizeAt [⟨p, 1, true⟩] p = 1 := by simp [sizeAt]
    have u : uniqueAt [⟨p, 1, true⟩] p = true := by simp [uniqueAt]
    have e1 : pre1 ++ [⟨p, 1, true⟩] = pre1 ++ [⟨p, 1, true⟩] := rfl
    simp only [sizeAt_app, uniqueAt_app, (zeros_sizeAt z1 p).1, (zeros_sizeAt z2 p).1, s, u, Bool.or_true, if_true] at this
    omega
  · have n1 : sizeAt (records h1) p = 0 := Decidable.byContradiction fun x => hp (.inl (entered_of_size x))
    have n2 : sizeAt (records h2) p = 0 := Decidable.byContradiction fun x => hp (.inr (entered_of_size x))
    rw [n1, n2]

theorem entered_of_unique {recs : List Rec} {p : Path} (h : uniqueAt recs p = true) : entered recs p := by
  simp only [uniqueAt, List.any_eq_true, Bool.and_eq_true, decide_eq_true_eq] at h
  obtain ⟨r, hr, e, -⟩ := h
  exact ⟨r, hr, e⟩

def cleanKey : Key := Key.new (ascii "x")
theorem cleanKey_clean : cleanKey.Clean := by
  refine ⟨rfl, ?_⟩
  unfold Key.Plain; decide

theorem unique_of_indistinguishable {h1 h2 : List (Prog × Fate)} (hl1 : NoLeaks h1) (hl2 : NoLeaks h2) (hk1 : ∀ x ∈ h1, x.1.KeysAre Key.Clean) (hk2 : ∀ x ∈ h2, x.1.KeysAre Key.Clean)
    (h : Indistinguishable Key.Clean h1 h2) (p : Path) (hu : uniqueAt (records h1) p = true) : uniqueAt (records h2) p = true := by
  refine Decidable.byContradiction fun hu2 => ?_
  have hu2 : uniqueAt (records h2) p = false := by simpa using hu2
  have hkeys : p ≠ [] ∧ ∀ k ∈ p, k.Clean := by
    obtain ⟨r, hr, rfl⟩ := entered_of_unique hu
    exact ⟨(records_closed h1).ne r hr, records_keys hk1 r hr⟩
  have hs := sizes_of_indistinguishable hl1 hl2 hk1 hk2 h p
  let m := sizeAt (records h1) p + 1
  let body : Prog := .enter cleanKey m .exit .done .done
  have d := fun vis => Prog.down_trace (body := body) (fun _ _ => rfl) p false 1 [] vis hkeys.1
  obtain ⟨-, l1, pre1, z1, t1⟩ := d (traceRoots h1 []).visited
  obtain ⟨-, -, pre2, z2, t2⟩ := d (traceRoots h2 []).visited
  have hkb : body.KeysAre Key.Clean := ⟨cleanKey_clean, trivial, trivial⟩
  have := selfSpec_after hl1 hk1 hk2 h (Prog.down_keys hkb p false 1 hkeys.2) t1 (l1.trans rfl) t2 p
  have hb : ∀ vis, (body.trace p vis).recs = [⟨p ++ [cleanKey], m, false⟩] := fun vis => rfl
  simp only [List.nil_append, hb] at this
  have s : sizeAt [⟨p, 1, false⟩, ⟨p ++ [cleanKey], m, false⟩] p = 1 := by simp [sizeAt]
  have c : childrenAt [⟨p, 1, false⟩, ⟨p ++ [cleanKey], m, false⟩] p = m := by
    have : isChild p p = false := by
      simp only [isChild, Bool.and_eq_false_iff, decide_eq_false_iff_not]
      right; intro e; have := congrArg List.length e; simp at this
      have := List.length_pos_iff.2 hkeys.1; omega
    have h2 : isChild p (p ++ [cleanKey]) = true := isChild_iff.2 ⟨_, rfl⟩
    simp [childrenAt, this, h2]
  have u : uniqueAt [⟨p, 1, false⟩, ⟨p ++ [cleanKey], m, false⟩] p = false := by simp [uniqueAt]
  simp only [selfSpec, if_neg hkeys.1, remAt, sizeAt_app, uniqueAt_app, childrenAt_app, (zeros_sizeAt z1 p).1, (zeros_sizeAt z2 p).1, (zeros_sizeAt z1 p).2.1, (zeros_sizeAt z2 p).2.1,
    (zeros_sizeAt z1 p).2.2, (zeros_sizeAt z2 p).2.2, s, c, u, hu, hu2, Bool.or_false, if_true, Bool.false_eq_true, if_false] at this
  simp only [m] at this
  omega

theorem seen_of_indistinguishable {h1 h2 : List (Prog × Fate)} (hl1 : NoLeaks h1) (hl2 : NoLeaks h2) (hk1 : ∀ x ∈ h1, x.1.KeysAre Key.Clean) (hk2 : ∀ x ∈ h2, x.1.KeysAre Key.Clean)
    (h : Indistinguishable Key.Clean h1 h2) (ptr : Ptr) (hs : sharedSeen h1 ptr) : sharedSeen h2 ptr := by
  refine Classical.byContradiction fun hs2 => ?_
  -- after a visit to the address that leaves a byte in it
  let prog : Prog := .enterShared cleanKey 0 ptr .exit (.enter cleanKey 1 .exit .done .done) .done .done
  have hkp : prog.KeysAre Key.Clean := ⟨cleanKey_clean, ⟨cleanKey_clean, trivial, trivial⟩, trivial, trivial⟩
  have t1 : (prog.trace [] (traceRoots h1 []).visited).recs = [⟨[cleanKey], 0, false⟩] ∧ (prog.trace [] (traceRoots h1 []).visited).leaked = 0 := by
    have : ptr ∈ (traceRoots h1 []).visited := hs
    simp [prog, Prog.trace, this]
  have t2 : (prog.trace [] (traceRoots h2 []).visited).recs = [⟨[cleanKey], 0, false⟩, ⟨[cleanKey], 1, false⟩] := by
    have : ptr ∉ (traceRoots h2 []).visited := hs2
    simp [prog, Prog.trace, this]
  have t2l : (prog.trace [] (traceRoots h2 []).visited).leaked = 0 := by
    have : ptr ∉ (traceRoots h2 []).visited := hs2
    simp [prog, Prog.trace, this, Fate.leaks]
  have hi : Indistinguishable Key.Clean (h1 ++ [(prog, .exit)]) (h2 ++ [(prog, .exit)]) := by
    intro g hg
    have := h ((prog, .exit) :: g) (by
      intro x hx
      rcases List.mem_cons.1 hx with rfl | hx
      · exact hkp
      · exact hg x hx)
    simpa using this
  obtain ⟨a1, -, a3⟩ := traceRoots_append h1 [(prog, .exit)] []
  obtain ⟨b1, -, b3⟩ := traceRoots_append h2 [(prog, .exit)] []
  have n1 : NoLeaks (h1 ++ [(prog, .exit)]) := by unfold NoLeaks at hl1 ⊢; rw [a3, hl1]; simp [traceRoots, t1.2, Fate.leaks]
  have n2 : NoLeaks (h2 ++ [(prog, .exit)]) := by unfold NoLeaks at hl2 ⊢; rw [b3, hl2]; simp [traceRoots, t2l, Fate.leaks]
  have app : ∀ {g : List (Prog × Fate)}, (∀ x ∈ g, x.1.KeysAre Key.Clean) → ∀ x ∈ g ++ [(prog, Fate.exit)], x.1.KeysAre Key.Clean := fun hg x hx => by
    rcases List.mem_append.1 hx with hx | hx
    · exact hg x hx
    · simp only [List.mem_singleton] at hx; subst hx; exact hkp
  have e := sizes_of_indistinguishable n1 n2 (app hk1) (app hk2) hi [cleanKey]
  have e0 := sizes_of_indistinguishable hl1 hl2 hk1 hk2 h [cleanKey]
  have r1 : records (h1 ++ [(prog, .exit)]) = records h1 ++ [⟨[cleanKey], 0, false⟩] := by simp [records, a1, traceRoots, t1.1]
  have r2 : records (h2 ++ [(prog, .exit)]) = records h2 ++ [⟨[cleanKey], 0, false⟩, ⟨[cleanKey], 1, false⟩] := by simp [records, b1, traceRoots, t2]
  rw [r1, r2, sizeAt_app, sizeAt_app, e0] at e
  simp [sizeAt] at e

theorem Prog.KeysAre.mono {Q Q' : Key → Prop} (hq : ∀ k, Q k → Q' k) {prog : Prog} (h : prog.KeysAre Q) : prog.KeysAre Q' := by
  induction prog with
  | done => trivial
  | panic => trivial
  | enter k n f body rest ih1 ih2 => exact ⟨hq _ h.1, ih1 h.2.1, ih2 h.2.2⟩
  | enterUnique k n f body rest ih1 ih2 => exact ⟨hq _ h.1, ih1 h.2.1, ih2 h.2.2⟩
  | enterShared k n ptr f body rs rn ih1 ih2 ih3 => exact ⟨hq _ h.1, ih1 h.2.1, ih2 h.2.2.1, ih3 h.2.2.2⟩
  | catchUnwind body rest ih1 ih2 => exact ⟨ih1 h.1, ih2 h.2⟩

/-- C72. And all of that is carried over: if two histories (with names without separators) differ in an address entered, in the bytes declared at some stack or in
a stack being unique, some further use of the builder shows the difference. -/
theorem C72_exactly (h1 h2 : List (Prog × Fate)) (hl1 : NoLeaks h1) (hl2 : NoLeaks h2) (hk1 : ∀ x ∈ h1, x.1.KeysAre fun k => k.Proper ∧ k.Plain)
    (hk2 : ∀ x ∈ h2, x.1.KeysAre fun k => k.Proper ∧ k.Plain) : Indistinguishable (fun k => k.Proper ∧ k.Plain) h1 h2 ↔ SameSoFar h1 h2 := by
  constructor
  · intro h
    have h' : Indistinguishable Key.Clean h2 h1 := fun g hg => by
      obtain ⟨i1, i2⟩ := h g hg
      refine ⟨i1.symm, fun hn o1 o1' o2 o2' => ?_⟩
      obtain ⟨obs, e1, e2⟩ := i2 (i1.2 hn) o2 o2' o1 o1'
      exact ⟨obs, e2, e1⟩
    refine ⟨fun ptr => ⟨seen_of_indistinguishable hl1 hl2 hk1 hk2 h ptr, seen_of_indistinguishable hl2 hl1 hk2 hk1 h' ptr⟩,
      sizes_of_indistinguishable hl1 hl2 hk1 hk2 h, fun p => ?_⟩
    have u1 := unique_of_indistinguishable hl1 hl2 hk1 hk2 h p
    have u2 := unique_of_indistinguishable hl2 hl1 hk2 hk1 h' p
    cases a : uniqueAt (records h1) p <;> cases b : uniqueAt (records h2) p <;> simp_all
  · intro h g hg
    have w : ∀ {l : List (Prog × Fate)}, (∀ x ∈ l, x.1.KeysAre fun k => k.Proper ∧ k.Plain) → ProperKeys l := fun hl x hx => (hl x hx).mono fun _ h => h.1
    exact C72_carried_over h1 h2 hl1 hl2 (w hk1) (w hk2) h g (w hg)

/-! The theorems of this file with a concrete case of their hypotheses. -/
namespace CarryOverExamples

/-- One visit; and the same bytes in several visits, one of which panics after it entered the same address. -/
def h1 : List (Prog × Fate) := [(.enter (Ex.k "a") 7 .exit (.enterShared (Ex.k "c") 8 42 .exit (.enterUnique (Ex.k "b") 5 .exit .done .done) .done .done) .done, .exit)]
def h2 : List (Prog × Fate) := [(.enter (Ex.k "a") 3 .drop (.enter (Ex.k "z") 0 .exit .done .done) .done, .exit),
  (.enter (Ex.k "a") 4 .exit (.enterShared (Ex.k "c") 8 42 .drop (.enterUnique (Ex.k "b") 5 .drop .panic .done) .done .done) .done, .drop),
  (.enter (Ex.k "a") 0 .exit (.enterShared (Ex.k "c") 0 42 .exit .panic .panic .done) .done, .exit)]

theorem clean (s : String) (h : (Ex.k s).Plain) : Key.Clean (Ex.k s) := ⟨rfl, h⟩
theorem h1_clean : ∀ x ∈ h1, x.1.KeysAre fun k => k.Proper ∧ k.Plain := by
  simp only [h1, List.mem_singleton, forall_eq]
  exact ⟨clean "a" (by unfold Key.Plain; decide), ⟨clean "c" (by unfold Key.Plain; decide), ⟨clean "b" (by unfold Key.Plain; decide), trivial, trivial⟩, trivial, trivial⟩, trivial⟩
theorem h2_clean : ∀ x ∈ h2, x.1.KeysAre fun k => k.Proper ∧ k.Plain := by
  intro x hx
  simp only [h2, List.mem_cons, List.not_mem_nil, or_false] at hx
  rcases hx with rfl | rfl | rfl
  · exact ⟨clean "a" (by unfold Key.Plain; decide), ⟨clean "z" (by unfold Key.Plain; decide), trivial, trivial⟩, trivial⟩
  · exact ⟨clean "a" (by unfold Key.Plain; decide), ⟨clean "c" (by unfold Key.Plain; decide), ⟨clean "b" (by unfold Key.Plain; decide), trivial, trivial⟩, trivial, trivial⟩, trivial⟩
  · exact ⟨clean "a" (by unfold Key.Plain; decide), ⟨clean "c" (by unfold Key.Plain; decide), trivial, trivial, trivial⟩, trivial⟩

theorem records_h1 : records h1 = [⟨[Ex.k "a"], 7, false⟩, ⟨[Ex.k "a", Ex.k "c"], 8, false⟩, ⟨[Ex.k "b"], 5, true⟩] := by decide
theorem records_h2 : records h2 = [⟨[Ex.k "a"], 3, false⟩, ⟨[Ex.k "a", Ex.k "z"], 0, false⟩, ⟨[Ex.k "a"], 4, false⟩, ⟨[Ex.k "a", Ex.k "c"], 8, false⟩, ⟨[Ex.k "b"], 5, true⟩,
    ⟨[Ex.k "a"], 0, false⟩, ⟨[Ex.k "a", Ex.k "c"], 0, false⟩] := by decide
theorem same : SameSoFar h1 h2 := by
  have v1 : (traceRoots h1 []).visited = [42] := by decide
  have v2 : (traceRoots h2 []).visited = [42] := by decide
  refine ⟨fun ptr => by simp only [sharedSeen, v1, v2], fun p => ?_, fun p => ?_⟩
  · rw [records_h1, records_h2]
    simp only [sizeAt, List.map_cons, List.map_nil, List.sum_cons, List.sum_nil]
    by_cases h : [Ex.k "a"] = p
    · subst h; simp; omega
    · simp [h]
  · rw [records_h1, records_h2]
    simp [uniqueAt]

example := C72_carried_over h1 h2 (by decide) (by decide) (fun x hx => (h1_clean x hx).mono fun _ h => h.1) (fun x hx => (h2_clean x hx).mono fun _ h => h.1) same
example := (C72_exactly h1 h2 (by decide) (by decide) h1_clean h2_clean).2 same
-- one root less is another state: the bytes of `a` differ
example : ¬ Indistinguishable (fun k => k.Proper ∧ k.Plain) h1 h2.tail := fun h => by
  have := ((C72_exactly h1 h2.tail (by decide) (by decide) h1_clean (fun x hx => h2_clean x (List.mem_of_mem_tail hx))).1 h).sizes [Ex.k "a"]
  revert this; decide
end CarryOverExamples

end Allocative
