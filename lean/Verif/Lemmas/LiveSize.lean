import Verif.Lemmas.Live
import Verif.Props.Data
set_option linter.unusedSimpArgs false
/-
Lemmas for C61: `size_of_unique_allocated_data` does not look behind shared pointers, so that what it computes for a live value is what it computes for something that can be
seen of the value.
-/
namespace Allocative

/-- How a visitor ends, if `drop` is `exit` (C15). -/
def Fate.ends : Fate → Fate
  | .drop => .exit
  | f => f

theorem ends_finishChild {kind : NodeKind} (f : Fate) (c : Ctl) (s : Nat) : SizeOf.visitorImpl.finishChild kind f.ends c s = SizeOf.visitorImpl.finishChild kind f c s := by
  cases f <;> cases c <;> cases kind <;> rfl

theorem ends_fate (e : Ending) : e.fate.ends = .exit := by cases e <;> rfl

/-- A visit with a visitor that declines all shared pointers. -/
def Prog.outside : Prog → Prog
  | .done => .done
  | .panic => .panic
  | .enter k n f b r => .enter k n f.ends b.outside r.outside
  | .enterUnique k n f b r => .enterUnique k n f.ends b.outside r.outside
  | .enterShared _ _ _ _ _ _ rn => rn.outside
  | .catchUnwind b r => .catchUnwind b.outside r.outside

theorem outside_seq (a b : Prog) : (a.seq b).outside = a.outside.seq b.outside := by
  induction a <;> simp_all [Prog.seq, Prog.outside]

theorem exec_outside (p : Prog) : ∀ kind s, exec SizeOf.visitorImpl p.outside kind s = exec SizeOf.visitorImpl p kind s := by
  induction p with
  | done => intros; rfl
  | panic => intros; rfl
  | enter k n f b r ih1 ih2 => intro kind s; simp only [Prog.outside, exec, ih1, ih2, ends_finishChild]
  | enterUnique k n f b r ih1 ih2 => intro kind s; simp only [Prog.outside, exec, ih1, ih2, ends_finishChild]
  | enterShared k n p f b r q ih1 ih2 ih3 => intro kind s; exact ih3 kind s
  | catchUnwind b r ih1 ih2 => intro kind s; simp only [Prog.outside, exec, ih1, ih2]

/-- The visit of an object, without what is behind shared pointers. -/
abbrev Obj.alone (o : Obj) : Prog := (o.visitWith fun _ => .done).outside

theorem alone_nowhere (o : Obj) : (o.fill nowhere).alone = o.alone := by
  induction o <;> simp_all [Obj.alone, Obj.fill, Obj.visitWith, Prog.outside, ends_fate]

/-- As `PlaceSpec`. -/
def PlaceOut (I : List Hold → Store → Prop) (ready : List Hold → Prop) (place : Ptr → Option (LProg → LProg)) (W : Ptr → Obj → Prop) : Prop := ∀ p G, place p = some G →
  (∃ X, W p X) ∧ ∀ hs rest q, ready hs → Resolves I (fun _ => False) hs (G rest) q → ∃ X r, W p X ∧ Resolves I (fun _ => False) hs rest r ∧ q.outside = X.alone.seq r.outside

variable {D : Prop} {I : List Hold → Store → Prop}

/-- What is known when the visit of a value begins. -/
def LiveDatum.Fresh (D : Prop) (v : LiveDatum) (hs : List Hold) : Prop := D → v.Clear hs ∧ v.Nested

theorem LiveDatum.Fresh.asks {v : LiveDatum} {hs : List Hold} {a : Ptr} {st : Store} (h : v.Fresh D hs) (ha : v.Has a) (ho : I hs st) : (looksOf D I).asks a st :=
  ⟨hs, ho, fun d how hm => (h d).1 how a hm ha⟩

theorem LiveDatum.Fresh.inside {shape kind addr content p k how hs} (h : (LiveDatum.live shape kind addr content).Fresh D hs) (hk : kind p = some k)
    (hh : k.how = some how) (x : Nat) : (content p x).Fresh D (.lock how (addr p) :: hs) := by
  intro d
  obtain ⟨h1, h2⟩ := h d
  refine ⟨?_, (h2.1 p k how hk hh x).2⟩
  intro how' a ha hx
  rcases List.mem_cons.1 ha with e | ha
  · cases e; exact (h2.1 p k how hk hh x).1 hx
  · exact h1 how' a ha (.inside hk hh hx)

theorem LiveDatum.Fresh.inShard {shape kind addr content p k q hs} (h : (LiveDatum.live shape kind addr content).Fresh D hs) (hk : kind p = some k)
    (hq : q ∈ k.shards) (x : Nat) : (content q x).Fresh D (.lock .read (addr q) :: hs) := by
  intro d
  obtain ⟨h1, h2⟩ := h d
  refine ⟨?_, (h2.2 p k q hk hq x).2⟩
  intro how' a ha hx
  rcases List.mem_cons.1 ha with e | ha
  · cases e; exact (h2.2 p k q hk hq x).1 hx
  · exact h1 how' a ha (.inShard hk hq hx)

theorem PlaceOut.exists {place : Ptr → Option (LProg → LProg)} {W : Ptr → Obj → Prop} {ready : List Hold → Prop} (hP : PlaceOut I ready place W) : ∃ g, Fills place W g := by
  have : ∀ p, ∃ o : Option Obj, match place p with
      | none => o = none
      | some _ => ∃ X, o = some X ∧ W p X := by
    intro p
    cases hp : place p with
    | none => exact ⟨none, rfl⟩
    | some G => obtain ⟨X, hX⟩ := (hP p G hp).1; exact ⟨some X, X, rfl, hX⟩
  exact ⟨fun p => (this p).choose, fun p => (this p).choose_spec⟩

theorem obj_out {cont : Ptr → LProg} {place : Ptr → Option (LProg → LProg)} {W : Ptr → Obj → Prop} {ready : List Hold → Prop} (hP : PlaceOut I ready place W) (hs : List Hold) (hready : ready hs) (o : Obj) :
    (o.ptrs.filter fun p => (place p).isSome).Nodup → ∀ q, Resolves I (fun _ => False) hs (o.visitLive cont place) q → ∃ g, Fills place W g ∧ q.outside = (o.fill g).alone := by
  induction o with
  | nil =>
    intro _ q hq
    obtain ⟨g, hg⟩ := hP.exists
    cases hq
    exact ⟨g, hg, rfl⟩
  | inline k n e i r ih1 ih2 =>
    intro hn q hq
    have hn' := hn
    simp only [Obj.ptrs, List.filter_append, List.nodup_append] at hn'
    cases hq with
    | enter _ _ _ hb hr =>
      obtain ⟨g1, a1, e1⟩ := ih1 hn'.1 _ hb
      obtain ⟨g2, a2, e2⟩ := ih2 hn'.2.1 _ hr
      obtain ⟨g, hg, f1, f2⟩ := fills_two a1 a2 i r hn
      exact ⟨g, hg, by simp only [Obj.fill, Obj.alone, Obj.visitWith, Prog.outside, f1, f2, e1, e2, ends_fate]⟩
  | unique k n e i r ih1 ih2 =>
    intro hn q hq
    have hn' := hn
    simp only [Obj.ptrs, List.filter_append, List.nodup_append] at hn'
    cases hq with
    | enterUnique _ _ _ hb hr =>
      obtain ⟨g1, a1, e1⟩ := ih1 hn'.1 _ hb
      obtain ⟨g2, a2, e2⟩ := ih2 hn'.2.1 _ hr
      obtain ⟨g, hg, f1, f2⟩ := fills_two a1 a2 i r hn
      exact ⟨g, hg, by simp only [Obj.fill, Obj.alone, Obj.visitWith, Prog.outside, f1, f2, e1, e2, ends_fate]⟩
  | shared k n p e r ih =>
    intro hn q hq
    have hn' : (r.ptrs.filter fun p => (place p).isSome).Nodup := by
      simp only [Obj.ptrs, List.filter_cons] at hn
      split at hn
      · exact (List.nodup_cons.1 hn).2
      · exact hn
    simp only [Obj.visitLive] at hq
    cases hp : place p with
    | some G =>
      simp only [hp] at hq
      obtain ⟨X, r', hX, hr, e1⟩ := (hP p G hp).2 hs _ q hready hq
      obtain ⟨g2, a2, e2⟩ := ih hn' r' hr
      have hnot : p ∉ r.ptrs := by
        intro hm
        simp only [Obj.ptrs, List.filter_cons, hp, Option.isSome_some, if_true] at hn
        exact (List.nodup_cons.1 hn).1 (by simp [List.mem_filter, hm, hp])
      have fr : r.fill (fun x => if x = p then some X else g2 x) = r.fill g2 := by
        refine fill_congr r fun x hx => ?_
        have : x ≠ p := fun h => hnot (h ▸ hx)
        simp only [this, if_false]
      refine ⟨fun x => if x = p then some X else g2 x, ?_, ?_⟩
      · intro x
        by_cases hx : x = p
        · subst hx; simp only [hp, if_true]; exact ⟨X, rfl, hX⟩
        · have := a2 x
          simp only [hx, if_false]
          exact this
      · simp only [Obj.fill, if_true, fr, Obj.alone, visitWith_append_live, outside_seq]
        rw [e1, e2]
    | none =>
      simp only [hp] at hq
      cases hq with
      | enterShared _ _ _ _ hb hr hs' =>
        obtain ⟨g, a, e'⟩ := ih hn' _ hs'
        refine ⟨g, a, ?_⟩
        have hg : g p = none := by have := a p; simp only [hp] at this; exact this
        simp only [Obj.fill, hg, Obj.alone, Obj.visitWith, Prog.outside, e']

variable {S : Ptr → Prop}

theorem shards_out [Target] {cont : Ptr → LProg} {addr : Ptr → Ptr} {content : Ptr → Nat → LiveDatum} {mk : Ptr → LImpl.Shard} {hs : List Hold} (d0 : Datum)
    (hmk : ∀ q, (mk q).lock = addr q ∧ (mk q).entries = .load (addr q) fun x => (content q x).shape.entriesVisit.visitLive cont ((content q x).places cont)) {rest : LProg} (l : List Ptr)
    (hl : ∀ q ∈ l, ∀ x, (content q x).OK S ∧ (content q x).shape.Table ∧
      PlaceOut I ((content q x).Fresh D) ((content q x).places cont) ((content q x).At (looksOf D I)) ∧ (content q x).Fresh D (.lock .read (addr q) :: hs)) : l.Nodup →
    ∀ b, Resolves I (fun _ => False) hs (LImpl.shards (l.map mk) rest) b →
    ∃ (y : Ptr → Nat) (es : Ptr → Datum) (r : Prog), (∀ q ∈ l, (∃ st, (looksOf D I).reads .read (addr q) st ∧ st.mem (addr q) = y q) ∧ (content q (y q)).Sees (looksOf D I) (es q)) ∧
      Resolves I (fun _ => False) hs rest r ∧ b.outside = (Obj.concat (l.map fun q => (es q).entriesVisit)).alone.seq r.outside := by
  induction l with
  | nil => intro _ b hb; exact ⟨fun _ => 0, fun _ => d0, b, by simp, hb, rfl⟩
  | cons q l ih =>
    intro hn b hb
    obtain ⟨hq, hn⟩ := List.nodup_cons.1 hn
    simp only [List.map_cons, LImpl.shards, (hmk q).1] at hb
    cases hb with
    | skipped _ _ _ _ _ hw _ => exact (hw rfl).elim
    | visited _ _ ho hgr hi hr =>
      rename_i i' r'
      have hi := resolves_seq_done (fun _ _ h => ahead_resolves _ h) _ hi
      rw [(hmk q).2] at hi
      cases hi with
      | @read _ _ _ stx _ hm hi =>
        obtain ⟨hok, hmap, hP, hrd⟩ := hl q (by simp) (stx.mem (addr q))
        obtain ⟨g, hg, e1⟩ := obj_out hP _ hrd _ (entries_nodup cont _ hok hmap) _ hi
        obtain ⟨d, hd, -, ed⟩ := sees_of_fills _ hg
        rw [← ed hmap, alone_nowhere] at e1
        obtain ⟨y, es, r, hy, hr', e2⟩ := ih (fun q hq => hl q (by simp [hq])) hn r' hr
        have hne : ∀ q' ∈ l, q' ≠ q := fun q' hq' e => hq (e ▸ hq')
        refine ⟨fun q' => if q' = q then stx.mem (addr q) else y q', fun q' => if q' = q then d else es q', r, ?_, hr', ?_⟩
        · intro q' hq'
          rcases List.mem_cons.1 hq' with e | hq'
          · subst e
            simp only [if_true]
            exact ⟨⟨stx, ⟨_, hm, by simp⟩, rfl⟩, hd⟩
          · simp only [hne q' hq', if_false]
            exact hy q' hq'
        · have el : (l.map fun q' => (if q' = q then d else es q').entriesVisit) = l.map fun q' => (es q').entriesVisit :=
            List.map_congr_left fun q' hq' => by simp only [hne q' hq', if_false]
          simp only [List.map_cons, if_true, el, Obj.concat, Obj.alone, visitWith_append_live, prog_seq_assoc, outside_seq, e1, e2]

theorem places_out [Target] {st : Store} (hL : (looksOf D I).Begins S st) {cont : Ptr → LProg} (v : LiveDatum) : v.OK S →
    PlaceOut I (v.Fresh D) (v.places cont) (v.At (looksOf D I)) ∧
    ∀ hs q, v.Fresh D hs → Resolves I (fun _ => False) hs (v.visit cont) q → ∃ d, v.Sees (looksOf D I) d ∧ q.outside = d.value.visit.alone := by
  have visitOf : ∀ v : LiveDatum, v.OK S → PlaceOut I (v.Fresh D) (v.places cont) (v.At (looksOf D I)) →
      ∀ hs q, v.Fresh D hs → Resolves I (fun _ => False) hs (v.visit cont) q → ∃ d, v.Sees (looksOf D I) d ∧ q.outside = d.value.visit.alone := by
    intro v hok hP hs q hready hq
    obtain ⟨g, hg, e⟩ := obj_out hP hs hready _ (places_nodup cont v hok) q hq
    obtain ⟨d, hd, ed, -⟩ := sees_of_fills v hg
    exact ⟨d, hd, by rw [e, ← fill_visit, ← ed, fill_visit, alone_nowhere]⟩
  induction v with
  | still d =>
    intro hok
    have hP : PlaceOut I ((LiveDatum.still d).Fresh D) ((LiveDatum.still d).places cont) ((LiveDatum.still d).At (looksOf D I)) := by intro p G h; cases h
    exact ⟨hP, visitOf _ hok hP⟩
  | live shape kind addr content ih =>
    intro hok
    have hP : PlaceOut I ((LiveDatum.live shape kind addr content).Fresh D) ((LiveDatum.live shape kind addr content).places cont)
        ((LiveDatum.live shape kind addr content).At (looksOf D I)) := by
      intro p G hG
      let m0 : DashSeen := ⟨fun _ => 0, fun _ => 0, fun _ => 0, fun _ => shape⟩
      have hnil : ∀ k, kind p = some k → (∃ st, (looksOf D I).asksFor (addr p) k st ∧ k.answer (addr p) st = false) →
          LiveDatum.At (looksOf D I) (.live shape kind addr content) p .nil := by
        intro k hk ha
        cases k with
        | dashMap => obtain ⟨_, _, h⟩ := ha; cases h
        | dashSet => obtain ⟨_, _, h⟩ := ha; cases h
        | _ => exact ⟨_, false, 0, shape, m0, fun _ => 0, hk, ha, (by simp), (fun q hq => by cases hq), (fun q hq => by cases hq), rfl⟩
      simp only [LiveDatum.places] at hG
      cases hk : kind p with
      | none => rw [hk] at hG; cases hG
      | some k =>
        refine ⟨at_exists hL hok hk, ?_⟩
        intro hs rest q hready hq
        rw [hk] at hG
        cases k with
        | cell how =>
          simp only [Option.some.injEq] at hG
          subst hG
          cases hq with
          | skipped _ _ _ ho hg _ hr => exact ⟨.nil, q, hnil _ hk ⟨_, hready.asks (.here hk rfl rfl) ho, hg⟩, hr, rfl⟩
          | visited _ _ ho hgr hi hr =>
            rename_i i' r'
            cases hi with
            | @read _ _ _ stx _ hm hi =>
              cases hi with
              | enter _ _ _ hb hd =>
                rename_i b' _
                cases hd
                obtain ⟨d, hs', e⟩ := (ih p _ (hok.2.2.2 p _)).2 _ b' (hready.inside hk rfl _) hb
                refine ⟨_, r', ⟨.cell how, true, stx.mem (addr p), d, m0, fun _ => 0, hk, ⟨_, hready.asks (.here hk rfl rfl) ho, hgr⟩,
                  fun how' hw _ => (by cases hw; exact ⟨⟨stx, ⟨_, hm, by simp⟩, rfl⟩, hs'⟩), (fun q hq => by cases hq), (fun q hq => by cases hq), rfl⟩, hr, ?_⟩
                rw [outside_seq, alone_nowhere]
                simp only [PlaceKind.obj, if_true, Visit.field, Visit.fieldWith, Visit.enter, Obj.alone, Obj.visitWith, Prog.outside, e, sees_sizeOfVal hs', Ending.fate]
        | once =>
          simp only [Option.some.injEq] at hG
          subst hG
          cases hq with
          | skipped _ _ _ ho hg _ hr => exact ⟨.nil, q, hnil _ hk ⟨_, hready.asks (.here hk rfl rfl) ho, hg⟩, hr, rfl⟩
          | visited _ _ ho hgr hi hr =>
            rename_i i' r'
            cases hi with
            | @read _ _ _ stx _ hm hi =>
              obtain ⟨d, hs', e⟩ := (ih p _ (hok.2.2.2 p _)).2 _ _ (hready.inside hk rfl _) hi
              refine ⟨_, r', ⟨.once, true, stx.mem (addr p), d, m0, fun _ => 0, hk, ⟨_, hready.asks (.here hk rfl rfl) ho, hgr⟩,
                  fun how' hw _ => (by cases hw; exact ⟨⟨stx, ⟨_, hm, by simp⟩, rfl⟩, hs'⟩), (fun q hq => by cases hq), (fun q hq => by cases hq), rfl⟩, hr, ?_⟩
              rw [outside_seq, alone_nowhere]
              simp only [PlaceKind.obj, if_true, e]
        | weak strong ptrSize target =>
          simp only [Option.some.injEq] at hG
          subst hG
          cases hq with
          | dead _ _ ho hg hr => exact ⟨.nil, q, hnil _ hk ⟨_, ⟨_, ho⟩, hg⟩, hr, rfl⟩
          | alive _ ho hgr hi hr =>
            rename_i i' r'
            have hP0 : PlaceOut I (fun _ => True) (fun _ => none) (fun _ _ => False) := by intro p G h; cases h
            obtain ⟨g, hg, e⟩ := obj_out hP0 _ trivial _ (by rw [List.filter_eq_nil_iff.2 (by simp)]; exact List.nodup_nil) _ hi
            have hg' : g = fun _ => none := by funext p; exact hg p
            subst hg'
            rw [alone_nowhere] at e
            refine ⟨_, r', ⟨.weak strong ptrSize target, true, 0, shape, m0, fun _ => 0, hk, ⟨_, ⟨_, ho⟩, hgr⟩, fun _ hw => (by cases hw), (fun q hq => by cases hq), (fun q hq => by cases hq), rfl⟩, hr, ?_⟩
            rw [outside_seq, alone_nowhere]
            simp only [PlaceKind.obj, if_true, e]
        | dashMap K V KV shards capacity len bytes =>
          simp only [Option.some.injEq] at hG
          subst hG
          have hkok := hok.2.2.1 p _ hk
          have hkok' := hkok
          obtain ⟨hnd, -, hsz, hsh⟩ := hkok'
          cases hq with
          | enterUnique _ _ _ hb hr =>
            rename_i b' r'
            obtain ⟨w1, hw1, hb1⟩ := sum_resolves (addr := addr) (num := capacity) (fun _ => rfl) shards 0 hnd (by intro w; have := (hsz w).1; omega) _ hb
            rw [Nat.zero_add] at hb1
            clear hb
            cases hb1 with
            | enter _ _ _ hb2 hd =>
              cases hd
              obtain ⟨y, es, r, hy, hr2, e⟩ := shards_out (D := D) (S := S) (cont := cont) (addr := addr) (hs := hs) (content := content)
                (mk := fun q => { lock := addr q, capacity := ⟨addr q, capacity q⟩, len := ⟨addr q, len q⟩, entries := .load (addr q) fun x => (content q x).shape.entriesVisit.visitLive cont ((content q x).places cont) })
                shape (fun _ => ⟨rfl, rfl⟩) shards (by
                  intro q hq x
                  obtain ⟨-, self, table, keys, values, e, -⟩ := (hsh q hq).2 x
                  exact ⟨hok.2.2.2 q x, .inl ⟨self, table, keys, values, e⟩, (ih q x (hok.2.2.2 q x)).1, hready.inShard hk hq x⟩) hnd _ hb2
              obtain ⟨w2, hw2, hr2⟩ := sum_resolves (addr := addr) (num := capacity) (fun _ => rfl) shards 0 hnd (by intro w; have := (hsz w).1; omega) _ hr2
              obtain ⟨w3, hw3, hr2⟩ := sum_resolves (addr := addr) (num := len) (fun _ => rfl) shards 0 hnd (by intro w; have := (hsz w).2.1; omega) _ hr2
              simp only [Nat.zero_add] at hr2
              cases hr2 with
              | enter _ _ _ hb' hd' =>
                cases hb'
                cases hd'
                have hx : ∀ {q : Ptr} {w : Nat}, (∃ st, I hs st ∧ st.mem (addr q) = w) → ∃ st, (looksOf D I).moment st ∧ st.mem (addr q) = w := fun ⟨st, h, e⟩ => ⟨st, ⟨hs, h⟩, e⟩
                refine ⟨_, r', ⟨.dashMap K V KV shards capacity len bytes, true, 0, shape, ⟨w1, w2, w3, es⟩, y, hk, ⟨st, hL.moment, rfl⟩, fun _ hw => (by cases hw),
                  fun q hq => ⟨hx (hw1 q hq), hx (hw2 q hq), hx (hw3 q hq), (hy q hq).1⟩, fun q hq => (hy q hq).2, rfl⟩, hr, ?_⟩
                have hce := concat_entries (es := es) (l := shards) (by
                  intro q hq
                  obtain ⟨self, table, keys, values, e, -⟩ := shard_entries hkok hq (hy q hq).2
                  have hw := sees_WF (hy q hq).2 (hok.2.2.2 _ _)
                  rw [e] at hw
                  exact ⟨self, table, keys, values, e, hw.1⟩)
                rw [alone_nowhere]
                simp only [PlaceKind.obj, hce, Visit.enterUnique, Visit.enter, Visit.simple, Obj.alone, Obj.visitWith, Prog.seq, Prog.outside, visitWith_append_live, outside_seq, Ending.fate, e]
        | dashSet T shards capacity len bytes =>
          simp only [Option.some.injEq] at hG
          subst hG
          have hkok := hok.2.2.1 p _ hk
          have hkok' := hkok
          obtain ⟨hnd, hsz, hsh⟩ := hkok'
          cases hq with
          | enterUnique _ _ _ hb hr =>
            rename_i b' r'
            obtain ⟨w1, hw1, hb1⟩ := sum_resolves (addr := addr) (num := capacity) (fun _ => rfl) shards 0 hnd (by intro w; have := (hsz w).1; omega) _ hb
            rw [Nat.zero_add] at hb1
            clear hb
            cases hb1 with
            | enter _ _ _ hb2 hd =>
              cases hd
              obtain ⟨y, es, r, hy, hr2, e⟩ := shards_out (D := D) (S := S) (cont := cont) (addr := addr) (hs := hs) (content := content)
                (mk := fun q => { lock := addr q, capacity := ⟨addr q, capacity q⟩, len := ⟨addr q, len q⟩, entries := .load (addr q) fun x => (content q x).shape.entriesVisit.visitLive cont ((content q x).places cont) })
                shape (fun _ => ⟨rfl, rfl⟩) shards (by
                  intro q hq x
                  obtain ⟨-, self, table, items, e, -⟩ := (hsh q hq).2 x
                  exact ⟨hok.2.2.2 q x, .inr ⟨self, table, items, e⟩, (ih q x (hok.2.2.2 q x)).1, hready.inShard hk hq x⟩) hnd _ hb2
              obtain ⟨w2, hw2, hr2⟩ := sum_resolves (addr := addr) (num := capacity) (fun _ => rfl) shards 0 hnd (by intro w; have := (hsz w).1; omega) _ hr2
              obtain ⟨w3, hw3, hr2⟩ := sum_resolves (addr := addr) (num := len) (fun _ => rfl) shards 0 hnd (by intro w; have := (hsz w).2.1; omega) _ hr2
              simp only [Nat.zero_add] at hr2
              cases hr2 with
              | enter _ _ _ hb' hd' =>
                cases hb'
                cases hd'
                have hx : ∀ {q : Ptr} {w : Nat}, (∃ st, I hs st ∧ st.mem (addr q) = w) → ∃ st, (looksOf D I).moment st ∧ st.mem (addr q) = w := fun ⟨st, h, e⟩ => ⟨st, ⟨hs, h⟩, e⟩
                refine ⟨_, r', ⟨.dashSet T shards capacity len bytes, true, 0, shape, ⟨w1, w2, w3, es⟩, y, hk, ⟨st, hL.moment, rfl⟩, fun _ hw => (by cases hw),
                  fun q hq => ⟨hx (hw1 q hq), hx (hw2 q hq), hx (hw3 q hq), (hy q hq).1⟩, fun q hq => (hy q hq).2, rfl⟩, hr, ?_⟩
                have hce := concat_items (es := es) (l := shards) (by
                  intro q hq
                  obtain ⟨self, table, items, e, -⟩ := shard_items hkok hq (hy q hq).2
                  exact ⟨self, table, items, e⟩)
                rw [alone_nowhere]
                simp only [PlaceKind.obj, hce, Visit.enterUnique, Visit.enter, Visit.simple, Obj.alone, Obj.visitWith, Prog.seq, Prog.outside, visitWith_append_live, outside_seq, Ending.fate, Fate.ends, e]
    exact ⟨hP, visitOf _ hok hP⟩

end Allocative
