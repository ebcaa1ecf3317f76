import Verif.Spec.Depth
import Verif.Lemmas.Events
import Verif.Lemmas.Object
/-
Depth of recursion of visits and of `finish`.
-/
set_option linter.unusedSimpArgs false
namespace Allocative

/-! ### The log of a program -/

/-- The log of a program at a stack, with these addresses visited before. -/
def Prog.logAt : Prog → Path → List Ptr → List Event
  | .done, _, _ => []
  | .panic, _, _ => []
  | .enter k n f body rest, cur, vis =>
    let t := body.trace (cur ++ [k]) vis
    .inline k n :: body.logAt (cur ++ [k]) vis ++ tailOf f t.ctl .inline ++
      match t.ctl with | .unwinding => [] | .returned => rest.logAt cur t.visited
  | .enterUnique k n f body rest, cur, vis =>
    let t := body.trace (cur ++ [k]) vis
    .unique k n :: body.logAt (cur ++ [k]) vis ++ tailOf f t.ctl .unique ++
      match t.ctl with | .unwinding => [] | .returned => rest.logAt cur t.visited
  | .enterShared k n ptr f body rs rn, cur, vis =>
    if ptr ∈ vis then .shared k n ptr false :: rn.logAt cur vis else
    let t := body.trace [] (ptr :: vis)
    .shared k n ptr true :: body.logAt [] (ptr :: vis) ++ tailOf f t.ctl .shared ++
      match t.ctl with | .unwinding => [] | .returned => rs.logAt cur t.visited
  | .catchUnwind body rest, cur, vis => body.logAt cur vis ++ rest.logAt cur (body.trace cur vis).visited

theorem exec_logAt (prog : Prog) : ∀ (kind : NodeKind) (b : Builder) (n : Nat) (cur : Path) (evs : List Event), Live b (n + 1) →
    ∃ b', exec Builder.visitorImpl.logged prog kind (b, evs) =
        .ok ((b', evs ++ prog.logAt cur b.visitedShared), (prog.trace cur b.visitedShared).ctl) ∧
      Live b' (n + 1 + (prog.trace cur b.visitedShared).leaked) ∧
      b'.visitedShared = (prog.trace cur b.visitedShared).visited := by
  induction prog with
  | done => intro kind b n cur evs h; exact ⟨b, by simp [exec, Prog.trace, Prog.logAt], h, rfl⟩
  | panic => intro kind b n cur evs h; exact ⟨b, by simp [exec, Prog.trace, Prog.logAt], h, rfl⟩
  | enter k sz f body rest ih1 ih2 =>
    intro kind b n cur evs h
    obtain ⟨b1, e1, h1, v1, _⟩ := h.enter k sz false id (by simp)
    obtain ⟨b2, e2, h2, v2⟩ := ih1 .inline b1 (n + 1) (cur ++ [k]) (evs ++ [.inline k sz]) h1
    rw [v1] at e2 h2 v2
    obtain ⟨b3, e3, h3, v3⟩ := Live.finishChild (n := n + (body.trace (cur ++ [k]) b.visitedShared).leaked)
      (by have : n + 1 + 1 + (body.trace (cur ++ [k]) b.visitedShared).leaked =
            n + (body.trace (cur ++ [k]) b.visitedShared).leaked + 2 := by omega
          rw [← this]; exact h2) .inline f (body.trace (cur ++ [k]) b.visitedShared).ctl
    simp only [exec, logged_inline, vi_inline, Builder.enterInlineImpl, e1, e2, logged_finishChild, e3, Prog.trace, Prog.logAt]
    cases hc : (body.trace (cur ++ [k]) b.visitedShared).ctl with
    | unwinding =>
      simp only [hc] at h3
      exact ⟨b3, by simp [tailOf], by simpa [Nat.add_assoc, Nat.add_comm, Nat.add_left_comm] using h3, by rw [v3, v2]⟩
    | returned =>
      simp only [hc] at h3
      obtain ⟨b4, e4, h4, v4⟩ := ih2 kind b3 (n + (body.trace (cur ++ [k]) b.visitedShared).leaked + f.leaks .returned) cur
        (evs ++ ((.inline k sz :: body.logAt (cur ++ [k]) b.visitedShared) ++ tailOf f .returned .inline))
        (by rw [show n + (body.trace (cur ++ [k]) b.visitedShared).leaked + f.leaks .returned + 1 =
              n + (body.trace (cur ++ [k]) b.visitedShared).leaked + 1 + f.leaks .returned by omega]; exact h3)
      rw [v3, v2] at e4 h4 v4
      exact ⟨b4, by simpa [tailOf] using e4, by simpa [Nat.add_assoc, Nat.add_comm, Nat.add_left_comm] using h4, v4⟩
  | enterUnique k sz f body rest ih1 ih2 =>
    intro kind b n cur evs h
    obtain ⟨b1, e1, h1, v1, _⟩ := h.enter k sz true (fun d => { d with unique := true }) (by simp)
    obtain ⟨b2, e2, h2, v2⟩ := ih1 .unique b1 (n + 1) (cur ++ [k]) (evs ++ [.unique k sz]) h1
    rw [v1] at e2 h2 v2
    obtain ⟨b3, e3, h3, v3⟩ := Live.finishChild (n := n + (body.trace (cur ++ [k]) b.visitedShared).leaked)
      (by have : n + 1 + 1 + (body.trace (cur ++ [k]) b.visitedShared).leaked =
            n + (body.trace (cur ++ [k]) b.visitedShared).leaked + 2 := by omega
          rw [← this]; exact h2) .unique f (body.trace (cur ++ [k]) b.visitedShared).ctl
    simp only [exec, logged_unique, vi_unique, Builder.enterUniqueImpl, e1, e2, logged_finishChild, e3, Prog.trace, Prog.logAt]
    cases hc : (body.trace (cur ++ [k]) b.visitedShared).ctl with
    | unwinding =>
      simp only [hc] at h3
      exact ⟨b3, by simp [tailOf], by simpa [Nat.add_assoc, Nat.add_comm, Nat.add_left_comm] using h3, by rw [v3, v2]⟩
    | returned =>
      simp only [hc] at h3
      obtain ⟨b4, e4, h4, v4⟩ := ih2 kind b3 (n + (body.trace (cur ++ [k]) b.visitedShared).leaked + f.leaks .returned) cur
        (evs ++ ((.unique k sz :: body.logAt (cur ++ [k]) b.visitedShared) ++ tailOf f .returned .unique))
        (by rw [show n + (body.trace (cur ++ [k]) b.visitedShared).leaked + f.leaks .returned + 1 =
              n + (body.trace (cur ++ [k]) b.visitedShared).leaked + 1 + f.leaks .returned by omega]; exact h3)
      rw [v3, v2] at e4 h4 v4
      exact ⟨b4, by simpa [tailOf] using e4, by simpa [Nat.add_assoc, Nat.add_comm, Nat.add_left_comm] using h4, v4⟩
  | enterShared k sz ptr f body rs rn ih1 ih2 ih3 =>
    intro kind b n cur evs h
    obtain ⟨b1, e1, h1, v1, hne1, hsh1⟩ := h.enter k sz false id (by simp)
    simp only [exec, logged_shared, vi_shared, Builder.enterSharedImpl, e1, v1, Prog.trace, Prog.logAt]
    by_cases hv : ptr ∈ b.visitedShared
    · simp only [if_pos hv]
      obtain ⟨b2, e2, h2, v2⟩ := h1.exit
      simp only [e2]
      obtain ⟨b4, e4, h4, v4⟩ := ih3 kind b2 n cur (evs ++ [.shared k sz ptr false]) h2
      rw [v2, v1] at e4 h4 v4
      exact ⟨b4, by simpa using e4, h4, v4⟩
    · simp only [if_neg hv]
      have hlive : Live { b1 with
          visitedShared := ptr :: b.visitedShared
          shared := b1.current :: b1.shared
          current := { stack := [], tree := b1.root } } (n + 2) := by
        obtain ⟨⟨recs, paths, hrep, ⟨p, hst⟩, hsh⟩, hroot, hent, hdepth⟩ := h1
        refine ⟨⟨recs, paths, hrep, ⟨[], .nil (by rw [hroot]; exact hrep.root)⟩, ?_⟩, hroot, hent, ?_⟩
        · intro st hm
          rcases List.mem_cons.1 hm with rfl | hm
          · exact ⟨hne1, p, hst⟩
          · exact hsh st hm
        · simp only [Builder.depth, List.length_nil, List.map_cons, List.sum_cons] at hdepth ⊢; omega
      obtain ⟨b2, e2, h2, v2⟩ := ih1 .shared _ (n + 1) [] (evs ++ [.shared k sz ptr true]) hlive
      simp only at e2 h2 v2
      obtain ⟨b3, e3, h3, v3⟩ := Live.finishChild (n := n + (body.trace [] (ptr :: b.visitedShared)).leaked)
        (by have : n + 1 + 1 + (body.trace [] (ptr :: b.visitedShared)).leaked =
              n + (body.trace [] (ptr :: b.visitedShared)).leaked + 2 := by omega
            rw [← this]; exact h2) .shared f (body.trace [] (ptr :: b.visitedShared)).ctl
      simp only [e2, logged_finishChild, e3]
      cases hc : (body.trace [] (ptr :: b.visitedShared)).ctl with
      | unwinding =>
        simp only [hc] at h3
        exact ⟨b3, by simp [tailOf], by simpa [Nat.add_assoc, Nat.add_comm, Nat.add_left_comm] using h3, by rw [v3, v2]⟩
      | returned =>
        simp only [hc] at h3
        obtain ⟨b4, e4, h4, v4⟩ := ih2 kind b3 (n + (body.trace [] (ptr :: b.visitedShared)).leaked + f.leaks .returned) cur
          (evs ++ ((.shared k sz ptr true :: body.logAt [] (ptr :: b.visitedShared)) ++ tailOf f .returned .shared))
          (by rw [show n + (body.trace [] (ptr :: b.visitedShared)).leaked + f.leaks .returned + 1 =
                n + (body.trace [] (ptr :: b.visitedShared)).leaked + 1 + f.leaks .returned by omega]; exact h3)
        rw [v3, v2] at e4 h4 v4
        exact ⟨b4, by simpa [tailOf] using e4, by simpa [Nat.add_assoc, Nat.add_comm, Nat.add_left_comm] using h4, v4⟩
  | catchUnwind body rest ih1 ih2 =>
    intro kind b n cur evs h
    obtain ⟨b1, e1, h1, v1⟩ := ih1 kind b n cur evs h
    obtain ⟨b2, e2, h2, v2⟩ := ih2 kind b1 (n + (body.trace cur b.visitedShared).leaked) cur (evs ++ body.logAt cur b.visitedShared)
      (by rw [show n + (body.trace cur b.visitedShared).leaked + 1 = n + 1 + (body.trace cur b.visitedShared).leaked by omega]
          exact h1)
    rw [v1] at e2 h2 v2
    exact ⟨b2, by simp only [exec, e1, e2, Prog.trace, Prog.logAt, List.append_assoc],
      by simpa [Prog.trace, Nat.add_assoc, Nat.add_comm, Nat.add_left_comm] using h2, v2⟩

/-- The log of a history. -/
def logRoots : List (Prog × Fate) → List Ptr → List Event
  | [], _ => []
  | (prog, fate) :: rest, vis =>
    .root :: prog.logAt [] vis ++ tailOf fate (prog.trace [] vis).ctl .root ++ logRoots rest (prog.trace [] vis).visited

theorem useRootsLogged_log {hist : List (Prog × Fate)} : ∀ {b recs paths} (evs : List Event), Idle b recs paths →
    (traceRoots hist b.visitedShared).leaked = 0 →
    ∃ b', b.useRootsLogged evs hist = .ok (b', evs ++ logRoots hist b.visitedShared) := by
  induction hist with
  | nil => intro b recs paths evs _ _; exact ⟨b, by simp [Builder.useRootsLogged, logRoots]⟩
  | cons x rest ih =>
    intro b recs paths evs h hl
    obtain ⟨prog, fate⟩ := x
    simp only [traceRoots] at hl
    have h0 : Live { b with enteredRootVisitor := true } (0 + 1) := by
      refine ⟨⟨recs, paths, h.rep, ⟨[], ?_⟩, ?_⟩, h.root, rfl, ?_⟩
      · simp only [h.current]; exact .nil h.rep.root
      · simp [h.shared]
      · simp [Builder.depth, h.current, h.shared]
    obtain ⟨b2, e2, h2, v2⟩ := exec_logAt prog .root _ 0 [] (evs ++ [.root]) h0
    simp only at e2 h2 v2
    obtain ⟨b3, e3, v3⟩ := Live.fate_root (n := (prog.trace [] b.visitedShared).leaked)
      (by rw [show (prog.trace [] b.visitedShared).leaked + 1 = 0 + 1 + (prog.trace [] b.visitedShared).leaked by omega]; exact h2)
      fate (prog.trace [] b.visitedShared).ctl
    have e1 : b.useRootLogged evs prog fate = .ok (b3, evs ++ (.root :: prog.logAt [] b.visitedShared ++
        tailOf fate (prog.trace [] b.visitedShared).ctl .root)) := by
      simp only [Builder.useRootLogged, Builder.rootVisitor, h.notEntered, Bool.false_eq_true, ↓reduceIte, e2, logged_finishChild, e3]
      simp [tailOf]
    obtain ⟨b4, paths4, e4, i4, v4⟩ := h.useRoot (prog := prog) (fate := fate) (by omega) (by omega)
    have : b4 = b3 := by
      have := useRootLogged_erase b evs prog fate
      rw [e1, e4] at this; simpa using this.symm
    subst this
    obtain ⟨b5, e5⟩ := ih (evs ++ (.root :: prog.logAt [] b.visitedShared ++
        tailOf fate (prog.trace [] b.visitedShared).ctl .root)) i4 (by rw [v4]; omega)
    refine ⟨b5, ?_⟩
    simp only [Builder.useRootsLogged, e1, e5, logRoots, v4, List.append_assoc]

/-! ### Peaks -/

/-- Live visitors after a log. -/
def liveVisitors (d : Nat) (es : List Event) : Nat := es.foldl (fun d e => e.live d) d

theorem peakLive_append (a b : List Event) : ∀ d, peakLive d (a ++ b) = max (peakLive d a) (peakLive (liveVisitors d a) b) := by
  induction a with
  | nil =>
    intro d
    have : ∀ (l : List Event), d ≤ peakLive d l := by intro l; cases l <;> simp [peakLive]; omega
    have := this b
    simp only [List.nil_append, peakLive, liveVisitors, List.foldl_nil]; omega
  | cons e a ih => intro d; simp only [List.cons_append, peakLive, ih, liveVisitors, List.foldl_cons]; omega

theorem le_peakLive (d : Nat) (l : List Event) : d ≤ peakLive d l := by cases l <;> simp [peakLive]; omega

theorem liveVisitors_append (a b : List Event) (d : Nat) : liveVisitors d (a ++ b) = liveVisitors (liveVisitors d a) b := by
  simp [liveVisitors]

/-- What the visit of an object at `d` live visitors needs. -/
structure Deep (heap : Heap) (o : Obj) (vis : List Ptr) (log : List Event) : Prop where
  back : ∀ d, liveVisitors d log = d
  peak : ∃ chain, heap.Chain o chain ∧ chain.Nodup ∧ (∀ p ∈ chain, p ∉ vis) ∧
    ∀ d, peakLive d log ≤ d + o.height + (chain.map fun p => (heap p).height).sum

theorem Ending.tail (e : Ending) (kind : NodeKind) : tailOf e.fate .returned kind = [.exit kind] := by cases e <;> rfl

theorem Deep.child {heap : Heap} {o : Obj} {vis log} (ev : Event) (kind : NodeKind) (h : Deep heap o vis log) (hc : ev.creates = true) :
    (∀ d, liveVisitors d (ev :: log ++ [.exit kind]) = d) ∧
    ∀ d, peakLive d (ev :: log ++ [.exit kind]) = peakLive (d + 1) log := by
  have h1 : ∀ d, ev.live d = d + 1 := by intro d; simp [Event.live, hc]
  have h2 : ∀ d, (Event.exit kind).live (d + 1) = d := by intro d; simp [Event.live, Event.creates, Event.ends]
  constructor
  · intro d
    rw [liveVisitors_append]
    have : liveVisitors d (ev :: log) = d + 1 := by simp only [liveVisitors, List.foldl_cons, h1]; exact h.back _
    rw [this]; simp only [liveVisitors, List.foldl_cons, List.foldl_nil, h2]
  · intro d
    rw [peakLive_append]
    have : liveVisitors d (ev :: log) = d + 1 := by simp only [liveVisitors, List.foldl_cons, h1]; exact h.back _
    rw [this]
    simp only [peakLive, h1, h2]
    have := le_peakLive (d + 1) log
    omega

theorem Chain.mono {heap : Heap} {o o' : Obj} (h : ∀ p ∈ o.ptrs, p ∈ o'.ptrs) {chain : List Ptr} (hc : heap.Chain o chain) : heap.Chain o' chain := by
  cases chain with
  | nil => trivial
  | cons p chain => exact ⟨h p hc.1, hc.2⟩

theorem visitWith_deep (heap : Heap) (L : List Ptr)
    (fuel : Nat) (content : Ptr → Prog)
    (hc : ∀ p vis, p ∈ L → p ∉ vis → unvisited L vis ≤ fuel →
      Traversed heap L (heap p).ptrs ((heap p).own []) (p :: vis) ((content p).trace [] (p :: vis)))
    (hd : ∀ p vis, p ∈ L → p ∉ vis → unvisited L vis ≤ fuel → Deep heap (heap p) (p :: vis) ((content p).logAt [] (p :: vis))) :
    ∀ (o : Obj) cur vis, (∀ p ∈ o.ptrs, p ∈ L) → unvisited L vis ≤ fuel →
      Deep heap o vis ((o.visitWith content).logAt cur vis) := by
  intro o
  induction o with
  | nil => intro cur vis _ _; exact ⟨fun _ => rfl, [], trivial, .nil, by simp, by intro d; simp [Obj.visitWith, Prog.logAt, peakLive]⟩
  | inline k n e inside rest ih1 ih2 =>
    intro cur vis hp hf
    obtain ⟨c1, l1, new1, v1, nd1, s1, p1, cl1, r1⟩ := visitWith_traversed heap L fuel content hc inside (cur ++ [k]) vis
      (fun p h => hp p (by simp [Obj.ptrs, h])) hf
    have d1 := ih1 (cur ++ [k]) vis (fun p h => hp p (by simp [Obj.ptrs, h])) hf
    have d2 := ih2 cur (new1 ++ vis) (fun p h => hp p (by simp [Obj.ptrs, h])) (Nat.le_trans (unvisited_append _ _ _) hf)
    simp only [Obj.visitWith, Prog.logAt, c1, v1, Ending.tail]
    obtain ⟨b1, q1⟩ := d1.child (.inline k n) .inline rfl
    refine ⟨fun d => by rw [liveVisitors_append, b1, d2.back], ?_⟩
    obtain ⟨ch1, hch1, hn1, hv1, hp1⟩ := d1.peak
    obtain ⟨ch2, hch2, hn2, hv2, hp2⟩ := d2.peak
    have hb : ∀ d, peakLive d (.inline k n :: (inside.visitWith content).logAt (cur ++ [k]) vis ++ [.exit .inline] ++
        (rest.visitWith content).logAt cur (new1 ++ vis)) ≤
        d + max (1 + inside.height + (ch1.map fun p => (heap p).height).sum) (rest.height + (ch2.map fun p => (heap p).height).sum) := by
      intro d
      rw [peakLive_append, b1, q1]
      have := hp1 (d + 1)
      have := hp2 d
      omega
    by_cases hle : rest.height + (ch2.map fun p => (heap p).height).sum ≤ 1 + inside.height + (ch1.map fun p => (heap p).height).sum
    · refine ⟨ch1, Chain.mono (by intro p h; simp [Obj.ptrs, h]) hch1, hn1, hv1, fun d => ?_⟩
      have := hb d
      simp only [Obj.height]; omega
    · refine ⟨ch2, Chain.mono (by intro p h; simp [Obj.ptrs, h]) hch2, hn2, fun p h hv => hv2 p h (by simp [hv]), fun d => ?_⟩
      have := hb d
      simp only [Obj.height]; omega
  | unique k n e inside rest ih1 ih2 =>
    intro cur vis hp hf
    obtain ⟨c1, l1, new1, v1, nd1, s1, p1, cl1, r1⟩ := visitWith_traversed heap L fuel content hc inside (cur ++ [k]) vis
      (fun p h => hp p (by simp [Obj.ptrs, h])) hf
    have d1 := ih1 (cur ++ [k]) vis (fun p h => hp p (by simp [Obj.ptrs, h])) hf
    have d2 := ih2 cur (new1 ++ vis) (fun p h => hp p (by simp [Obj.ptrs, h])) (Nat.le_trans (unvisited_append _ _ _) hf)
    simp only [Obj.visitWith, Prog.logAt, c1, v1, Ending.tail]
    obtain ⟨b1, q1⟩ := d1.child (.unique k n) .unique rfl
    refine ⟨fun d => by rw [liveVisitors_append, b1, d2.back], ?_⟩
    obtain ⟨ch1, hch1, hn1, hv1, hp1⟩ := d1.peak
    obtain ⟨ch2, hch2, hn2, hv2, hp2⟩ := d2.peak
    have hb : ∀ d, peakLive d (.unique k n :: (inside.visitWith content).logAt (cur ++ [k]) vis ++ [.exit .unique] ++
        (rest.visitWith content).logAt cur (new1 ++ vis)) ≤
        d + max (1 + inside.height + (ch1.map fun p => (heap p).height).sum) (rest.height + (ch2.map fun p => (heap p).height).sum) := by
      intro d
      rw [peakLive_append, b1, q1]
      have := hp1 (d + 1)
      have := hp2 d
      omega
    by_cases hle : rest.height + (ch2.map fun p => (heap p).height).sum ≤ 1 + inside.height + (ch1.map fun p => (heap p).height).sum
    · refine ⟨ch1, Chain.mono (by intro p h; simp [Obj.ptrs, h]) hch1, hn1, hv1, fun d => ?_⟩
      have := hb d
      simp only [Obj.height]; omega
    · refine ⟨ch2, Chain.mono (by intro p h; simp [Obj.ptrs, h]) hch2, hn2, fun p h hv => hv2 p h (by simp [hv]), fun d => ?_⟩
      have := hb d
      simp only [Obj.height]; omega
  | shared k n p e rest ih =>
    intro cur vis hp hf
    have hpL : p ∈ L := hp p (by simp [Obj.ptrs])
    by_cases hv : p ∈ vis
    · have d2 := ih cur vis (fun p h => hp p (by simp [Obj.ptrs, h])) hf
      simp only [Obj.visitWith, Prog.logAt, if_pos hv]
      obtain ⟨ch2, hch2, hn2, hv2, hp2⟩ := d2.peak
      have h1 : ∀ d, (Event.shared k n p false).live d = d := by intro d; simp [Event.live, Event.creates, Event.ends]
      refine ⟨fun d => by simp only [liveVisitors, List.foldl_cons, h1]; exact d2.back d, ch2,
        Chain.mono (by intro q h; simp [Obj.ptrs, h]) hch2, hn2, hv2, fun d => ?_⟩
      have := hp2 d
      have := le_peakLive d ((rest.visitWith content).logAt cur vis)
      simp only [peakLive, h1, Obj.height]; omega
    · obtain ⟨c1, l1, new1, v1, nd1, s1, p1, cl1, r1⟩ := hc p vis hpL hv hf
      have d1 := hd p vis hpL hv hf
      have d2 := ih cur (new1 ++ p :: vis) (fun p h => hp p (by simp [Obj.ptrs, h])) (by
          have h1 := unvisited_append L new1 (p :: vis)
          have h2 := unvisited_cons hpL hv
          omega)
      simp only [Obj.visitWith, Prog.logAt, if_neg hv, c1, v1, Ending.tail]
      obtain ⟨b1, q1⟩ := d1.child (.shared k n p true) .shared rfl
      refine ⟨fun d => by rw [liveVisitors_append, b1, d2.back], ?_⟩
      obtain ⟨ch1, hch1, hn1, hv1, hp1⟩ := d1.peak
      obtain ⟨ch2, hch2, hn2, hv2, hp2⟩ := d2.peak
      have hb : ∀ d, peakLive d (.shared k n p true :: (content p).logAt [] (p :: vis) ++ [.exit .shared] ++
          (rest.visitWith content).logAt cur (new1 ++ p :: vis)) ≤
          d + max (1 + (heap p).height + (ch1.map fun p => (heap p).height).sum) (rest.height + (ch2.map fun p => (heap p).height).sum) := by
        intro d
        rw [peakLive_append, b1, q1]
        have := hp1 (d + 1)
        have := hp2 d
        omega
      by_cases hle : rest.height + (ch2.map fun p => (heap p).height).sum ≤ 1 + (heap p).height + (ch1.map fun p => (heap p).height).sum
      · refine ⟨p :: ch1, ⟨by simp [Obj.ptrs], hch1⟩, ?_, ?_, fun d => ?_⟩
        · exact List.nodup_cons.2 ⟨fun h => hv1 p h (by simp), hn1⟩
        · intro q h hq
          rcases List.mem_cons.1 h with rfl | h
          · exact hv hq
          · exact hv1 q h (by simp [hq])
        · have := hb d
          simp only [Obj.height, List.map_cons, List.sum_cons]; omega
      · refine ⟨ch2, Chain.mono (by intro p h; simp [Obj.ptrs, h]) hch2, hn2, fun p h hv => hv2 p h (by simp [hv]), fun d => ?_⟩
        have := hb d
        simp only [Obj.height]; omega

theorem visit_deep (heap : Heap) (L : List Ptr) (hclosed : ∀ p ∈ L, ∀ q ∈ (heap p).ptrs, q ∈ L) :
    ∀ (fuel : Nat) (o : Obj) cur vis, (∀ p ∈ o.ptrs, p ∈ L) → unvisited L vis ≤ fuel →
      Deep heap o vis ((heap.visit fuel o).logAt cur vis) := by
  intro fuel
  induction fuel with
  | zero =>
    intro o cur vis hp hf
    refine visitWith_deep heap L 0 _ ?_ ?_ o cur vis hp hf <;>
    · intro p vis hpL hv hf
      have := unvisited_cons hpL hv
      omega
  | succ fuel ih =>
    intro o cur vis hp hf
    refine visitWith_deep heap L (fuel + 1) _ ?_ ?_ o cur vis hp hf
    · intro p vis hpL hv hf
      have := unvisited_cons hpL hv
      exact visit_traversed heap L hclosed fuel (heap p) [] (p :: vis) (hclosed p hpL) (by omega)
    · intro p vis hpL hv hf
      have := unvisited_cons hpL hv
      exact ih (heap p) [] (p :: vis) (hclosed p hpL) (by omega)

theorem visits_deep (heap : Heap) (L : List Ptr) (hclosed : ∀ p ∈ L, ∀ q ∈ (heap p).ptrs, q ∈ L) (fuel : Nat) :
    ∀ (roots : List Obj) vis, (∀ o ∈ roots, ∀ p ∈ o.ptrs, p ∈ L) → unvisited L vis ≤ fuel → roots ≠ [] →
      liveVisitors 0 (logRoots (visits heap fuel roots) vis) = 0 ∧
      ∃ o ∈ roots, ∃ chain, heap.Chain o chain ∧ chain.Nodup ∧
        peakLive 0 (logRoots (visits heap fuel roots) vis) ≤ 1 + o.height + (chain.map fun p => (heap p).height).sum := by
  intro roots
  induction roots with
  | nil => intro vis _ _ h; exact absurd rfl h
  | cons o roots ih =>
    intro vis hp hf _
    obtain ⟨c1, l1, new1, v1, nd1, s1, p1, cl1, r1⟩ := visit_traversed heap L hclosed fuel o [] vis (hp o (by simp)) hf
    have d1 := visit_deep heap L hclosed fuel o [] vis (hp o (by simp)) hf
    obtain ⟨b1, q1⟩ := d1.child .root .root rfl
    obtain ⟨ch1, hch1, hn1, hv1, hp1⟩ := d1.peak
    have hlog : logRoots (visits heap fuel (o :: roots)) vis =
        .root :: (heap.visit fuel o).logAt [] vis ++ [.exit .root] ++ logRoots (visits heap fuel roots) (new1 ++ vis) := by
      rw [show visits heap fuel (o :: roots) = (heap.visit fuel o, .exit) :: visits heap fuel roots from rfl]
      simp only [logRoots, c1, v1]; rfl
    have hpk := hp1 (0 + 1)
    rw [hlog, liveVisitors_append, b1, peakLive_append, b1, q1]
    cases roots with
    | nil =>
      refine ⟨rfl, o, by simp, ch1, hch1, hn1, ?_⟩
      simp only [visits, List.map_nil, logRoots, peakLive]; omega
    | cons o' roots =>
      obtain ⟨h1, o2, ho2, ch2, hch2, hn2, hp2⟩ := ih (new1 ++ vis) (fun o ho => hp o (by simp [ho]))
        (Nat.le_trans (unvisited_append _ _ _) hf) (by simp)
      refine ⟨h1, ?_⟩
      by_cases hle : 1 + o2.height + (ch2.map fun p => (heap p).height).sum ≤ 1 + o.height + (ch1.map fun p => (heap p).height).sum
      · exact ⟨o, by simp, ch1, hch1, hn1, by omega⟩
      · exact ⟨o2, by simp [ho2], ch2, hch2, hn2, by omega⟩

/-! ### Lengths of stacks -/

theorem Obj.own_pathLength (o : Obj) : ∀ cur, ∀ r ∈ o.own cur, r.path.length ≤ cur.length + o.height := by
  induction o with
  | nil => intro cur r hr; simp [Obj.own] at hr
  | inline k n e inside rest ih1 ih2 =>
    intro cur r hr
    simp only [Obj.own, List.cons_append, List.mem_cons, List.mem_append] at hr
    simp only [Obj.height]
    rcases hr with rfl | hr | hr
    · simp; omega
    · have := ih1 _ r hr; simp at this; omega
    · have := ih2 _ r hr; omega
  | unique k n e inside rest ih1 ih2 =>
    intro cur r hr
    simp only [Obj.own, List.cons_append, List.mem_cons, List.mem_append] at hr
    simp only [Obj.height]
    rcases hr with rfl | hr | hr
    · simp; omega
    · have := ih1 _ r hr; simp at this; omega
    · have := ih2 _ r hr; omega
  | shared k n p e rest ih =>
    intro cur r hr
    simp only [Obj.own, List.mem_cons] at hr
    simp only [Obj.height]
    rcases hr with rfl | hr
    · simp; omega
    · have := ih _ r hr; omega

theorem Obj.own_height (o : Obj) : ∀ cur, o.height ≠ 0 → ∃ r ∈ o.own cur, r.path.length = cur.length + o.height := by
  induction o with
  | nil => intro cur h; exact absurd rfl h
  | inline k n e inside rest ih1 ih2 =>
    intro cur _
    simp only [Obj.own, Obj.height]
    by_cases hle : rest.height ≤ 1 + inside.height
    · by_cases hi : inside.height = 0
      · exact ⟨_, List.mem_append_left _ (List.mem_cons_self ..), by simp; omega⟩
      · obtain ⟨r, hr, e⟩ := ih1 (cur ++ [k]) hi
        exact ⟨r, by simp [hr], by rw [e]; simp; omega⟩
    · obtain ⟨r, hr, e⟩ := ih2 cur (by omega)
      exact ⟨r, by simp [hr], by rw [e]; omega⟩
  | unique k n e inside rest ih1 ih2 =>
    intro cur _
    simp only [Obj.own, Obj.height]
    by_cases hle : rest.height ≤ 1 + inside.height
    · by_cases hi : inside.height = 0
      · exact ⟨_, List.mem_append_left _ (List.mem_cons_self ..), by simp; omega⟩
      · obtain ⟨r, hr, e⟩ := ih1 (cur ++ [k]) hi
        exact ⟨r, by simp [hr], by rw [e]; simp; omega⟩
    · obtain ⟨r, hr, e⟩ := ih2 cur (by omega)
      exact ⟨r, by simp [hr], by rw [e]; omega⟩
  | shared k n p e rest ih =>
    intro cur _
    simp only [Obj.own, Obj.height]
    by_cases hle : rest.height ≤ 1
    · exact ⟨_, List.mem_cons_self .., by simp; omega⟩
    · obtain ⟨r, hr, e⟩ := ih cur (by omega)
      exact ⟨r, by simp [hr], by rw [e]; omega⟩

theorem le_longestStack {recs : List Rec} {r : Rec} (h : r ∈ recs) : r.path.length ≤ longestStack recs := by
  induction recs with
  | nil => simp at h
  | cons x recs ih =>
    simp only [longestStack, List.foldr_cons]
    rcases List.mem_cons.1 h with rfl | h
    · omega
    · have := ih h; simp only [longestStack] at this; omega

theorem longestStack_attained {recs : List Rec} (h : longestStack recs ≠ 0) : ∃ r ∈ recs, r.path.length = longestStack recs := by
  induction recs with
  | nil => exact absurd rfl h
  | cons x recs ih =>
    simp only [longestStack, List.foldr_cons] at h ⊢
    by_cases hle : recs.foldr (fun r n => max r.path.length n) 0 ≤ x.path.length
    · exact ⟨x, by simp, by omega⟩
    · obtain ⟨r, hr, e⟩ := ih (by simp only [longestStack]; omega)
      exact ⟨r, by simp [hr], by rw [e]; simp only [longestStack]; omega⟩

/-! ### Recursion of `finish` -/

theorem foldlM_shrink {α β : Type} {f g : β → α → Except Panic β} {P : β → Prop} : ∀ (l : List α) (s : β), P s →
    (∀ a ∈ l, ∀ s, P s → (g s a = f s a ∨ g s a = .error .outOfFuel) ∧ ∃ s', f s a = .ok s' ∧ P s') →
    l.foldlM g s = l.foldlM f s ∧ (∀ a ∈ l, ∃ s, P s ∧ g s a = f s a) ∨
    l.foldlM g s = .error .outOfFuel ∧ ∃ a ∈ l, ∃ s, P s ∧ g s a = .error .outOfFuel := by
  intro l
  induction l with
  | nil => intro s _ _; exact .inl ⟨rfl, by simp⟩
  | cons a l ih =>
    intro s hs h
    obtain ⟨h1, s', e, hs'⟩ := h a (by simp) s hs
    rcases h1 with h1 | h1
    · rcases ih s' hs' (fun a ha => h a (by simp [ha])) with ⟨h2, h3⟩ | ⟨h2, a', ha', h3⟩
      · left
        refine ⟨by rw [List.foldlM_cons, List.foldlM_cons, h1, e]; exact h2, ?_⟩
        intro a' ha'
        rcases List.mem_cons.1 ha' with rfl | ha'
        · exact ⟨s, hs, h1⟩
        · exact h3 a' ha'
      · right
        exact ⟨by rw [List.foldlM_cons, h1, e]; exact h2, a', by simp [ha'], h3⟩
    · exact .inr ⟨by rw [List.foldlM_cons, h1]; rfl, a, by simp, s, hs, h1⟩

/-- Everything below the node at stack `p` is at most `fuel - 1` deeper. -/
def Shallow (paths : List Path) (p : Path) (fuel : Nat) : Prop := ∀ q, p ++ q ∈ paths → q.length < fuel

theorem Rep.updateSizes_shrink {recs paths} (ord : HashOrder TreeId) : ∀ (fuel big : Nat) (trees : Trees) (i : Nat) (p : Path),
    Rep trees recs paths → paths[i]? = some p → trees.length - i ≤ big →
    (Shallow paths p fuel → Builder.updateSizes ord fuel i trees = Builder.updateSizes ord big i trees) ∧
    (¬ Shallow paths p fuel → Builder.updateSizes ord fuel i trees = .error .outOfFuel) := by
  intro fuel
  induction fuel with
  | zero =>
    intro big trees i p h hp hb
    refine ⟨fun hs => ?_, fun _ => rfl⟩
    have := hs [] (by simpa using List.mem_of_getElem? hp)
    omega
  | succ fuel ih =>
    intro big trees i p h hp hb
    have hil := (List.getElem?_eq_some_iff.1 hp).1
    rw [h.len] at hil
    obtain ⟨big, rfl⟩ : ∃ m, big = m + 1 := ⟨big - 1, by omega⟩
    obtain ⟨d, hd⟩ := h.get hp
    have hch : ∀ c ∈ ord.run i (d.children.map Prod.snd), i < c ∧ ∃ k, paths[c]? = some (p ++ [k]) := by
      intro c hc
      obtain ⟨⟨k, c'⟩, hm, rfl⟩ := List.mem_map.1 ((ord.perm _ _).mem_iff.1 hc)
      exact ⟨h.lt hd hm, k, (h.child hp hd).1 hm⟩
    have hlen : ∀ {tr : Trees}, Rep tr recs paths → tr.length = trees.length := fun htr => by rw [← htr.len, ← h.len]
    have hfold := foldlM_shrink (f := fun trees child => Builder.updateSizes ord big child trees)
      (g := fun trees child => Builder.updateSizes ord fuel child trees) (P := fun tr => Rep tr recs paths)
      (ord.run i (d.children.map Prod.snd)) trees h (by
        intro c hc tr htr
        obtain ⟨hic, k, hk⟩ := hch c hc
        have hb' : tr.length - c ≤ big := by rw [hlen htr]; omega
        obtain ⟨ha, hb⟩ := ih big tr c (p ++ [k]) htr hk hb'
        constructor
        · by_cases hs : Shallow paths (p ++ [k]) fuel
          · exact .inl (ha hs)
          · exact .inr (hb hs)
        · obtain ⟨tr', e, hr, _⟩ := Rep.updateSizes ord big tr c (p ++ [k]) htr hk hb'
          exact ⟨tr', e, hr⟩)
    have hmain : (Builder.updateSizes ord (fuel + 1) i trees = Builder.updateSizes ord (big + 1) i trees ∧
        Shallow paths p (fuel + 1)) ∨
        (Builder.updateSizes ord (fuel + 1) i trees = .error .outOfFuel ∧ ¬ Shallow paths p (fuel + 1)) := by
      rcases hfold with ⟨e, hall⟩ | ⟨e, c, hc, tr, htr, hce⟩
      · left
        refine ⟨by simp only [Builder.updateSizes, Trees.index, hd, e], ?_⟩
        intro q hq
        cases q with
        | nil => simp
        | cons k q =>
          have hkm : p ++ [k] ∈ paths := Rep.prefix_mem h.toRepCore (p ++ [k]) q (by simpa [List.append_assoc] using hq)
          obtain ⟨c, hcp⟩ := List.mem_iff_getElem?.1 hkm
          have hcm : c ∈ ord.run i (d.children.map Prod.snd) :=
            (ord.perm _ _).mem_iff.2 (List.mem_map.2 ⟨(k, c), (h.child hp hd).2 hcp, rfl⟩)
          obtain ⟨tr, htr, heq⟩ := hall c hcm
          have hb' : tr.length - c ≤ big := by have := (hch c hcm).1; rw [hlen htr]; omega
          obtain ⟨tr', e', _⟩ := Rep.updateSizes ord big tr c (p ++ [k]) htr hcp hb'
          simp only [e'] at heq
          have hs : Shallow paths (p ++ [k]) fuel := Classical.byContradiction fun hs => by
            rw [(ih big tr c (p ++ [k]) htr hcp hb').2 hs] at heq; cases heq
          have := hs q (by simpa [List.append_assoc] using hq)
          simp only [List.length_cons]; omega
      · right
        refine ⟨by simp only [Builder.updateSizes, Trees.index, hd, e], ?_⟩
        intro hs
        obtain ⟨hic, k, hk⟩ := hch c hc
        have hb' : tr.length - c ≤ big := by rw [hlen htr]; omega
        have hs' : Shallow paths (p ++ [k]) fuel := by
          intro q hq
          have := hs (k :: q) (by simpa [List.append_assoc] using hq)
          simp only [List.length_cons] at this; omega
        rw [(ih big tr c (p ++ [k]) htr hk hb').1 hs'] at hce
        obtain ⟨tr', e', _⟩ := Rep.updateSizes ord big tr c (p ++ [k]) htr hk hb'
        rw [e'] at hce; cases hce
    rcases hmain with ⟨h1, h2⟩ | ⟨h1, h2⟩
    · exact ⟨fun _ => h1, fun hn => absurd h2 hn⟩
    · exact ⟨fun hn => absurd hn h2, fun _ => h1⟩

theorem Rep.genWrite_shrink {trees recs paths} (own : TreeData → Nat) (warn : TreeData → List Str → Str)
    (ord : HashOrder TreeId) (h : Rep trees recs paths) : ∀ (fuel big : Nat) (i : Nat) (p : Path),
    paths[i]? = some p → trees.length - i ≤ big →
    (∀ (j : Nat) q, paths[j]? = some q → ∀ big, trees.length - j ≤ big → ∃ r, Allocative.genWrite own warn ord trees big j q.names = .ok r) →
    (Shallow paths p fuel → Allocative.genWrite own warn ord trees fuel i p.names = Allocative.genWrite own warn ord trees big i p.names) ∧
    (¬ Shallow paths p fuel → Allocative.genWrite own warn ord trees fuel i p.names = .error .outOfFuel) := by
  intro fuel
  induction fuel with
  | zero =>
    intro big i p hp hb _
    refine ⟨fun hs => ?_, fun _ => rfl⟩
    have := hs [] (by simpa using List.mem_of_getElem? hp)
    omega
  | succ fuel ih =>
    intro big i p hp hb hok
    have hil := (List.getElem?_eq_some_iff.1 hp).1
    rw [h.len] at hil
    obtain ⟨big, rfl⟩ : ∃ m, big = m + 1 := ⟨big - 1, by omega⟩
    obtain ⟨d, hd⟩ := h.get hp
    have hperm : (sortByKey (ord.run i d.children)).Perm d.children := (sortByKey_perm _).trans (ord.perm _ _)
    have hch : ∀ kc ∈ sortByKey (ord.run i d.children), i < kc.2 ∧ paths[kc.2]? = some (p ++ [kc.1]) := by
      rintro ⟨k, c⟩ hm
      have hm := hperm.mem_iff.1 hm
      exact ⟨h.lt hd hm, (h.child hp hd).1 hm⟩
    have hnames : ∀ k : Key, p.names ++ [k.deref] = Path.names (p ++ [k]) := by intro k; simp [Path.names, Key.deref]
    have hfold := foldlM_shrink
      (f := fun (acc : FlameGraph × Str) (kc : Key × TreeId) =>
          match Allocative.genWrite own warn ord trees big kc.2 (p.names ++ [kc.1.deref]) with
          | .error e => .error e
          | .ok (child, w) => .ok (acc.1.addChild kc.1 child, acc.2 ++ w))
      (g := fun (acc : FlameGraph × Str) (kc : Key × TreeId) =>
          match Allocative.genWrite own warn ord trees fuel kc.2 (p.names ++ [kc.1.deref]) with
          | .error e => .error e
          | .ok (child, w) => .ok (acc.1.addChild kc.1 child, acc.2 ++ w)) (P := fun _ => True)
      (sortByKey (ord.run i d.children)) (.mk [] 0 (if p.names = [] then 0 else own d), warn d p.names) trivial (by
        intro kc hc acc _
        obtain ⟨hic, hk⟩ := hch kc hc
        have hb' : trees.length - kc.2 ≤ big := by omega
        obtain ⟨ha, hb⟩ := ih big kc.2 (p ++ [kc.1]) hk hb' hok
        simp only [hnames]
        constructor
        · by_cases hs : Shallow paths (p ++ [kc.1]) fuel
          · left; rw [ha hs]
          · right; rw [hb hs]
        · obtain ⟨r, e⟩ := hok kc.2 _ hk big hb'
          rw [e]; exact ⟨_, rfl, trivial⟩)
    have hmain : (Allocative.genWrite own warn ord trees (fuel + 1) i p.names = Allocative.genWrite own warn ord trees (big + 1) i p.names ∧
        Shallow paths p (fuel + 1)) ∨
        (Allocative.genWrite own warn ord trees (fuel + 1) i p.names = .error .outOfFuel ∧ ¬ Shallow paths p (fuel + 1)) := by
      rcases hfold with ⟨e, hall⟩ | ⟨e, c, hc, acc, _, hce⟩
      · left
        refine ⟨by simp only [Allocative.genWrite, Trees.index, hd]; exact e, ?_⟩
        intro q hq
        cases q with
        | nil => simp
        | cons k q =>
          have hkm : p ++ [k] ∈ paths := Rep.prefix_mem h.toRepCore (p ++ [k]) q (by simpa [List.append_assoc] using hq)
          obtain ⟨c, hcp⟩ := List.mem_iff_getElem?.1 hkm
          have hcm : (k, c) ∈ sortByKey (ord.run i d.children) := hperm.mem_iff.2 ((h.child hp hd).2 hcp)
          obtain ⟨acc, _, heq⟩ := hall _ hcm
          have hb' : trees.length - c ≤ big := by have := (hch _ hcm).1; simp only at this; omega
          obtain ⟨r, e'⟩ := hok c _ hcp big hb'
          have hs : Shallow paths (p ++ [k]) fuel := Classical.byContradiction fun hs => by
            simp only [hnames] at heq
            rw [(ih big c (p ++ [k]) hcp hb' hok).2 hs, e'] at heq; cases heq
          have := hs q (by simpa [List.append_assoc] using hq)
          simp only [List.length_cons]; omega
      · right
        refine ⟨by simp only [Allocative.genWrite, Trees.index, hd]; exact e, ?_⟩
        intro hs
        obtain ⟨hic, hk⟩ := hch c hc
        have hb' : trees.length - c.2 ≤ big := by omega
        have hs' : Shallow paths (p ++ [c.1]) fuel := by
          intro q hq
          have := hs (c.1 :: q) (by simpa [List.append_assoc] using hq)
          simp only [List.length_cons] at this; omega
        obtain ⟨r, e'⟩ := hok c.2 _ hk big hb'
        simp only [hnames] at hce
        rw [(ih big c.2 (p ++ [c.1]) hk hb' hok).1 hs', e'] at hce
        cases hce
    rcases hmain with ⟨h1, h2⟩ | ⟨h1, h2⟩
    · exact ⟨fun _ => h1, fun hn => absurd h2 hn⟩
    · exact ⟨fun hn => absurd hn h2, fun _ => h1⟩

end Allocative
