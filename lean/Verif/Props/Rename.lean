import Verif.Spec.Rename
import Verif.Model.SizeOf
import Verif.Props.Core
import Verif.Props.Objects
import Verif.Props.Report
import Verif.Lemmas.Rename
set_option linter.unusedSimpArgs false
/-
C63: the addresses themselves do not matter, only which of them are equal.
-/
namespace Allocative

/-- The builder that has seen the moved addresses. -/
def Builder.moved (f : Ptr → Ptr) (b : Builder) : Builder := { b with visitedShared := b.visitedShared.map f }

theorem Builder.moved_downAndAdd (f : Ptr → Ptr) (b : Builder) (k n g) :
    (b.moved f).downAndAdd k n g = (b.downAndAdd k n g).map (·.moved f) := by
  simp only [Builder.downAndAdd, Builder.moved]
  split
  · rfl
  · split <;> rfl

theorem Builder.moved_exitImpl (f : Ptr → Ptr) (b : Builder) : (b.moved f).exitImpl = b.exitImpl.map (·.moved f) := by
  obtain ⟨vs, trees, ⟨stack, tree⟩, shared, root, e⟩ := b
  cases e with
  | false => rfl
  | true =>
    cases stack with
    | cons => rfl
    | nil =>
      cases shared with
      | nil => rfl
      | cons st shared =>
        obtain ⟨stack, tree⟩ := st
        cases stack <;> rfl

theorem Builder.downAndAdd_visited {b b' : Builder} {k n g} (h : b.downAndAdd k n g = .ok b') : b'.visitedShared = b.visitedShared := by
  simp only [Builder.downAndAdd] at h
  split at h
  · cases h
  · split at h
    · cases h
    · cases h; rfl

theorem Builder.exitImpl_visited {b b' : Builder} (h : b.exitImpl = .ok b') : b'.visitedShared = b.visitedShared := by
  simp only [Builder.exitImpl] at h
  split at h
  · cases h
  · split at h
    · cases h; rfl
    · split at h
      · split at h
        · cases h; rfl
        · cases h
      · cases h; rfl

theorem Builder.moved_enterShared (f : Ptr → Ptr) (S : List Ptr) (hf : Apart f S) (b : Builder) (hb : ∀ p ∈ b.visitedShared, p ∈ S) (k n p kind) (hp : p ∈ S) :
    (b.moved f).enterSharedImpl k n (f p) kind = (b.enterSharedImpl k n p kind).map (fun x => (x.1, x.2.moved f)) := by
  simp only [Builder.enterSharedImpl, Builder.moved_downAndAdd]
  cases h : b.downAndAdd k n id with
  | error e => rfl
  | ok b1 =>
    have hv := Builder.downAndAdd_visited h
    have hiff : f p ∈ (b1.moved f).visitedShared ↔ p ∈ b1.visitedShared := by
      simp only [Builder.moved, List.mem_map, hv]
      constructor
      · rintro ⟨q, hq, e⟩; rwa [hf p hp q (hb q hq) e.symm]
      · intro h; exact ⟨p, h, rfl⟩
    simp only [Except.map]
    by_cases hm : p ∈ b1.visitedShared
    · rw [if_pos (hiff.2 hm), if_pos hm, Builder.moved_exitImpl]
      cases b1.exitImpl <;> rfl
    · rw [if_neg (fun h => hm (hiff.1 h)), if_neg hm]; rfl

theorem Builder.enterShared_visited {b b' : Builder} {k n p kind r} (h : b.enterSharedImpl k n p kind = .ok (r, b')) :
    ∀ q ∈ b'.visitedShared, q = p ∨ q ∈ b.visitedShared := by
  simp only [Builder.enterSharedImpl] at h
  cases h1 : b.downAndAdd k n id with
  | error e => rw [h1] at h; cases h
  | ok b1 =>
    have hv := Builder.downAndAdd_visited h1
    simp only [h1] at h
    by_cases hm : p ∈ b1.visitedShared
    · rw [if_pos hm] at h
      cases h2 : b1.exitImpl with
      | error e => rw [h2] at h; cases h
      | ok b2 =>
        rw [h2] at h; cases h
        intro q hq; right; rwa [Builder.exitImpl_visited h2, hv] at hq
    · rw [if_neg hm] at h; cases h
      intro q hq
      rcases List.mem_cons.1 hq with h | h
      · exact .inl h
      · right; rwa [hv] at h

theorem Builder.visitorImpl_exitImpl (kind : NodeKind) (b : Builder) : Builder.visitorImpl.exitImpl kind b = b.exitImpl := by cases kind <;> rfl

theorem Builder.moved_finishChild (f : Ptr → Ptr) (kind fate ctl) (b : Builder) :
    Builder.visitorImpl.finishChild kind fate ctl (b.moved f) = (Builder.visitorImpl.finishChild kind fate ctl b).map (·.moved f) := by
  have h : ∀ kind, Builder.visitorImpl.exitImpl kind (b.moved f) = (Builder.visitorImpl.exitImpl kind b).map (·.moved f) := fun kind => by
    rw [Builder.visitorImpl_exitImpl, Builder.visitorImpl_exitImpl, Builder.moved_exitImpl]
  have h2 : Builder.visitorImpl.exit kind (b.moved f) = (Builder.visitorImpl.exit kind b).map (·.moved f) := by
    simp only [VisitorImpl.exit, VisitorImpl.endScope, h]
    cases Builder.visitorImpl.exitImpl kind b <;> rfl
  cases fate <;> cases ctl <;> simp only [VisitorImpl.finishChild, VisitorImpl.drop, h, h2] <;> rfl

theorem Builder.finishChild_visited {kind fate ctl} {b b' : Builder} (h : Builder.visitorImpl.finishChild kind fate ctl b = .ok b') :
    b'.visitedShared = b.visitedShared := by
  have hx : ∀ {b'}, Builder.visitorImpl.exitImpl kind b = .ok b' → b'.visitedShared = b.visitedShared := fun h => by
    rw [Builder.visitorImpl_exitImpl] at h; exact Builder.exitImpl_visited h
  have h2 : ∀ {b'}, Builder.visitorImpl.exit kind b = .ok b' → b'.visitedShared = b.visitedShared := fun {b'} h => by
    simp only [VisitorImpl.exit, VisitorImpl.endScope] at h
    cases e : Builder.visitorImpl.exitImpl kind b with
    | error _ => rw [e] at h; cases h
    | ok b1 => rw [e] at h; simp only [Bool.false_eq_true, if_false] at h; cases h; exact hx e
  cases fate <;> cases ctl <;> simp only [VisitorImpl.finishChild, VisitorImpl.drop] at h <;> first | exact hx h | exact h2 h | (cases h; rfl)

theorem Builder.moved_exec (f : Ptr → Ptr) (S : List Ptr) (hf : Apart f S) (prog : Prog) : ∀ (kind : NodeKind) (b : Builder), (∀ p ∈ prog.ptrs, p ∈ S) →
    (∀ p ∈ b.visitedShared, p ∈ S) →
    exec Builder.visitorImpl (prog.move f) kind (b.moved f) = (exec Builder.visitorImpl prog kind b).map (fun x => (x.1.moved f, x.2)) ∧
    ∀ b' ctl, exec Builder.visitorImpl prog kind b = .ok (b', ctl) → ∀ p ∈ b'.visitedShared, p ∈ S := by
  induction prog with
  | done => intro kind b _ hb; exact ⟨rfl, fun b' ctl h => by cases h; exact hb⟩
  | panic => intro kind b _ hb; exact ⟨rfl, fun b' ctl h => by cases h; exact hb⟩
  | enter k n fate body rest ihb ihr =>
    intro kind b hp hb
    simp only [Prog.ptrs, List.mem_append] at hp
    simp only [Prog.move, exec]
    rw [show Builder.visitorImpl.enterInlineImpl (b.moved f) k n kind = _ from Builder.moved_downAndAdd f b k n id]
    rw [show Builder.visitorImpl.enterInlineImpl b k n kind = b.downAndAdd k n id from rfl]
    cases h1 : b.downAndAdd k n id with
    | error e => exact ⟨rfl, fun _ _ h => by cases h⟩
    | ok b1 =>
      have hv1 : ∀ p ∈ b1.visitedShared, p ∈ S := by rw [Builder.downAndAdd_visited h1]; exact hb
      have e2 := ihb .inline b1 (fun p h => hp p (.inl h)) hv1
      simp only [Except.map] at e2 ⊢
      rw [e2.1]
      cases h2 : exec Builder.visitorImpl body .inline b1 with
      | error e => exact ⟨rfl, fun _ _ h => by cases h⟩
      | ok x =>
        obtain ⟨b2, ctl⟩ := x
        simp only [Builder.moved_finishChild]
        cases h3 : Builder.visitorImpl.finishChild .inline fate ctl b2 with
        | error e => exact ⟨rfl, fun _ _ h => by cases h⟩
        | ok b3 =>
          have hv3 : ∀ p ∈ b3.visitedShared, p ∈ S := by rw [Builder.finishChild_visited h3]; exact e2.2 _ _ h2
          cases ctl with
          | unwinding => exact ⟨rfl, fun _ _ h => by cases h; exact hv3⟩
          | returned => exact ihr kind b3 (fun p h => hp p (.inr h)) hv3
  | enterUnique k n fate body rest ihb ihr =>
    intro kind b hp hb
    simp only [Prog.ptrs, List.mem_append] at hp
    simp only [Prog.move, exec]
    rw [show Builder.visitorImpl.enterUniqueImpl (b.moved f) k n kind = _ from Builder.moved_downAndAdd f b k n (fun d => { d with unique := true })]
    rw [show Builder.visitorImpl.enterUniqueImpl b k n kind = b.downAndAdd k n (fun d => { d with unique := true }) from rfl]
    cases h1 : b.downAndAdd k n (fun d => { d with unique := true }) with
    | error e => exact ⟨rfl, fun _ _ h => by cases h⟩
    | ok b1 =>
      have hv1 : ∀ p ∈ b1.visitedShared, p ∈ S := by rw [Builder.downAndAdd_visited h1]; exact hb
      have e2 := ihb .unique b1 (fun p h => hp p (.inl h)) hv1
      simp only [Except.map] at e2 ⊢
      rw [e2.1]
      cases h2 : exec Builder.visitorImpl body .unique b1 with
      | error e => exact ⟨rfl, fun _ _ h => by cases h⟩
      | ok x =>
        obtain ⟨b2, ctl⟩ := x
        simp only [Builder.moved_finishChild]
        cases h3 : Builder.visitorImpl.finishChild .unique fate ctl b2 with
        | error e => exact ⟨rfl, fun _ _ h => by cases h⟩
        | ok b3 =>
          have hv3 : ∀ p ∈ b3.visitedShared, p ∈ S := by rw [Builder.finishChild_visited h3]; exact e2.2 _ _ h2
          cases ctl with
          | unwinding => exact ⟨rfl, fun _ _ h => by cases h; exact hv3⟩
          | returned => exact ihr kind b3 (fun p h => hp p (.inr h)) hv3
  | enterShared k n ptr fate body rs rn ihb ihs ihn =>
    intro kind b hp hb
    simp only [Prog.ptrs, List.mem_cons, List.mem_append] at hp
    simp only [Prog.move, exec]
    rw [show Builder.visitorImpl.enterSharedImpl (b.moved f) k n (f ptr) kind = _ from Builder.moved_enterShared f S hf b hb k n ptr kind (hp ptr (.inl rfl))]
    rw [show Builder.visitorImpl.enterSharedImpl b k n ptr kind = b.enterSharedImpl k n ptr kind from rfl]
    cases h1 : b.enterSharedImpl k n ptr kind with
    | error e => exact ⟨rfl, fun _ _ h => by cases h⟩
    | ok x =>
      obtain ⟨r, b1⟩ := x
      have hv1 : ∀ p ∈ b1.visitedShared, p ∈ S := by
        intro p h
        rcases Builder.enterShared_visited h1 p h with rfl | h
        · exact hp _ (.inl rfl)
        · exact hb p h
      cases r with
      | false => exact ihn kind b1 (fun p h => hp p (.inr (.inr h))) hv1
      | true =>
        have e2 := ihb .shared b1 (fun p h => hp p (.inr (.inl (.inl h)))) hv1
        simp only [Except.map] at e2 ⊢
        rw [e2.1]
        cases h2 : exec Builder.visitorImpl body .shared b1 with
        | error e => exact ⟨rfl, fun _ _ h => by cases h⟩
        | ok x =>
          obtain ⟨b2, ctl⟩ := x
          simp only [Builder.moved_finishChild]
          cases h3 : Builder.visitorImpl.finishChild .shared fate ctl b2 with
          | error e => exact ⟨rfl, fun _ _ h => by cases h⟩
          | ok b3 =>
            have hv3 : ∀ p ∈ b3.visitedShared, p ∈ S := by rw [Builder.finishChild_visited h3]; exact e2.2 _ _ h2
            cases ctl with
            | unwinding => exact ⟨rfl, fun _ _ h => by cases h; exact hv3⟩
            | returned => exact ihs kind b3 (fun p h => hp p (.inr (.inl (.inr h)))) hv3
  | catchUnwind body rest ihb ihr =>
    intro kind b hp hb
    simp only [Prog.ptrs, List.mem_append] at hp
    simp only [Prog.move, exec]
    have e2 := ihb kind b (fun p h => hp p (.inl h)) hb
    rw [e2.1]
    cases h2 : exec Builder.visitorImpl body kind b with
    | error e => exact ⟨rfl, fun _ _ h => by cases h⟩
    | ok x =>
      obtain ⟨b2, ctl⟩ := x
      exact ihr kind b2 (fun p h => hp p (.inr h)) (e2.2 _ _ h2)

theorem Builder.moved_useRoot (f : Ptr → Ptr) (S : List Ptr) (hf : Apart f S) (prog : Prog) (fate : Fate) (b : Builder) (hp : ∀ p ∈ prog.ptrs, p ∈ S)
    (hb : ∀ p ∈ b.visitedShared, p ∈ S) :
    (b.moved f).useRoot (prog.move f) fate = (b.useRoot prog fate).map (fun x => (x.1.moved f, x.2)) ∧
    ∀ b' ctl, b.useRoot prog fate = .ok (b', ctl) → ∀ p ∈ b'.visitedShared, p ∈ S := by
  have hr : (b.moved f).rootVisitor = b.rootVisitor.map (·.moved f) := by
    obtain ⟨vs, trees, cur, shared, root, e⟩ := b
    cases e <;> rfl
  simp only [Builder.useRoot, hr]
  cases h1 : b.rootVisitor with
  | error e => exact ⟨rfl, fun _ _ h => by cases h⟩
  | ok b1 =>
    have hv : b1.visitedShared = b.visitedShared := by
      simp only [Builder.rootVisitor] at h1; split at h1 <;> cases h1; rfl
    have e2 := Builder.moved_exec f S hf prog .root b1 hp (by rw [hv]; exact hb)
    simp only [Except.map] at e2 ⊢
    rw [e2.1]
    cases h2 : exec Builder.visitorImpl prog .root b1 with
    | error e => exact ⟨rfl, fun _ _ h => by cases h⟩
    | ok x =>
      obtain ⟨b2, ctl⟩ := x
      simp only [Builder.moved_finishChild]
      cases h3 : Builder.visitorImpl.finishChild .root fate ctl b2 with
      | error e => exact ⟨rfl, fun _ _ h => by cases h⟩
      | ok b3 => exact ⟨rfl, fun _ _ h => by cases h; rw [Builder.finishChild_visited h3]; exact e2.2 _ _ h2⟩

theorem Builder.moved_useRoots (f : Ptr → Ptr) (S : List Ptr) (hf : Apart f S) (hist : List (Prog × Fate)) : ∀ (b : Builder),
    (∀ x ∈ hist, ∀ p ∈ x.1.ptrs, p ∈ S) → (∀ p ∈ b.visitedShared, p ∈ S) →
    (b.moved f).useRoots (hist.map fun x => (x.1.move f, x.2)) = (b.useRoots hist).map (·.moved f) := by
  induction hist with
  | nil => intro b _ _; rfl
  | cons x hist ih =>
    intro b hp hb
    obtain ⟨prog, fate⟩ := x
    have e := Builder.moved_useRoot f S hf prog fate b (hp (prog, fate) (by simp)) hb
    simp only [List.map_cons, Builder.useRoots, e.1]
    cases h : b.useRoot prog fate with
    | error e => rfl
    | ok x =>
      obtain ⟨b1, ctl⟩ := x
      exact ih b1 (fun x hx => hp x (by simp [hx])) (e.2 _ _ h)

theorem Builder.moved_finish (f : Ptr → Ptr) (ord : HashOrder TreeId) (b : Builder) : (b.moved f).finish ord = b.finish ord := rfl

/-- C63. Any history of root visits, with user panics, leaked visitors and wrong sizes: if everything lies at other addresses, where different addresses
stay different, then the profile (text, total, warnings, or the panic of the library) is the same. -/
theorem C63_history (f : Ptr → Ptr) (hist : List (Prog × Fate)) (hf : Apart f (hist.flatMap fun x => x.1.ptrs))
    (ord : HashOrder TreeId) (ord' : HashOrder (List Str)) :
    observe ord ord' (hist.map fun x => (x.1.move f, x.2)) = observe ord ord' hist := by
  have h := Builder.moved_useRoots f _ hf hist Builder.default (fun x hx p hp => List.mem_flatMap.2 ⟨x, hx, hp⟩) (by simp [Builder.default, Trees.newTree])
  rw [show Builder.default.moved f = Builder.default from rfl] at h
  simp only [observe, run, h]
  cases Builder.default.useRoots hist with
  | error e => rfl
  | ok b => simp only [Except.map, Builder.moved_finish]

/-- C63. `size_of_unique_allocated_data` does not look at addresses at all: they may even coincide. -/
theorem C63_size_of (f : Ptr → Ptr) (root : Prog) :
    SizeOf.sizeOfUniqueAllocatedData (root.move f) = SizeOf.sizeOfUniqueAllocatedData root := by
  have h : ∀ (p : Prog) (kind : NodeKind) (s : Nat), exec SizeOf.visitorImpl (p.move f) kind s = exec SizeOf.visitorImpl p kind s := by
    intro p
    induction p with
    | done => intro _ _; rfl
    | panic => intro _ _; rfl
    | enter k n fate body rest ihb ihr => intro kind s; simp only [Prog.move, exec, ihb, ihr]
    | enterUnique k n fate body rest ihb ihr => intro kind s; simp only [Prog.move, exec, ihb, ihr]
    | enterShared k n p fate body rs rn ihb ihs ihn =>
      intro kind s
      simp only [Prog.move, exec, ihb, ihs, ihn]
      rw [show SizeOf.visitorImpl.enterSharedImpl s k n (f p) kind = SizeOf.visitorImpl.enterSharedImpl s k n p kind from rfl]
    | catchUnwind body rest ihb ihr => intro kind s; simp only [Prog.move, exec, ihb, ihr]
  simp only [SizeOf.sizeOfUniqueAllocatedData, h]

/-! ### Arbitrary calls on arbitrary builders -/

theorem Session.moved_step (f : Ptr → Ptr) (S : List Ptr) (hf : Apart f S) (s : Session) (op : Op) (hp : ∀ p ∈ op.addrs, p ∈ S)
    (hb : ∀ p ∈ s.builder.visitedShared, p ∈ S) :
    (Session.mk (s.builder.moved f) s.live).step (op.move f) =
      (s.step op).map (fun r => r.map fun x => (⟨x.1.builder.moved f, x.1.live⟩, x.2.map (Event.move f))) ∧
    ∀ s' evs, s.step op = some (.ok (s', evs)) → ∀ p ∈ s'.builder.visitedShared, p ∈ S := by
  obtain ⟨b, live⟩ := s
  have hx : ∀ kind, Builder.visitorImpl.exit kind (b.moved f) = (Builder.visitorImpl.exit kind b).map (·.moved f) :=
    fun kind => Builder.moved_finishChild f kind .exit .returned b
  have hd : ∀ kind, Builder.visitorImpl.drop kind (b.moved f) = (Builder.visitorImpl.drop kind b).map (·.moved f) :=
    fun kind => Builder.moved_finishChild f kind .drop .returned b
  cases op with
  | root =>
    cases live with
    | cons => exact ⟨rfl, fun _ _ h => by cases h⟩
    | nil =>
      obtain ⟨vs, trees, cur, shared, root, e⟩ := b
      cases e with
      | true => exact ⟨rfl, fun _ _ h => by cases h⟩
      | false => exact ⟨rfl, fun _ _ h => by cases h; exact hb⟩
  | enter k n =>
    cases live with
    | nil => exact ⟨rfl, fun _ _ h => by cases h⟩
    | cons kind live =>
      simp only [Op.move, Session.step]
      rw [show Builder.visitorImpl.enterInlineImpl (b.moved f) k n kind = _ from Builder.moved_downAndAdd f b k n id]
      rw [show Builder.visitorImpl.enterInlineImpl b k n kind = b.downAndAdd k n id from rfl]
      cases h1 : b.downAndAdd k n id with
      | error e => exact ⟨rfl, fun _ _ h => by cases h⟩
      | ok b1 => exact ⟨rfl, fun _ _ h => by cases h; simp only [Builder.downAndAdd_visited h1]; exact hb⟩
  | enterUnique k n =>
    cases live with
    | nil => exact ⟨rfl, fun _ _ h => by cases h⟩
    | cons kind live =>
      simp only [Op.move, Session.step]
      rw [show Builder.visitorImpl.enterUniqueImpl (b.moved f) k n kind = _ from Builder.moved_downAndAdd f b k n (fun d => { d with unique := true })]
      rw [show Builder.visitorImpl.enterUniqueImpl b k n kind = b.downAndAdd k n (fun d => { d with unique := true }) from rfl]
      cases h1 : b.downAndAdd k n (fun d => { d with unique := true }) with
      | error e => exact ⟨rfl, fun _ _ h => by cases h⟩
      | ok b1 => exact ⟨rfl, fun _ _ h => by cases h; simp only [Builder.downAndAdd_visited h1]; exact hb⟩
  | enterShared k n ptr =>
    cases live with
    | nil => exact ⟨rfl, fun _ _ h => by cases h⟩
    | cons kind live =>
      have hpp : ptr ∈ S := hp ptr (by simp [Op.addrs])
      simp only [Op.move, Session.step]
      rw [show Builder.visitorImpl.enterSharedImpl (b.moved f) k n (f ptr) kind = _ from Builder.moved_enterShared f S hf b hb k n ptr kind hpp]
      rw [show Builder.visitorImpl.enterSharedImpl b k n ptr kind = b.enterSharedImpl k n ptr kind from rfl]
      cases h1 : b.enterSharedImpl k n ptr kind with
      | error e => exact ⟨rfl, fun _ _ h => by cases h⟩
      | ok x =>
        obtain ⟨r, b1⟩ := x
        have hv1 : ∀ p ∈ b1.visitedShared, p ∈ S := by
          intro p h
          rcases Builder.enterShared_visited h1 p h with rfl | h
          · exact hpp
          · exact hb p h
        cases r <;> exact ⟨rfl, fun _ _ h => by cases h; exact hv1⟩
  | exit =>
    cases live with
    | nil => exact ⟨rfl, fun _ _ h => by cases h⟩
    | cons kind live =>
      simp only [Op.move, Session.step, hx]
      cases h1 : Builder.visitorImpl.exit kind b with
      | error e => exact ⟨rfl, fun _ _ h => by cases h⟩
      | ok b1 =>
        exact ⟨rfl, fun _ _ h => by cases h; simp only [Builder.finishChild_visited (fate := .exit) (ctl := .returned) h1]; exact hb⟩
  | drop =>
    cases live with
    | nil => exact ⟨rfl, fun _ _ h => by cases h⟩
    | cons kind live =>
      simp only [Op.move, Session.step, hd]
      cases h1 : Builder.visitorImpl.drop kind b with
      | error e => exact ⟨rfl, fun _ _ h => by cases h⟩
      | ok b1 =>
        exact ⟨rfl, fun _ _ h => by cases h; simp only [Builder.finishChild_visited (fate := .drop) (ctl := .returned) h1]; exact hb⟩
  | forget =>
    cases live with
    | nil => exact ⟨rfl, fun _ _ h => by cases h⟩
    | cons kind live => exact ⟨rfl, fun _ _ h => by cases h; exact hb⟩

theorem World.moved_run (f : Nat → Ptr → Ptr) (S : Nat → List Ptr) (hf : ∀ i, Apart (f i) (S i)) (ops : List (Nat × Op)) : ∀ (w : World),
    (∀ x ∈ ops, ∀ p ∈ x.2.addrs, p ∈ S x.1) → (∀ i, ∀ p ∈ (w i).builder.visitedShared, p ∈ S i) →
    World.run (fun i => ⟨(w i).builder.moved (f i), (w i).live⟩) (ops.map fun x => (x.1, x.2.move (f x.1))) =
      (w.run ops).map (fun r => r.map fun x => ((fun i => ⟨(x.1 i).builder.moved (f i), (x.1 i).live⟩), x.2.map fun e => (e.1, e.2.move (f e.1)))) := by
  induction ops with
  | nil => intro w _ _; rfl
  | cons x ops ih =>
    intro w hp hb
    obtain ⟨i, op⟩ := x
    have e := Session.moved_step (f i) (S i) (hf i) (w i) op (hp (i, op) (by simp)) (hb i)
    simp only [List.map_cons, World.run, e.1]
    cases h : (w i).step op with
    | none => rfl
    | some r =>
      cases r with
      | error e => rfl
      | ok x =>
        obtain ⟨s', evs⟩ := x
        simp only [Option.map, Except.map]
        have hw : (fun j => if j = i then (⟨s'.builder.moved (f i), s'.live⟩ : Session) else ⟨(w j).builder.moved (f j), (w j).live⟩) =
            fun j => ⟨((if j = i then s' else w j).builder).moved (f j), (if j = i then s' else w j).live⟩ := by
          funext j
          by_cases hj : j = i
          · subst hj; simp
          · simp [hj]
        rw [hw, ih (fun j => if j = i then s' else w j) (fun x hx => hp x (by simp [hx])) (by
          intro j
          by_cases hj : j = i
          · subst hj; simp only [if_true]; exact e.2 _ _ h
          · simp only [if_neg hj]; exact hb j)]
        cases World.run (fun j => if j = i then s' else w j) ops with
        | none => rfl
        | some r =>
          cases r with
          | error e => rfl
          | ok y => simp [Except.map]

/-- C63. Any calls on any builders (visitors may also be forgotten), each builder with its own new addresses: the same calls are admitted, the same panic occurs,
`enter_shared` returns `Some` in the same calls, and every builder yields the same profile. -/
theorem C63_calls (f : Nat → Ptr → Ptr) (ops : List (Nat × Op))
    (hf : ∀ i, Apart (f i) (ops.flatMap fun x => if x.1 = i then x.2.addrs else [])) :
    (World.start.run ops = none → World.start.run (ops.map fun x => (x.1, x.2.move (f x.1))) = none) ∧
    (∀ e, World.start.run ops = some (.error e) → World.start.run (ops.map fun x => (x.1, x.2.move (f x.1))) = some (.error e)) ∧
    (∀ w log, World.start.run ops = some (.ok (w, log)) →
      ∃ w', World.start.run (ops.map fun x => (x.1, x.2.move (f x.1))) = some (.ok (w', log.map fun e => (e.1, e.2.move (f e.1)))) ∧
        ∀ i ord, (w' i).live = (w i).live ∧ (w' i).builder.finish ord = (w i).builder.finish ord) := by
  have h := World.moved_run f (fun i => ops.flatMap fun x => if x.1 = i then x.2.addrs else []) hf ops World.start
    (fun x hx p hp => List.mem_flatMap.2 ⟨x, hx, by simpa using hp⟩) (by intro i p h; cases h)
  rw [show (fun i => (⟨(World.start i).builder.moved (f i), (World.start i).live⟩ : Session)) = World.start from rfl] at h
  refine ⟨fun e => by rw [h, e]; rfl, fun x e => by rw [h, e]; rfl, fun w log e => ?_⟩
  rw [e] at h
  exact ⟨_, h, fun i ord => ⟨rfl, rfl⟩⟩

/-! ### Object graphs -/

theorem Obj.visitWith_move (f : Ptr → Ptr) (c c' : Ptr → Prog) (o : Obj) (h : ∀ p ∈ o.ptrs, c' (f p) = (c p).move f) :
    (o.move f).visitWith c' = (o.visitWith c).move f := by
  induction o with
  | nil => rfl
  | inline k n e a r iha ihr =>
    simp only [Obj.ptrs, List.mem_append] at h
    simp only [Obj.move, Obj.visitWith, Prog.move, iha fun p hp => h p (.inl hp), ihr fun p hp => h p (.inr hp)]
  | unique k n e a r iha ihr =>
    simp only [Obj.ptrs, List.mem_append] at h
    simp only [Obj.move, Obj.visitWith, Prog.move, iha fun p hp => h p (.inl hp), ihr fun p hp => h p (.inr hp)]
  | shared k n p e r ihr =>
    simp only [Obj.ptrs, List.mem_cons] at h
    simp only [Obj.move, Obj.visitWith, Prog.move, ihr fun p hp => h p (.inr hp), h p (.inl rfl)]

theorem Obj.visitWith_addrs (c : Ptr → Prog) (o : Obj) : ∀ p ∈ (o.visitWith c).ptrs, p ∈ o.ptrs ∨ ∃ q ∈ o.ptrs, p ∈ (c q).ptrs := by
  induction o with
  | nil => intro p h; cases h
  | inline k n e a r iha ihr =>
    intro p h
    simp only [Obj.visitWith, Prog.ptrs, Obj.ptrs, List.mem_append] at h ⊢
    rcases h with h | h
    · rcases iha p h with h | ⟨q, h, h'⟩
      · exact .inl (.inl h)
      · exact .inr ⟨q, .inl h, h'⟩
    · rcases ihr p h with h | ⟨q, h, h'⟩
      · exact .inl (.inr h)
      · exact .inr ⟨q, .inr h, h'⟩
  | unique k n e a r iha ihr =>
    intro p h
    simp only [Obj.visitWith, Prog.ptrs, Obj.ptrs, List.mem_append] at h ⊢
    rcases h with h | h
    · rcases iha p h with h | ⟨q, h, h'⟩
      · exact .inl (.inl h)
      · exact .inr ⟨q, .inl h, h'⟩
    · rcases ihr p h with h | ⟨q, h, h'⟩
      · exact .inl (.inr h)
      · exact .inr ⟨q, .inr h, h'⟩
  | shared k n ptr e r ihr =>
    intro p h
    simp only [Obj.visitWith, Prog.ptrs, Obj.ptrs, List.mem_append, List.mem_cons] at h ⊢
    rcases h with rfl | (h | h) | h
    · exact .inl (.inl rfl)
    · exact .inr ⟨ptr, .inl rfl, h⟩
    all_goals
      rcases ihr p h with h | ⟨q, h, h'⟩
      · exact .inl (.inr h)
      · exact .inr ⟨q, .inr h, h'⟩

theorem Heap.visit_addrs (heap : Heap) (roots : List Obj) : ∀ (fuel : Nat) (o : Obj), (∀ p ∈ o.ptrs, Reachable heap roots p) →
    ∀ p ∈ (heap.visit fuel o).ptrs, Reachable heap roots p := by
  intro fuel
  induction fuel with
  | zero =>
    intro o ho p h
    rcases Obj.visitWith_addrs _ o p h with h | ⟨q, _, h⟩
    · exact ho p h
    · cases h
  | succ fuel ih =>
    intro o ho p h
    rcases Obj.visitWith_addrs _ o p h with h | ⟨q, hq, h⟩
    · exact ho p h
    · exact ih (heap q) (fun p hp => .step (ho q hq) hp) p h

theorem Heap.visit_move (f : Ptr → Ptr) (heap heap' : Heap) (roots : List Obj) (hh : ∀ p, Reachable heap roots p → heap' (f p) = (heap p).move f) :
    ∀ (fuel : Nat) (o : Obj), (∀ p ∈ o.ptrs, Reachable heap roots p) → heap'.visit fuel (o.move f) = (heap.visit fuel o).move f := by
  intro fuel
  induction fuel with
  | zero => intro o _; exact Obj.visitWith_move f _ _ o fun _ _ => rfl
  | succ fuel ih =>
    intro o ho
    refine Obj.visitWith_move f _ _ o fun p hp => ?_
    rw [hh p (ho p hp)]
    exact ih (heap p) fun q hq => .step (ho p hp) hq

/-- C63. The same object graph at other addresses (a moving allocator, another run of the program with address space randomization) has the same profile: if `f` keeps
the reachable cells apart, and the cell at `f p` has the contents of the cell at `p`, with moved pointers. -/
theorem C63_object_graph (f : Ptr → Ptr) (heap heap' : Heap) (roots : List Obj)
    (hf : ∀ p q, Reachable heap roots p → Reachable heap roots q → f p = f q → p = q)
    (hh : ∀ p, Reachable heap roots p → heap' (f p) = (heap p).move f)
    (fuel : Nat) (ord : HashOrder TreeId) (ord' : HashOrder (List Str)) :
    observe ord ord' (visits heap' fuel (roots.map (Obj.move f))) = observe ord ord' (visits heap fuel roots) := by
  have e : visits heap' fuel (roots.map (Obj.move f)) = (visits heap fuel roots).map fun x => (x.1.move f, x.2) := by
    simp only [visits, List.map_map]
    apply List.map_congr_left
    intro o ho
    simp only [Function.comp, Heap.visit_move f heap heap' roots hh fuel o fun p hp => .root ho hp]
  rw [e]
  apply C63_history
  have hr : ∀ p ∈ (visits heap fuel roots).flatMap (fun x => x.1.ptrs), Reachable heap roots p := by
    intro p h
    obtain ⟨x, hx, hp⟩ := List.mem_flatMap.1 h
    obtain ⟨o, ho, rfl⟩ := List.mem_map.1 hx
    exact Heap.visit_addrs heap roots fuel o (fun p hp => .root ho hp) p hp
  exact fun p hp q hq => hf p q (hr p hp) (hr q hq)

/-- C63. Values of all supported types: if each value and each shared allocation lies elsewhere, with the pointers adjusted and reachable allocations kept apart, the profile
is the same.  (No assumption about the values: sizes may be wrong, lengths inconsistent.) -/
theorem C63_values [Target] (f : Ptr → Ptr) (cells cells' : Ptr → Cell) (roots : List Datum)
    (hf : ∀ p q, Reachable (fun p => (cells p).visit) (roots.map fun d => d.value.visit) p →
      Reachable (fun p => (cells p).visit) (roots.map fun d => d.value.visit) q → f p = f q → p = q)
    (hc : ∀ p, Reachable (fun p => (cells p).visit) (roots.map fun d => d.value.visit) p → cells' (f p) = (cells p).move f)
    (fuel : Nat) (ord : HashOrder TreeId) (ord' : HashOrder (List Str)) :
    observe ord ord' (visits (fun p => (cells' p).visit) fuel (roots.map fun d => (d.move f).value.visit)) =
      observe ord ord' (visits (fun p => (cells p).visit) fuel (roots.map fun d => d.value.visit)) := by
  have h := C63_object_graph f (fun p => (cells p).visit) (fun p => (cells' p).visit) (roots.map fun d => d.value.visit) hf
    (fun p hp => by simp only [hc p hp, Cell.visit_move]) fuel ord ord'
  rw [← h, List.map_map]
  simp only [Function.comp_def, Datum.value_move, Value.move_visit]

/-! Non-vacuity. -/

-- the cyclic object graph with its cells at 101 and 102
example : ∃ heap' : Heap, (∀ p q, Reachable Ex.cyclic Ex.roots p → Reachable Ex.cyclic Ex.roots q → p + 100 = q + 100 → p = q) ∧
    (∀ p, Reachable Ex.cyclic Ex.roots p → heap' (p + 100) = (Ex.cyclic p).move (· + 100)) ∧ heap' 1 = .nil :=
  ⟨fun p => if p < 100 then .nil else (Ex.cyclic (p - 100)).move (· + 100), fun p q _ _ h => Nat.add_right_cancel h,
    fun p _ => by dsimp only; rw [if_neg (Nat.not_lt.2 (Nat.le_add_left 100 p)), Nat.add_sub_cancel], rfl⟩

-- a history with panics and an over-full node whose only address, 7, is passed three times
example : Apart (fun _ => 0x7f00) (Ex.hist1.flatMap fun x => x.1.ptrs) ∧ (Ex.hist1.flatMap fun x => x.1.ptrs).length = 4 := by
  have h : Ex.hist1.flatMap (fun x => x.1.ptrs) = [7, 7, 7, 7] := by decide
  rw [h]
  simp [Apart]

-- addresses that are not kept apart do change the profile: here one of two pointees is lost
example :
    let prog : Prog := .enterShared (Ex.k "p") 8 1 .exit (Ex.leaf "A" 16) (.enterShared (Ex.k "q") 8 2 .exit (Ex.leaf "B" 16) .done .done) .done
    ((observe (HashOrder.id _) (HashOrder.id _) [(prog, .exit)]).toOption.map Obs.total,
      (observe (HashOrder.id _) (HashOrder.id _) [(prog.move fun _ => 5, .exit)]).toOption.map Obs.total) = (some 48, some 32) := by
  set_option maxRecDepth 100000 in decide

-- two builders, each with its own new addresses
example : ∀ i, Apart (fun p => if i = 0 then p + 1 else 2 * p)
    ([(0, Op.root), (1, .root), (0, .enterShared (Ex.k "p") 8 1), (1, .enterShared (Ex.k "p") 8 1), (1, .enterShared (Ex.k "q") 8 3), (0, .forget)].flatMap
      fun x => if x.1 = i then x.2.addrs else []) := by
  intro i p _ q _ h
  dsimp only at h
  split at h
  · exact Nat.add_right_cancel h
  · exact Nat.eq_of_mul_eq_mul_left (by decide) h

/-! The theorems of this file with a concrete case of their hypotheses. -/
namespace RenameExamples

attribute [local instance] Target.x64

example (ord : HashOrder TreeId) (ord' : HashOrder (List Str)) := C63_history (fun _ => 0x7f00) Ex.hist1
  (by have h : Ex.hist1.flatMap (fun x => x.1.ptrs) = [7, 7, 7, 7] := by decide
      rw [h]; simp [Apart]) ord ord'

/-- The two builders of above; builder 0 is left with a forgotten visitor. -/
example := C63_calls (fun i p => if i = 0 then p + 1 else 2 * p)
  [(0, Op.root), (1, .root), (0, .enterShared (Ex.k "p") 8 1), (1, .enterShared (Ex.k "p") 8 1), (1, .enterShared (Ex.k "q") 8 3), (0, .forget)] (by
    intro i p _ q _ h
    dsimp only at h
    split at h
    · exact Nat.add_right_cancel h
    · exact Nat.eq_of_mul_eq_mul_left (by decide) h)

example (ord : HashOrder TreeId) (ord' : HashOrder (List Str)) := C63_object_graph (· + 100) Ex.cyclic
  (fun p => if p < 100 then .nil else (Ex.cyclic (p - 100)).move (· + 100)) Ex.roots (fun _ _ _ _ h => Nat.add_right_cancel h)
  (fun p _ => by show (if _ then _ else _) = _; rw [if_neg (Nat.not_lt.2 (Nat.le_add_left 100 p)), Nat.add_sub_cancel]) 3 ord ord'

/-- A string in an `Arc`, which is held twice; the other allocations are `Rc`s of numbers. -/
def cells : Ptr → Cell := fun p => if p = 3 then .arc 40 (.string ⟨ascii "String", 24, true⟩ 2 3) else .rc 20 (.plain ⟨ascii "u32", 4, false⟩)
def held : List Datum := [.arc ⟨ascii "Arc<String>", 8, true⟩ 8 3, .vec ⟨ascii "Vec<Arc<String>>", 24, true⟩ ⟨ascii "Arc<String>", 8, true⟩ [.arc ⟨ascii "Arc<String>", 8, true⟩ 8 3] 4]

example (ord : HashOrder TreeId) (ord' : HashOrder (List Str)) := C63_values (· + 100) cells
  (fun p => if p < 100 then cells 0 else (cells (p - 100)).move (· + 100)) held (fun _ _ _ _ h => Nat.add_right_cancel h)
  (fun p _ => by show (if _ then _ else _) = _; rw [if_neg (Nat.not_lt.2 (Nat.le_add_left 100 p)), Nat.add_sub_cancel]) 2 ord ord'

end RenameExamples

end Allocative
