import Verif.Spec.Cut
import Verif.Lemmas.Events
namespace Allocative

theorem finishChild_dropToExit {σ} (impl : VisitorImpl σ) (kind : NodeKind) (f : Fate) (ctl : Ctl) (s : σ) :
    impl.finishChild kind f.dropToExit ctl s = impl.finishChild kind f ctl s := by
  cases f <;> cases ctl <;> try rfl
  exact (finishChild_closes impl kind (f := .exit) (ctl := .returned) rfl s).trans
    (finishChild_closes impl kind (f := .drop) (ctl := .returned) rfl s).symm

theorem exec_dropToExit {σ} (impl : VisitorImpl σ) (prog : Prog) : ∀ kind (s : σ),
    exec impl prog.dropToExit kind s = exec impl prog kind s := by
  induction prog with
  | done => intros; rfl
  | panic => intros; rfl
  | enter k n f body rest ih1 ih2 => intro kind s; simp only [Prog.dropToExit, exec, ih1, ih2, finishChild_dropToExit]
  | enterUnique k n f body rest ih1 ih2 => intro kind s; simp only [Prog.dropToExit, exec, ih1, ih2, finishChild_dropToExit]
  | enterShared k n p f body rs rn ih1 ih2 ih3 =>
    intro kind s; simp only [Prog.dropToExit, exec, ih1, ih2, ih3, finishChild_dropToExit]
  | catchUnwind body rest ih1 ih2 => intro kind s; simp only [Prog.dropToExit, exec, ih1, ih2]

theorem leaks_unwinding_le (f : Fate) (c : Ctl) : f.leaks .unwinding ≤ f.leaks c := by cases f <;> cases c <;> simp [Fate.leaks]

/-- What a cut program does compared with the original one: the same, or a prefix and then unwinding. -/
theorem CutTo.trace {P Q} (h : CutTo P Q) : ∀ cur vis, Q.trace cur vis = P.trace cur vis ∨
    ((Q.trace cur vis).ctl = .unwinding ∧ (Q.trace cur vis).recs <+: (P.trace cur vis).recs ∧
      (Q.trace cur vis).leaked ≤ (P.trace cur vis).leaked) := by
  have key : ∀ {rc : Rec} {body body' : Trace} {rest rest' : List Ptr → Trace} {f : Fate},
      (body' = body ∨ (body'.ctl = .unwinding ∧ body'.recs <+: body.recs ∧ body'.leaked ≤ body.leaked)) →
      (∀ v, rest' v = rest v ∨ ((rest' v).ctl = .unwinding ∧ (rest' v).recs <+: (rest v).recs ∧ (rest' v).leaked ≤ (rest v).leaked)) →
      let mk := fun (t : Trace) (r : List Ptr → Trace) => (match t.ctl with
        | .unwinding => (⟨rc :: t.recs, t.visited, .unwinding, t.leaked + f.leaks .unwinding⟩ : Trace)
        | .returned => ⟨rc :: t.recs ++ (r t.visited).recs, (r t.visited).visited, (r t.visited).ctl,
            t.leaked + f.leaks .returned + (r t.visited).leaked⟩)
      mk body' rest' = mk body rest ∨ ((mk body' rest').ctl = .unwinding ∧ (mk body' rest').recs <+: (mk body rest).recs ∧
        (mk body' rest').leaked ≤ (mk body rest).leaked) := by
    intro rc body body' rest rest' f h1 h2 mk
    rcases h1 with rfl | ⟨h1, h1', h1''⟩
    · simp only [mk]
      cases body'.ctl with
      | unwinding => exact .inl rfl
      | returned =>
        rcases h2 body'.visited with h | ⟨h, h', h''⟩
        · left; simp only [h]
        · right
          refine ⟨h, ?_, ?_⟩
          · simp only [List.cons_append, List.cons_prefix_cons, true_and]
            exact (List.prefix_append_right_inj _).2 h'
          · simp only; omega
    · right
      simp only [mk, h1]
      refine ⟨trivial, ?_, ?_⟩
      · cases body.ctl
        · exact (List.cons_prefix_cons.2 ⟨rfl, h1'⟩).trans (List.prefix_append _ _)
        · exact List.cons_prefix_cons.2 ⟨rfl, h1'⟩
      · have := leaks_unwinding_le f .returned
        cases body.ctl <;> simp only <;> omega
  induction h with
  | panics P => intro cur vis; right; simp [Prog.trace]
  | done => intros; exact .inl rfl
  | enter k n f _ _ ih1 ih2 =>
    intro cur vis
    exact key (ih1 (cur ++ [k]) vis) (fun v => ih2 cur v)
  | enterUnique k n f _ _ ih1 ih2 =>
    intro cur vis
    exact key (ih1 (cur ++ [k]) vis) (fun v => ih2 cur v)
  | enterShared k n p f _ _ _ ih1 ih2 ih3 =>
    intro cur vis
    simp only [Prog.trace]
    by_cases hv : p ∈ vis
    · simp only [if_pos hv]
      rcases ih3 cur vis with h | ⟨h, h', h''⟩
      · left; simp only [h]
      · right; exact ⟨h, List.cons_prefix_cons.2 ⟨rfl, h'⟩, h''⟩
    · simp only [if_neg hv]
      exact key (ih1 [] (p :: vis)) (fun v => ih2 cur v)
  | catchUnwind body _ ih =>
    intro cur vis
    simp only [Prog.trace]
    rcases ih cur (body.trace cur vis).visited with h | ⟨h, h', h''⟩
    · left; simp only [h]
    · right; exact ⟨h, (List.prefix_append_right_inj _).2 h', by omega⟩

theorem traceRoots_append (h1 h2 : List (Prog × Fate)) : ∀ vis, (traceRoots (h1 ++ h2) vis).recs =
      (traceRoots h1 vis).recs ++ (traceRoots h2 (traceRoots h1 vis).visited).recs ∧
    (traceRoots (h1 ++ h2) vis).visited = (traceRoots h2 (traceRoots h1 vis).visited).visited ∧
    (traceRoots (h1 ++ h2) vis).leaked =
      (traceRoots h1 vis).leaked + (traceRoots h2 (traceRoots h1 vis).visited).leaked := by
  induction h1 with
  | nil => intro vis; simp [traceRoots]
  | cons x rest ih =>
    intro vis
    obtain ⟨prog, fate⟩ := x
    obtain ⟨e1, e2, e3⟩ := ih (prog.trace [] vis).visited
    simp only [List.cons_append, traceRoots]
    exact ⟨by rw [e1, List.append_assoc], e2, by rw [e3]; omega⟩

end Allocative
