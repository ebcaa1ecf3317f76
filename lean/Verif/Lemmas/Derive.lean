import Verif.Spec.Derive
import Verif.Lemmas.Parse
import Verif.Props.Keys
set_option linter.unusedSimpArgs false
/-
Lemmas about the model of the derive macro.
-/
namespace Allocative.Derive
open Allocative

/-! ### Attribute parsing -/

/-- Add an option, failing if it is already there. -/
def addItem (o : Attrs) : Item → Option Attrs
  | .skip => if o.skip then none else some { o with skip := true }
  | .bound s => if o.bound.isSome then none else some { o with bound := some s }
  | .visit p => if o.visit.isSome then none else some { o with visit := some p }

def addItems : Attrs → List Item → Option Attrs
  | o, [] => some o
  | o, i :: l => match addItem o i with
    | none => none
    | some o => addItems o l

theorem addItems_append (o : Attrs) (a b : List Item) : addItems o (a ++ b) = (addItems o a).bind fun o => addItems o b := by
  induction a generalizing o with
  | nil => rfl
  | cons i a ih =>
    simp only [List.cons_append, addItems]
    cases addItem o i with
    | none => rfl
    | some o => exact ih o

theorem w_bs : ascii "bound" ≠ ascii "skip" := by decide
theorem w_vs : ascii "visit" ≠ ascii "skip" := by decide
theorem w_vb : ascii "visit" ≠ ascii "bound" := by decide

/-- From the parser to the grammar. -/
theorem parseItem_sound (P : PathParser) {o o' : Attrs} {toks rest : List Tok} (h : parseItem P o toks = some (o', rest)) :
    ∃ is, OptItem P toks is rest ∧ addItems o is = some o' := by
  unfold parseItem at h
  split at h
  next w input =>
    split at h
    next hw =>
      subst hw
      split at h
      · exact absurd h (by simp)
      next hs =>
        simp only [Option.some.injEq, Prod.mk.injEq] at h
        obtain ⟨rfl, rfl⟩ := h
        exact ⟨_, .skip _, by simp [addItems, addItem, hs]⟩
    next hw =>
      split at h
      next hb =>
        subst hb
        split at h
        next s input' =>
          split at h
          · exact absurd h (by simp)
          next hs =>
            simp only [Option.some.injEq, Prod.mk.injEq] at h
            obtain ⟨rfl, rfl⟩ := h
            exact ⟨_, .bound _ _, by simp [addItems, addItem, hs]⟩
        · exact absurd h (by simp)
      next hb =>
        split at h
        next hv =>
          subst hv
          split at h
          next input' =>
            split at h
            · exact absurd h (by simp)
            next p input'' hp =>
              split at h
              · exact absurd h (by simp)
              next hs =>
                simp only [Option.some.injEq, Prod.mk.injEq] at h
                obtain ⟨rfl, rfl⟩ := h
                exact ⟨_, .visit _ _ _ hp, by simp [addItems, addItem, hs]⟩
          · exact absurd h (by simp)
        next hv =>
          simp only [Option.some.injEq, Prod.mk.injEq] at h
          obtain ⟨rfl, rfl⟩ := h
          exact ⟨[], .none _, rfl⟩
  · simp only [Option.some.injEq, Prod.mk.injEq] at h
    obtain ⟨rfl, rfl⟩ := h
    exact ⟨[], .none _, rfl⟩

/-- From the grammar to the parser, when what follows the optional item is the end or a comma. -/
theorem parseItem_complete (P : PathParser) {o o' : Attrs} {toks rest : List Tok} {is : List Item} (h : OptItem P toks is rest)
    (hr : rest = [] ∨ ∃ r, rest = .comma :: r) (ha : addItems o is = some o') : parseItem P o toks = some (o', rest) := by
  cases h with
  | none =>
    simp only [addItems, Option.some.injEq] at ha
    subst ha
    rcases hr with rfl | ⟨r, rfl⟩ <;> simp [parseItem]
  | skip =>
    simp only [addItems, addItem] at ha
    unfold parseItem
    by_cases hs : o.skip = true
    · simp [hs] at ha
    · simp [hs] at ha ⊢; exact ha
  | bound s =>
    simp only [addItems, addItem] at ha
    unfold parseItem
    by_cases hs : o.bound.isSome = true
    · simp [hs] at ha
    · simp [hs, w_bs] at ha ⊢; exact ha
  | visit toks p _ hp =>
    simp only [addItems, addItem] at ha
    unfold parseItem
    by_cases hs : o.visit.isSome = true
    · simp [hs] at ha
    · simp [hs, w_vs, w_vb, hp] at ha ⊢; exact ha

theorem OptItem.length {P : PathParser} {toks rest is} (h : OptItem P toks is rest) : rest.length ≤ toks.length := by
  cases h with
  | none => exact Nat.le_refl _
  | skip => simp
  | bound => simp; omega
  | visit _ _ _ hp => have := P.consumes _ _ _ hp; simp; omega

theorem parseLoop_iff (P : PathParser) : ∀ (fuel : Nat) (o o' : Attrs) (toks : List Tok), toks.length < fuel →
    (parseLoop P fuel o toks = some o' ↔ ∃ is, Args P toks is ∧ addItems o is = some o') := by
  intro fuel
  induction fuel with
  | zero => intro o o' toks h; omega
  | succ fuel ih =>
    intro o o' toks hl
    constructor
    · intro h
      unfold parseLoop at h
      split at h
      · exact absurd h (by simp)
      next o1 rest hp =>
        obtain ⟨is, hi, ha⟩ := parseItem_sound P hp
        split at h
        · simp only [Option.some.injEq] at h
          subst h
          exact ⟨is, .last hi, ha⟩
        next input =>
          have := hi.length
          obtain ⟨js, hj, hb⟩ := (ih o1 o' input (by simp at this; omega)).1 h
          exact ⟨is ++ js, .more hi hj, by rw [addItems_append, ha]; exact hb⟩
        · exact absurd h (by simp)
    · rintro ⟨is, h, ha⟩
      cases h with
      | last hi =>
        unfold parseLoop
        rw [parseItem_complete P hi (.inl rfl) ha]
      | more hi hj =>
        rename_i is' rest js
        rw [addItems_append] at ha
        cases h1 : addItems o is' with
        | none => simp [h1] at ha
        | some o1 =>
          rw [h1] at ha
          have := hi.length
          unfold parseLoop
          rw [parseItem_complete P hi (.inr ⟨_, rfl⟩) h1]
          exact (ih o1 o' rest (by simp at this; omega)).2 ⟨js, hj, ha⟩

theorem extractLoop_iff (P : PathParser) : ∀ (attrs : List Attr) (o o' : Attrs),
    extractLoop P o attrs = some o' ↔ ∃ is, AttrItems P attrs is ∧ addItems o is = some o' := by
  intro attrs
  induction attrs with
  | nil =>
    intro o o'
    constructor
    · intro h; exact ⟨[], .nil, h⟩
    · rintro ⟨is, h, ha⟩; cases h; exact ha
  | cons a attrs ih =>
    intro o o'
    constructor
    · intro h
      unfold extractLoop at h
      split at h
      next hp =>
        obtain ⟨is, h1, h2⟩ := (ih o o').1 h
        exact ⟨is, .other hp h1, h2⟩
      next hp =>
        split at h
        · exact absurd h (by simp)
        next toks ht =>
          split at h
          · exact absurd h (by simp)
          next o1 h1 =>
            obtain ⟨is, hi, ha⟩ := (parseLoop_iff P _ o o1 toks (by omega)).1 h1
            obtain ⟨js, hj, hb⟩ := (ih o1 o').1 h
            exact ⟨is ++ js, .allocative (by simpa using hp) ht hi hj, by rw [addItems_append, ha]; exact hb⟩
    · rintro ⟨is, h, ha⟩
      cases h with
      | other hp h1 =>
        unfold extractLoop
        rw [if_pos hp]
        exact (ih o o').2 ⟨is, h1, ha⟩
      | allocative hp ht hi hj =>
        rename_i toks is' js
        rw [addItems_append] at ha
        cases h1 : addItems o is' with
        | none => simp [h1] at ha
        | some o1 =>
          rw [h1] at ha
          unfold extractLoop
          rw [if_neg (by simp [hp]), ht]
          have : parseArgs P o toks = some o1 := (parseLoop_iff P _ o o1 toks (by omega)).2 ⟨is', hi, h1⟩
          simp only [this]
          exact (ih o1 o').2 ⟨js, hj, ha⟩

/-- What is held initially does not occur among the items, each kind occurs once, and the result holds both. -/
theorem addItems_iff : ∀ (items : List Item) (o o' : Attrs), addItems o items = some o' ↔
    (items.map Item.kind).Nodup ∧ (o.skip = true → .skip ∉ items.map Item.kind) ∧ (o.bound.isSome = true → .bound ∉ items.map Item.kind) ∧
    (o.visit.isSome = true → .visit ∉ items.map Item.kind) ∧
    (o'.skip = true ↔ o.skip = true ∨ .skip ∈ items) ∧
    (∀ s, o'.bound = some s ↔ o.bound = some s ∨ .bound s ∈ items) ∧
    (∀ p, o'.visit = some p ↔ o.visit = some p ∨ .visit p ∈ items) := by
  intro items
  induction items with
  | nil =>
    intro o o'
    simp only [addItems, Option.some.injEq, List.map_nil, List.nodup_nil, List.not_mem_nil, or_false, not_false_eq_true, implies_true, true_and]
    constructor
    · rintro rfl; simp
    · rintro ⟨h1, h2, h3⟩
      obtain ⟨a, b, c⟩ := o
      obtain ⟨a', b', c'⟩ := o'
      simp only at h1 h2 h3
      have : b = b' := Option.ext fun s => (h2 s).symm
      have : c = c' := Option.ext fun s => (h3 s).symm
      have : a = a' := by cases a <;> cases a' <;> simp_all
      simp [*]
  | cons i items ih =>
    intro o o'
    cases i with
    | skip =>
      simp only [addItems, addItem]
      by_cases hs : o.skip = true
      · simp [hs, Item.kind]
      · rw [if_neg hs]
        simp only [ih]
        simp only [List.map_cons, Item.kind, List.nodup_cons, List.mem_cons, reduceCtorEq, false_or, hs]
        simp
        grind
    | bound s =>
      simp only [addItems, addItem]
      by_cases hs : o.bound.isSome = true
      · simp [hs, Item.kind]
      · rw [if_neg hs]
        simp only [ih]
        have hn : o.bound = none := by simpa using hs
        simp only [List.map_cons, Item.kind, List.nodup_cons, List.mem_cons, reduceCtorEq, false_or, hs, hn]
        simp
        grind
    | visit s =>
      simp only [addItems, addItem]
      by_cases hs : o.visit.isSome = true
      · simp [hs, Item.kind]
      · rw [if_neg hs]
        simp only [ih]
        have hn : o.visit = none := by simpa using hs
        simp only [List.map_cons, Item.kind, List.nodup_cons, List.mem_cons, reduceCtorEq, false_or, hs, hn]
        simp
        grind

theorem extractAttrs_iff (P : PathParser) (attrs : List Attr) (o : Attrs) : extractAttrs P attrs = some o ↔
    ∃ items, AttrItems P attrs items ∧ (items.map Item.kind).Nodup ∧ o.Holds items := by
  unfold extractAttrs
  rw [extractLoop_iff]
  constructor
  · rintro ⟨is, h, ha⟩
    rw [addItems_iff] at ha
    simp at ha
    exact ⟨is, h, ha.1, by simpa [Attrs.Holds] using ha.2⟩
  · rintro ⟨is, h, hn, ho⟩
    refine ⟨is, h, ?_⟩
    rw [addItems_iff]
    simp
    exact ⟨hn, by simpa [Attrs.Holds] using ho⟩

/-! ### Code generation -/

/-- Statements generated for a field bound to `ident`. -/
def stmtsOf (ident : Str) (x : FieldInfo) : List Stmt :=
  if x.attrs.skip then []
  else match x.attrs.visit with
    | some f => [.visitWith (Key.derived x.label) x.decl.size f ident]
    | none => [.visitField x.decl.ty (Key.derived x.label) ident]

theorem genVisitField_eq {P : PathParser} {x : FieldInfo} (h : extractAttrs P x.decl.attrs = some x.attrs) (ident : Str) :
    genVisitField P x.label ident x.decl = some (stmtsOf ident x) := by
  simp only [genVisitField, h, stmtsOf]
  split
  · rfl
  · cases x.attrs.visit <;> rfl

theorem collect_some {α β : Type} (f : β → Option (List α)) (g : β → List α) : ∀ (l : List β), (∀ x ∈ l, f x = some (g x)) →
    collect (l.map f) = some (l.flatMap g) := by
  intro l
  induction l with
  | nil => intro _; rfl
  | cons x l ih =>
    intro h
    simp only [List.map_cons, h x (by simp), collect, ih fun y hy => h y (by simp [hy]), List.flatMap_cons]

theorem Obj.append_nil (a : Obj) : a.append .nil = a := by
  induction a with
  | nil => rfl
  | inline k n e a r _ ih => simp [Obj.append, ih]
  | unique k n e a r _ ih => simp [Obj.append, ih]
  | shared k n p e r ih => simp [Obj.append, ih]

theorem Obj.append_assoc (a b c : Obj) : (a.append b).append c = a.append (b.append c) := by
  induction a with
  | nil => rfl
  | inline k n e a r _ ih => simp [Obj.append, ih]
  | unique k n e a r _ ih => simp [Obj.append, ih]
  | shared k n p e r ih => simp [Obj.append, ih]

theorem runStmts_append (call) (env : Env) (a b : List Stmt) {oa ob : Obj} (ha : runStmts call env a = some oa)
    (hb : runStmts call env b = some ob) : runStmts call env (a ++ b) = some (oa.append ob) := by
  induction a generalizing oa with
  | nil => simp only [runStmts, Option.some.injEq] at ha; subst ha; exact hb
  | cons s a ih =>
    simp only [runStmts, List.cons_append] at ha ⊢
    cases h1 : s.run call env with
    | none => simp [h1] at ha
    | some o1 =>
      cases h2 : runStmts call env a with
      | none => simp [h1, h2] at ha
      | some o2 =>
        simp only [h1, h2, Option.some.injEq] at ha
        subst ha
        simp only [ih h2, Option.some.injEq]
        exact (Obj.append_assoc _ _ _).symm

theorem runStmts_one (call) (env : Env) (ident : Str) (x : FieldInfo) (hv : env.get? (ascii "visitor") = some .visitor)
    (hx : env.get? ident = some (.field x.value)) (hne : ident ≠ ascii "visitor") :
    runStmts call env (stmtsOf ident x) = some (x.visit call) := by
  have hv' : env.visitor? = some () := by simp [Env.visitor?, hv]
  unfold stmtsOf FieldInfo.visit
  split
  · rfl
  · cases x.attrs.visit with
    | none => simp [runStmts, Stmt.run, hv', hx, Visit.field, Visit.fieldWith, Visit.enter, Obj.append_nil, (C26_derived_is_new _).1]
    | some f =>
      have hx' : Env.get? ((ascii "visitor", Bound.visitor) :: env) ident = some (.field x.value) := by
        rw [← hx]
        simp [Env.get?, hne.symm]
      simp [runStmts, Stmt.run, hv', hx', Visit.enter, Obj.append_nil, (C26_derived_is_new _).1]

theorem runStmts_fields (call) (env : Env) (hv : env.get? (ascii "visitor") = some .visitor) : ∀ (l : List (Str × FieldInfo)),
    (∀ x ∈ l, env.get? x.1 = some (.field x.2.value) ∧ x.1 ≠ ascii "visitor") →
    runStmts call env (l.flatMap fun x => stmtsOf x.1 x.2) = some (visitFields call (l.map Prod.snd)) := by
  intro l
  induction l with
  | nil => intro _; rfl
  | cons x l ih =>
    intro h
    simp only [List.flatMap_cons, List.map_cons, visitFields, Obj.concat]
    have hx := h x (by simp)
    exact runStmts_append call env _ _ (runStmts_one call env x.1 x.2 hv hx.1 hx.2) (ih fun y hy => h y (by simp [hy]))

/-- Bindings of distinct names are found. -/
theorem get?_bindings (env : Env) : ∀ (l : List (Str × Value)), (l.map Prod.fst).Nodup → 
    (∀ x ∈ l, Env.get? ((l.map fun x => (x.1, Bound.field x.2)).reverse ++ env) x.1 = some (.field x.2)) ∧
    (∀ y, y ∉ l.map Prod.fst → Env.get? ((l.map fun x => (x.1, Bound.field x.2)).reverse ++ env) y = Env.get? env y) := by
  intro l hn
  have hmem : ∀ y b, ((l.map fun x => (x.1, Bound.field x.2)).reverse.find? fun c => c.1 = y) = some b → 
      ∃ x ∈ l, x.1 = y ∧ b = (x.1, .field x.2) := by
    intro y b h
    have h1 := List.mem_of_find?_eq_some h
    have h2 := List.find?_some h
    simp only [List.mem_reverse, List.mem_map] at h1
    obtain ⟨x, hx, rfl⟩ := h1
    exact ⟨x, hx, by simpa using h2, rfl⟩
  constructor
  · intro x hx
    simp only [Env.get?, List.find?_append]
    cases h : ((l.map fun x => (x.1, Bound.field x.2)).reverse.find? fun c => c.1 = x.1) with
    | none =>
      rw [List.find?_eq_none] at h
      exact absurd (by simp : decide (x.1 = x.1) = true) (h (x.1, .field x.2) (by simp only [List.mem_reverse, List.mem_map]; exact ⟨x, hx, rfl⟩))
    | some b =>
      obtain ⟨z, hz, e1, rfl⟩ := hmem _ _ h
      have : z = x := by
        clear h hmem
        induction l with
        | nil => simp at hx
        | cons a l ih =>
          simp only [List.map_cons, List.nodup_cons, List.mem_map, not_exists, not_and] at hn
          rcases List.mem_cons.1 hx with hx | hx <;> rcases List.mem_cons.1 hz with hz | hz
          · rw [hx, hz]
          · exact absurd (e1.trans (by rw [hx])) (hn.1 z hz)
          · exact absurd (e1.symm.trans (by rw [hz])) (hn.1 x hx)
          · exact ih hn.2 hx hz
      subst this; rfl
  · intro y hy
    simp only [Env.get?, List.find?_append]
    cases h : ((l.map fun x => (x.1, Bound.field x.2)).reverse.find? fun c => c.1 = y) with
    | none => rfl
    | some b =>
      obtain ⟨z, hz, e1, rfl⟩ := hmem _ _ h
      exact absurd (List.mem_map.2 ⟨z, hz, e1⟩) hy

/-- Identifiers the fields are bound to. -/
def Fields.idents : Fields → List Str
  | .unit => []
  | .unnamed l => fieldsUnnamedNames l
  | .named l => l.map Prod.fst

theorem fieldsUnnamedNames_eq (l : List Field) : fieldsUnnamedNames l = (List.range l.length).map fun i => ascii "f" ++ decimal i := by
  simp only [fieldsUnnamedNames, enumerate, List.map_map]
  apply List.ext_getElem
  · simp
  · intro i h1 h2
    simp

theorem decimal_inj {a b : Nat} (h : decimal a = decimal b) : a = b := by
  rw [← Parse.number_decimal a, ← Parse.number_decimal b, h]

theorem Fields.idents_ok {fs : Fields} (h : fs.NamesOk) : fs.idents.Nodup ∧ ascii "visitor" ∉ fs.idents := by
  cases fs with
  | unit => simp [Fields.idents]
  | named l => exact h
  | unnamed l =>
    simp only [Fields.idents, fieldsUnnamedNames_eq]
    constructor
    · rw [List.nodup_iff_pairwise_ne, List.pairwise_map]
      refine List.Pairwise.imp ?_ List.nodup_range
      intro a b hab h
      exact hab (decimal_inj (List.append_cancel_left h))
    · simp only [List.mem_map, not_exists, not_and]
      intro i _ h
      have := congrArg List.head? h
      rw [show ascii "f" = [102] from rfl, show ascii "visitor" = [118, 105, 115, 105, 116, 111, 114] from by decide] at this
      simp at this

theorem Fields.Described.length {P fs infos} (h : Fields.Described P fs infos) : fs.idents.length = infos.length := by
  have h1 := congrArg List.length h.decls
  cases fs <;> simp [Fields.idents, Fields.decls, fieldsUnnamedNames_eq] at * <;> simp [h1]

/-- Statements generated for all fields. -/
theorem gen_fields {P : PathParser} {fs : Fields} {infos : List FieldInfo} (h : fs.Described P infos) :
    match fs with
    | .unit => True
    | .named named => collect (((fieldsNamedNames named).zip named).map fun x => genVisitField P x.1 x.1 x.2.2) =
        some ((fs.idents.zip infos).flatMap fun x => stmtsOf x.1 x.2)
    | .unnamed unnamed =>
        collect (((enumerate (fieldsUnnamedNames unnamed)).zip unnamed).map fun x => genVisitField P (decimal x.1.1) x.1.2 x.2) =
          some ((fs.idents.zip infos).flatMap fun x => stmtsOf x.1 x.2) ∧
        collect (((enumerate unnamed).zip (fieldsUnnamedNames unnamed)).map fun x => genVisitField P (decimal x.1.1) x.2 x.1.2) =
          some ((fs.idents.zip infos).flatMap fun x => stmtsOf x.1 x.2) := by
  have key : ∀ l : List (Str × FieldInfo), (∀ x ∈ l, x.2 ∈ infos) →
      collect (l.map fun x => genVisitField P x.2.label x.1 x.2.decl) = some (l.flatMap fun x => stmtsOf x.1 x.2) :=
    fun l hl => collect_some _ _ l fun x hx => genVisitField_eq (h.attrs _ (hl x hx)) _
  have hz : ∀ (ids : List Str), ∀ x ∈ ids.zip infos, x.2 ∈ infos := fun ids x hx => (List.of_mem_zip hx).2
  cases fs with
  | unit => trivial
  | named named =>
    simp only [Fields.idents]
    rw [← key _ (hz _)]
    congr 1
    have hl := congrArg List.length h.labels
    simp only [List.length_map, Fields.labels] at hl
    apply List.ext_getElem
    · simp [fieldsNamedNames, hl]
    · intro i h1 h2
      simp only [List.length_map, List.length_zip, fieldsNamedNames] at h1 h2
      simp only [List.getElem_map, List.getElem_zip, fieldsNamedNames]
      have e1 : infos[i].label = named[i].1 := by
        have : (infos.map FieldInfo.label)[i]'(by simp; omega) = (named.map Prod.fst)[i]'(by simp; omega) := by
          simp only [h.labels, Fields.labels]
        simpa using this
      have e2 : infos[i].decl = named[i].2 := by
        have : (infos.map FieldInfo.decl)[i]'(by simp; omega) = (named.map Prod.snd)[i]'(by simp; omega) := by
          simp only [h.decls, Fields.decls]
        simpa using this
      rw [e1, e2]
  | unnamed unnamed =>
    simp only [Fields.idents]
    rw [← key _ (hz _)]
    have hl := congrArg List.length h.labels
    simp only [List.length_map, Fields.labels, List.length_range] at hl
    have e1 : ∀ i (hi : i < infos.length), infos[i].label = decimal i := by
      intro i hi
      have : (infos.map FieldInfo.label)[i]'(by simp; omega) = ((List.range unnamed.length).map decimal)[i]'(by simp; omega) := by
        simp only [h.labels, Fields.labels]
      simpa using this
    have e2 : ∀ i (hi : i < infos.length), infos[i].decl = unnamed[i]'(by omega) := by
      intro i hi
      have : (infos.map FieldInfo.decl)[i]'(by simp; omega) = unnamed[i]'(by omega) := by
        simp only [h.decls, Fields.decls]
      simpa using this
    constructor
    · congr 1
      apply List.ext_getElem
      · simp [enumerate, fieldsUnnamedNames_eq, hl]
      · intro i h1 h2
        simp only [List.length_map, List.length_zip] at h1 h2
        simp only [List.getElem_map, List.getElem_zip, enumerate, List.getElem_zipIdx]
        rw [e1, e2]; simp
    · congr 1
      apply List.ext_getElem
      · simp [enumerate, fieldsUnnamedNames_eq, hl]
      · intro i h1 h2
        simp only [List.length_map, List.length_zip] at h1 h2
        simp only [List.getElem_map, List.getElem_zip, enumerate, List.getElem_zipIdx]
        rw [e1, e2]; simp

/-- The environment after a pattern that binds all fields, and what the statements do in it (also below another `visitor`). -/
theorem env_fields (call) {P : PathParser} {fs : Fields} {infos : List FieldInfo} (h : fs.Described P infos) (hn : fs.NamesOk) :
    let env : Env := ((fs.idents.zip (infos.map FieldInfo.value)).map fun x => (x.1, Bound.field x.2)).reverse ++ Env.start
    env.visitor? = some () ∧
    runStmts call env ((fs.idents.zip infos).flatMap fun x => stmtsOf x.1 x.2) = some (visitFields call infos) ∧
    runStmts call ((ascii "visitor", .visitor) :: env) ((fs.idents.zip infos).flatMap fun x => stmtsOf x.1 x.2) =
      some (visitFields call infos) := by
  intro env
  obtain ⟨hnd, hv⟩ := Fields.idents_ok hn
  have hlen := h.length
  have hfst : (fs.idents.zip (infos.map FieldInfo.value)).map Prod.fst = fs.idents := by
    rw [List.map_fst_zip]; simp; omega
  obtain ⟨g1, g2⟩ := get?_bindings Env.start (fs.idents.zip (infos.map FieldInfo.value)) (by rw [hfst]; exact hnd)
  have hvis : env.get? (ascii "visitor") = some .visitor := by
    rw [g2 _ (by rw [hfst]; exact hv)]; simp [Env.get?, Env.start]
  have hsnd : (fs.idents.zip infos).map Prod.snd = infos := by
    rw [List.map_snd_zip]; omega
  have hall : ∀ x ∈ fs.idents.zip infos, env.get? x.1 = some (.field x.2.value) ∧ x.1 ≠ ascii "visitor" := by
    intro x hx
    refine ⟨g1 (x.1, x.2.value) ?_, fun e => hv (e ▸ (List.of_mem_zip hx).1)⟩
    rw [List.zip_map_right]
    exact List.mem_map.2 ⟨x, hx, rfl⟩
  refine ⟨by simp [Env.visitor?, hvis], ?_, ?_⟩
  · have := runStmts_fields call env hvis _ hall
    rwa [hsnd] at this
  · have := runStmts_fields call ((ascii "visitor", .visitor) :: env) (by simp [Env.get?]) (fs.idents.zip infos) (fun x hx => by
      refine ⟨?_, (hall x hx).2⟩
      rw [← (hall x hx).1]
      simp [Env.get?, (hall x hx).2.symm])
    rwa [hsnd] at this

end Allocative.Derive
