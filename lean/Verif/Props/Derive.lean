import Verif.Lemmas.Derive
set_option linter.unusedSimpArgs false
/-
C38, C40, C41: the derive macro.
-/
namespace Allocative
open Derive

theorem implGenerics_ok {lex : Str → Bool} {a : Attrs} (hb : ∀ s, a.bound = some s → lex s = true) (generics : List GenericParam) :
    ∃ h, implGenerics lex generics a = some h := by
  cases hb' : a.bound with
  | none => simp only [implGenerics, hb']; exact ⟨_, rfl⟩
  | some s =>
    by_cases he : s = []
    · simp only [implGenerics, hb', he, ne_eq, not_true_eq_false, if_false]; exact ⟨_, rfl⟩
    · simp only [implGenerics, hb', he, ne_eq, not_false_eq_true, if_true, hb s hb']; exact ⟨_, rfl⟩

/-- C38, structs.  The derived visit of a struct value enters the type with `size_of_val` and inside visits the fields in declaration
order as `FieldInfo.visit` says: skipped fields not at all, the others exactly once under their label. -/
theorem C38_struct (P : PathParser) (lex : Str → Bool) (call : List Tok → Value → Obj) (self : Ty) (sizeOfVal i : Nat) (input : Input)
    (fs : Fields) (infos : List FieldInfo) (a : Attrs) (hd : input.data = .struct fs) (ha : extractAttrs P input.attrs = some a)
    (hs : a.skip = false) (hb : ∀ s, a.bound = some s → lex s = true) (h : fs.Described P infos) (hn : fs.NamesOk) :
    ∃ e, deriveAllocativeImpl P lex input = some e ∧
      e.visit call self sizeOfVal input.data ⟨i, infos.map FieldInfo.value⟩ =
        some (.inline (Key.new self.name) sizeOfVal .exit (visitFields call infos) .nil) := by
  obtain ⟨hdr, hh⟩ := implGenerics_ok hb input.generics
  obtain ⟨e1, e2, _⟩ := env_fields call h hn
  have hg := gen_fields h
  have hlen := h.length
  cases fs with
  | unit =>
    have : infos = [] := by have := h.labels; simpa [Fields.labels] using this
    subst this
    refine ⟨⟨hdr, input.name, typeGenerics input.generics, input.whereClause, .nothing⟩, ?_, ?_⟩
    · simp [deriveAllocativeImpl, ha, hh, hs, hd, genVisitBody, genVisitStruct]
    · simp [Expansion.visit, Body.run, Visit.enterSelf, Visit.enter, visitFields, Obj.concat, Ty.key, Key.forTypeName]
  | named l =>
    refine ⟨⟨hdr, input.name, typeGenerics input.generics, input.whereClause, .destructure (.struct (fieldsNamedNames l)) (((Fields.named l).idents.zip infos).flatMap fun x => stmtsOf x.1 x.2)⟩, ?_, ?_⟩
    · simp only [deriveAllocativeImpl, ha, hh, hs, hd, genVisitBody, genVisitStruct, hg, Bool.false_eq_true, if_false, Option.map_some]
    · have hlen' : (l.map Prod.fst).length = (infos.map FieldInfo.value).length := by rw [List.length_map (as := infos)]; exact hlen
      simp only [Expansion.visit, Body.run, hd, Fields.names, Pat.bind, fieldsNamedNames, hlen', and_self, if_true]
      simp only [Fields.idents] at e1 e2
      simp only [Fields.idents, e2, e1, Visit.enterSelf, Visit.enter, Ty.key, Key.forTypeName]
  | unnamed l =>
    refine ⟨⟨hdr, input.name, typeGenerics input.generics, input.whereClause, .destructure (.tuple (fieldsUnnamedNames l)) (((Fields.unnamed l).idents.zip infos).flatMap fun x => stmtsOf x.1 x.2)⟩, ?_, ?_⟩
    · simp only [deriveAllocativeImpl, ha, hh, hs, hd, genVisitBody, genVisitStruct, hg.1, Bool.false_eq_true, if_false, Option.map_some]
    · have hlen' : (fieldsUnnamedNames l).length = (infos.map FieldInfo.value).length := by rw [List.length_map]; exact hlen
      simp only [Expansion.visit, Body.run, hd, Pat.bind, hlen', if_true]
      simp only [Fields.idents] at e1 e2
      simp only [Fields.idents, e2, e1, Visit.enterSelf, Visit.enter, Ty.key, Key.forTypeName]

theorem genVisitEnumVariant_name {P : PathParser} {v : Variant} {a : Arm} (h : genVisitEnumVariant P v = some a) : a.variant = v.name := by
  unfold genVisitEnumVariant at h
  split at h
  · exact absurd h (by simp)
  · split at h
    · simp only [Option.some.injEq] at h; subst h; rfl
    · simp only [Option.map_eq_some_iff] at h
      obtain ⟨s, _, rfl⟩ := h; rfl
    · simp only [Option.map_eq_some_iff] at h
      obtain ⟨s, _, rfl⟩ := h; rfl

/-- The arm of the active variant is the one that is run. -/
theorem find_arm {P : PathParser} : ∀ {l : List Variant} {i : Nat} {var : Variant}, (l.map Variant.name).Nodup → l[i]? = some var →
    ∀ {arms arm}, collectArms (l.map (genVisitEnumVariant P)) = some arms → genVisitEnumVariant P var = some arm →
    arms.find? (fun a => a.variant = var.name) = some arm := by
  intro l
  induction l with
  | nil => intro i var _ h; simp at h
  | cons x l ih =>
    intro i var hn hi arms arm hc hg
    simp only [List.map_cons, collectArms] at hc
    cases hx : genVisitEnumVariant P x with
    | none => simp [hx, collectArms] at hc
    | some ax =>
      rw [hx] at hc
      simp only [collectArms] at hc
      cases hr : collectArms (l.map (genVisitEnumVariant P)) with
      | none => simp [hr] at hc
      | some ar =>
        simp only [hr, Option.some.injEq] at hc
        subst hc
        simp only [List.map_cons, List.nodup_cons] at hn
        have hxn := genVisitEnumVariant_name hx
        cases i with
        | zero =>
          simp only [List.getElem?_cons_zero, Option.some.injEq] at hi
          subst hi
          rw [hx, Option.some.injEq] at hg
          subst hg
          simp [hxn]
        | succ i =>
          simp only [List.getElem?_cons_succ] at hi
          have hmem : var.name ∈ l.map Variant.name := List.mem_map.2 ⟨var, List.mem_of_getElem? hi, rfl⟩
          have : ax.variant ≠ var.name := by rw [hxn]; intro e; exact hn.1 (e ▸ hmem)
          rw [List.find?_cons_of_neg (by simpa using this)]
          exact ih hn.2 hi hr hg

/-- All attributes of a variant that the macro looks at are well formed. -/
def Derive.Variant.AttrsOk (P : PathParser) (v : Variant) : Prop :=
  ∃ a, extractAttrs P v.attrs = some a ∧ (a.skip = false → ∀ f ∈ v.fields.decls, ∃ fa, extractAttrs P f.attrs = some fa)

theorem collect_ok {α β : Type} (f : β → Option (List α)) : ∀ (l : List β), (∀ x ∈ l, ∃ y, f x = some y) → ∃ r, collect (l.map f) = some r := by
  intro l
  induction l with
  | nil => intro _; exact ⟨[], rfl⟩
  | cons x l ih =>
    intro h
    obtain ⟨y, hy⟩ := h x (by simp)
    obtain ⟨r, hr⟩ := ih fun z hz => h z (by simp [hz])
    exact ⟨y ++ r, by simp only [List.map_cons, hy, collect, hr]⟩

theorem genVisitField_ok {P : PathParser} {f : Field} {fa : Attrs} (h : extractAttrs P f.attrs = some fa) (l i : Str) :
    ∃ r, genVisitField P l i f = some r := by
  simp only [genVisitField, h]
  split
  · exact ⟨_, rfl⟩
  · cases fa.visit <;> exact ⟨_, rfl⟩

theorem variant_ok {P : PathParser} {v : Variant} (h : v.AttrsOk P) : ∃ arm, genVisitEnumVariant P v = some arm := by
  obtain ⟨a, ha, hf⟩ := h
  simp only [genVisitEnumVariant, ha]
  cases hfs : v.fields with
  | unit => exact ⟨_, rfl⟩
  | unnamed l =>
    rw [hfs] at hf
    obtain ⟨r, hr⟩ := collect_ok (fun x : (Nat × Field) × Str =>
      if a.skip then some [] else genVisitField P (decimal x.1.1) x.2 x.1.2) ((enumerate l).zip (fieldsUnnamedNames l)) (by
        intro x hx
        by_cases hs : a.skip = true
        · exact ⟨[], by simp [hs]⟩
        · have h1 := (List.of_mem_zip hx).1
          have hm : x.1.2 ∈ l := by
            simp only [enumerate, List.mem_map] at h1
            obtain ⟨y, hy, e⟩ := h1
            have := List.fst_mem_of_mem_zipIdx hy
            rw [← e]; exact this
          obtain ⟨fa, hfa⟩ := hf (by simpa using hs) _ hm
          simp only [hs, if_false]
          exact genVisitField_ok hfa _ _)
    exact ⟨_, by simp only [hr]; rfl⟩
  | named l =>
    rw [hfs] at hf
    obtain ⟨r, hr⟩ := collect_ok (fun x : Str × (Str × Field) =>
      if a.skip then some [] else genVisitField P x.1 x.1 x.2.2) ((fieldsNamedNames l).zip l) (by
        intro x hx
        by_cases hs : a.skip = true
        · exact ⟨[], by simp [hs]⟩
        · obtain ⟨fa, hfa⟩ := hf (by simpa using hs) x.2.2 (List.mem_map.2 ⟨_, (List.of_mem_zip hx).2, rfl⟩)
          simp only [hs, if_false]
          exact genVisitField_ok hfa _ _)
    exact ⟨_, by simp only [hr]; rfl⟩

theorem variants_ok {P : PathParser} {l : List Variant} (h : ∀ v ∈ l, v.AttrsOk P) : ∃ arms, collectArms (l.map (genVisitEnumVariant P)) = some arms := by
  induction l with
  | nil => exact ⟨[], rfl⟩
  | cons x l ih =>
    obtain ⟨a, ha⟩ := variant_ok (h x (by simp))
    obtain ⟨r, hr⟩ := ih fun v hv => h v (by simp [hv])
    exact ⟨a :: r, by simp only [List.map_cons, ha, collectArms, hr]⟩

theorem collectArms_isEmpty {l : List (Option Arm)} {arms : List Arm} (h : collectArms l = some arms) (hl : l ≠ []) : arms.isEmpty = false := by
  cases l with
  | nil => exact absurd rfl hl
  | cons a l =>
    cases a with
    | none => simp [collectArms] at h
    | some a =>
      simp only [collectArms] at h
      split at h
      · exact absurd h (by simp)
      · simp only [Option.some.injEq] at h; subst h; rfl

theorem enum_aux (P : PathParser) (lex : Str → Bool) (call : List Tok → Value → Obj) (self : Ty) (sizeOfVal i : Nat) (input : Input)
    (variants : List Variant) (var : Variant) (arm : Arm) (vs : List Value) (a : Attrs)
    (hd : input.data = .enum variants) (ha : extractAttrs P input.attrs = some a) (hs : a.skip = false)
    (hb : ∀ s, a.bound = some s → lex s = true) (hvn : (variants.map Variant.name).Nodup) (hok : ∀ v ∈ variants, v.AttrsOk P)
    (hi : variants[i]? = some var) (hg : genVisitEnumVariant P var = some arm) (bs : Env)
    (hbind : arm.pat.bind var.fields.names vs = some bs) (inside : Obj)
    (hrun : (match arm.enter with
        | none => runStmts call (bs.reverse ++ Env.start) arm.stmts
        | some key =>
          match Env.visitor? (bs.reverse ++ Env.start), runStmts call ((ascii "visitor", .visitor) :: (bs.reverse ++ Env.start)) arm.stmts with
          | some (), some o => some (Visit.enter key self.size .exit o)
          | _, _ => none) = some inside) :
    ∃ e, deriveAllocativeImpl P lex input = some e ∧
      e.visit call self sizeOfVal input.data ⟨i, vs⟩ = some (.inline (Key.new self.name) sizeOfVal .exit inside .nil) := by
  obtain ⟨hdr, hh⟩ := implGenerics_ok hb input.generics
  obtain ⟨arms, harms⟩ := variants_ok hok
  have hne : variants ≠ [] := by rintro rfl; simp at hi
  have hemp := collectArms_isEmpty harms (by simpa using hne)
  refine ⟨⟨hdr, input.name, typeGenerics input.generics, input.whereClause, .matchSelf arms⟩, ?_, ?_⟩
  · simp [deriveAllocativeImpl, ha, hh, hs, hd, genVisitBody, genVisitEnum, harms, hemp]
  · have hf := find_arm hvn hi harms hg
    simp only [Expansion.visit, Body.run, hd, hi, hf, hbind]
    cases he : arm.enter with
    | none =>
      simp only [he] at hrun
      simp only [hrun, Visit.enterSelf, Visit.enter, Ty.key, Key.forTypeName]
    | some key =>
      simp only [he] at hrun
      cases h1 : Env.visitor? (bs.reverse ++ Env.start) with
      | none => simp [h1] at hrun
      | some u =>
        cases h2 : runStmts call ((ascii "visitor", .visitor) :: (bs.reverse ++ Env.start)) arm.stmts with
        | none => simp [h1, h2] at hrun
        | some o =>
          simp only [h1, h2, Option.some.injEq] at hrun
          subst hrun
          simp only [Visit.enterSelf, Visit.enter, Ty.key, Key.forTypeName]

/-- C38, enums.  For a variant with fields the derived visit enters the type, inside it the variant with `size_of::<Self>()`, and inside
that the fields in declaration order as `FieldInfo.visit` says. -/
theorem C38_enum_variant (P : PathParser) (lex : Str → Bool) (call : List Tok → Value → Obj) (self : Ty) (sizeOfVal i : Nat) (input : Input)
    (variants : List Variant) (var : Variant) (infos : List FieldInfo) (a va : Attrs)
    (hd : input.data = .enum variants) (ha : extractAttrs P input.attrs = some a) (hs : a.skip = false)
    (hb : ∀ s, a.bound = some s → lex s = true) (hvn : (variants.map Variant.name).Nodup) (hok : ∀ v ∈ variants, v.AttrsOk P)
    (hi : variants[i]? = some var) (hva : extractAttrs P var.attrs = some va) (hvs : va.skip = false) (hu : var.fields ≠ .unit)
    (h : var.fields.Described P infos) (hn : var.fields.NamesOk) :
    ∃ e, deriveAllocativeImpl P lex input = some e ∧
      e.visit call self sizeOfVal input.data ⟨i, infos.map FieldInfo.value⟩ =
        some (.inline (Key.new self.name) sizeOfVal .exit
          (.inline (Key.new var.name) self.size .exit (visitFields call infos) .nil) .nil) := by
  cases hfs : var.fields with
  | unit => exact absurd hfs hu
  | named l =>
    have h' : (Fields.named l).Described P infos := hfs ▸ h
    obtain ⟨e1, _, e3⟩ := env_fields call h' (hfs ▸ hn)
    have hg := gen_fields h'
    have hlen := h'.length
    refine enum_aux P lex call self sizeOfVal i input variants var ⟨var.name, .struct (fieldsNamedNames l), some (Key.derived var.name),
      ((Fields.named l).idents.zip infos).flatMap fun x => stmtsOf x.1 x.2⟩ _ a
      hd ha hs hb hvn hok hi ?_ (((l.map Prod.fst).zip (infos.map FieldInfo.value)).map fun x => (x.1, Bound.field x.2)) ?_ _ ?_
    · simp only [genVisitEnumVariant, hva, hvs, hfs]
      simp only [Bool.false_eq_true, if_false]
      rw [hg]; rfl
    · have hlen' : (l.map Prod.fst).length = (infos.map FieldInfo.value).length := by rw [List.length_map (as := infos)]; exact hlen
      simp only [Pat.bind, hfs, Fields.names, fieldsNamedNames, hlen', and_self, if_true]
    · simp only [Fields.idents] at e1 e3
      simp only [Fields.idents, e1, e3, Visit.enter, (C26_derived_is_new _).1]
  | unnamed l =>
    have h' : (Fields.unnamed l).Described P infos := hfs ▸ h
    obtain ⟨e1, _, e3⟩ := env_fields call h' (hfs ▸ hn)
    have hg := gen_fields h'
    have hlen := h'.length
    refine enum_aux P lex call self sizeOfVal i input variants var ⟨var.name, .tuple (fieldsUnnamedNames l), some (Key.derived var.name),
      ((Fields.unnamed l).idents.zip infos).flatMap fun x => stmtsOf x.1 x.2⟩ _ a
      hd ha hs hb hvn hok hi ?_ (((fieldsUnnamedNames l).zip (infos.map FieldInfo.value)).map fun x => (x.1, Bound.field x.2)) ?_ _ ?_
    · simp only [genVisitEnumVariant, hva, hvs, hfs]
      simp only [Bool.false_eq_true, if_false]
      rw [hg.2]; rfl
    · have hlen' : (fieldsUnnamedNames l).length = (infos.map FieldInfo.value).length := by rw [List.length_map]; exact hlen
      simp only [Pat.bind, hlen', if_true]
    · simp only [Fields.idents] at e1 e3
      simp only [Fields.idents, e1, e3, Visit.enter, (C26_derived_is_new _).1]

theorem collect_nils {β : Type} (l : List β) : collect (l.map fun _ => (some [] : Option (List Stmt))) = some [] := by
  induction l with
  | nil => rfl
  | cons x l ih => simp only [List.map_cons, collect, ih, List.append_nil]

/-- C38, a variant marked `skip`: the variant is entered, nothing inside; the attributes of its fields are not even parsed. -/
theorem C38_enum_skipped_variant (P : PathParser) (lex : Str → Bool) (call : List Tok → Value → Obj) (self : Ty) (sizeOfVal i : Nat)
    (input : Input) (variants : List Variant) (var : Variant) (vs : List Value) (a va : Attrs)
    (hd : input.data = .enum variants) (ha : extractAttrs P input.attrs = some a) (hs : a.skip = false)
    (hb : ∀ s, a.bound = some s → lex s = true) (hvn : (variants.map Variant.name).Nodup) (hok : ∀ v ∈ variants, v.AttrsOk P)
    (hi : variants[i]? = some var) (hva : extractAttrs P var.attrs = some va) (hvs : va.skip = true) (hu : var.fields ≠ .unit)
    (hn : var.fields.NamesOk) (hlen : vs.length = var.fields.decls.length) :
    ∃ e, deriveAllocativeImpl P lex input = some e ∧
      e.visit call self sizeOfVal input.data ⟨i, vs⟩ =
        some (.inline (Key.new self.name) sizeOfVal .exit (.inline (Key.new var.name) self.size .exit .nil .nil) .nil) := by
  obtain ⟨hnd, hv⟩ := Fields.idents_ok hn
  have hvis : ∀ ids : List Str, ids.length = vs.length → ids.Nodup → ascii "visitor" ∉ ids →
      Env.visitor? (((ids.zip vs).map fun x => (x.1, Bound.field x.2)).reverse ++ Env.start) = some () := by
    intro ids hl h1 h2
    have hfst : (ids.zip vs).map Prod.fst = ids := by rw [List.map_fst_zip]; omega
    obtain ⟨_, g2⟩ := get?_bindings Env.start (ids.zip vs) (by rw [hfst]; exact h1)
    simp only [Env.visitor?, g2 _ (by rw [hfst]; exact h2)]
    simp [Env.get?, Env.start]
  cases hfs : var.fields with
  | unit => exact absurd hfs hu
  | named l =>
    rw [hfs] at hnd hv hlen
    simp only [Fields.decls, List.length_map] at hlen
    refine enum_aux P lex call self sizeOfVal i input variants var ⟨var.name, .struct (fieldsNamedNames l), some (Key.derived var.name), []⟩ _ a
      hd ha hs hb hvn hok hi ?_ (((l.map Prod.fst).zip vs).map fun x => (x.1, Bound.field x.2)) ?_ _ ?_
    · simp only [genVisitEnumVariant, hva, hvs, hfs, if_true]
      rw [collect_nils]; rfl
    · simp [Pat.bind, hfs, Fields.names, fieldsNamedNames, hlen]
    · have := hvis (l.map Prod.fst) (by simp [hlen]) hnd hv
      simp only [this, runStmts, Visit.enter, (C26_derived_is_new _).1]
  | unnamed l =>
    rw [hfs] at hnd hv hlen
    simp only [Fields.decls] at hlen
    have hl : (fieldsUnnamedNames l).length = vs.length := by simp [fieldsUnnamedNames_eq, hlen]
    refine enum_aux P lex call self sizeOfVal i input variants var ⟨var.name, .tuple (fieldsUnnamedNames l), some (Key.derived var.name), []⟩ _ a
      hd ha hs hb hvn hok hi ?_ (((fieldsUnnamedNames l).zip vs).map fun x => (x.1, Bound.field x.2)) ?_ _ ?_
    · simp only [genVisitEnumVariant, hva, hvs, hfs, if_true]
      rw [collect_nils]; rfl
    · simp [Pat.bind, hl]
    · have := hvis (fieldsUnnamedNames l) hl hnd hv
      simp only [this, runStmts, Visit.enter, (C26_derived_is_new _).1]

/-- C38, unit variants: only the type is entered. -/
theorem C38_enum_unit_variant (P : PathParser) (lex : Str → Bool) (call : List Tok → Value → Obj) (self : Ty) (sizeOfVal i : Nat)
    (input : Input) (variants : List Variant) (var : Variant) (a : Attrs)
    (hd : input.data = .enum variants) (ha : extractAttrs P input.attrs = some a) (hs : a.skip = false)
    (hb : ∀ s, a.bound = some s → lex s = true) (hvn : (variants.map Variant.name).Nodup) (hok : ∀ v ∈ variants, v.AttrsOk P)
    (hi : variants[i]? = some var) (hu : var.fields = .unit) :
    ∃ e, deriveAllocativeImpl P lex input = some e ∧
      e.visit call self sizeOfVal input.data ⟨i, []⟩ = some (.inline (Key.new self.name) sizeOfVal .exit .nil .nil) := by
  obtain ⟨va, hva, _⟩ := hok var (List.mem_of_getElem? hi)
  refine enum_aux P lex call self sizeOfVal i input variants var ⟨var.name, .unit, none, []⟩ _ a hd ha hs hb hvn hok hi ?_ [] rfl _ ?_
  · simp only [genVisitEnumVariant, hva, hu]
  · simp [runStmts]

/-- C38, type-level `skip`: only the type is entered, whatever the data (unions included). -/
theorem C38_type_skip (P : PathParser) (lex : Str → Bool) (call : List Tok → Value → Obj) (self : Ty) (sizeOfVal : Nat) (input : Input)
    (v : SelfValue) (a : Attrs) (ha : extractAttrs P input.attrs = some a) (hs : a.skip = true) (hb : ∀ s, a.bound = some s → lex s = true) :
    ∃ e, deriveAllocativeImpl P lex input = some e ∧
      e.visit call self sizeOfVal input.data v = some (.inline (Key.new self.name) sizeOfVal .exit .nil .nil) := by
  obtain ⟨hdr, hh⟩ := implGenerics_ok hb input.generics
  exact ⟨⟨hdr, input.name, typeGenerics input.generics, input.whereClause, .nothing⟩, by simp [deriveAllocativeImpl, ha, hh, hs],
    by simp [Expansion.visit, Body.run, Visit.enterSelf, Visit.enter, Ty.key, Key.forTypeName]⟩

theorem collect_none {α β : Type} (f : β → Option (List α)) {l : List β} {x : β} (hx : x ∈ l) (h : f x = none) : collect (l.map f) = none := by
  induction l with
  | nil => simp at hx
  | cons y l ih =>
    simp only [List.map_cons]
    rcases List.mem_cons.1 hx with rfl | hx
    · simp only [h, collect]
    · cases f y with
      | none => rfl
      | some a => simp only [collect, ih hx]

theorem mem_zip_fst {l : List (Str × Field)} {x : Str × Field} (hx : x ∈ l) : (x.1, x) ∈ (fieldsNamedNames l).zip l := by
  rw [fieldsNamedNames]
  induction l with
  | nil => simp at hx
  | cons y l ih =>
    simp only [List.map_cons, List.zip_cons_cons]
    rcases List.mem_cons.1 hx with rfl | hx
    · exact List.mem_cons_self
    · exact List.mem_cons_of_mem _ (ih hx)

/-- C38, what is rejected: bad type-level attributes; unions; a struct with a field whose attributes are bad. -/
theorem C38_rejects (P : PathParser) (lex : Str → Bool) (input : Input) :
    (extractAttrs P input.attrs = none → deriveAllocativeImpl P lex input = none) ∧
    (∀ a, extractAttrs P input.attrs = some a → a.skip = false → input.data = .union → deriveAllocativeImpl P lex input = none) ∧
    (∀ a fs f, extractAttrs P input.attrs = some a → a.skip = false → input.data = .struct fs → f ∈ fs.decls →
      extractAttrs P f.attrs = none → deriveAllocativeImpl P lex input = none) := by
  refine ⟨fun h => by simp [deriveAllocativeImpl, h], fun a h hs hd => ?_, fun a fs f h hs hd hf hfa => ?_⟩
  · simp only [deriveAllocativeImpl, h, hs, hd, genVisitBody]
    cases implGenerics lex input.generics a <;> rfl
  · have hbad : ∀ l i, genVisitField P l i f = none := fun l i => by simp [genVisitField, hfa]
    have : genVisitStruct P fs = none := by
      cases fs with
      | unit => simp [Fields.decls] at hf
      | named l =>
        obtain ⟨x, hx, rfl⟩ := List.mem_map.1 hf
        have hm : (x.1, x) ∈ (fieldsNamedNames l).zip l := by
          exact mem_zip_fst hx
        simp only [genVisitStruct]
        rw [collect_none _ hm (hbad _ _)]; rfl
      | unnamed l =>
        obtain ⟨i, hi, rfl⟩ := List.getElem_of_mem hf
        simp only [Fields.decls] at hi hbad
        have hm : ((i, ascii "f" ++ decimal i), l[i]) ∈ (enumerate (fieldsUnnamedNames l)).zip l := by
          rw [List.mem_iff_getElem]
          refine ⟨i, by simp [enumerate, fieldsUnnamedNames_eq]; exact hi, by simp [enumerate, fieldsUnnamedNames_eq]⟩
        simp only [genVisitStruct]
        rw [collect_none _ hm (hbad _ _)]; rfl
    simp only [deriveAllocativeImpl, h, hs, hd, genVisitBody, this]
    cases implGenerics lex input.generics a <;> rfl

theorem collectArms_none {f : Variant → Option Arm} {l : List Variant} {x : Variant} (hx : x ∈ l) (h : f x = none) :
    collectArms (l.map f) = none := by
  induction l with
  | nil => simp at hx
  | cons y l ih =>
    simp only [List.map_cons]
    rcases List.mem_cons.1 hx with rfl | hx
    · simp only [h, collectArms]
    · cases f y with
      | none => rfl
      | some a => simp only [collectArms, ih hx]

/-- C38, what is rejected, enums: a variant with bad attributes; a variant that is not skipped and has a field with bad attributes. -/
theorem C38_rejects_enum (P : PathParser) (lex : Str → Bool) (input : Input) (variants : List Variant) (var : Variant) (a : Attrs)
    (ha : extractAttrs P input.attrs = some a) (hs : a.skip = false) (hd : input.data = .enum variants) (hv : var ∈ variants)
    (hbad : ¬ var.AttrsOk P) : deriveAllocativeImpl P lex input = none := by
  have hvn : genVisitEnumVariant P var = none := by
    cases hva : extractAttrs P var.attrs with
    | none => simp [genVisitEnumVariant, hva]
    | some va =>
      have h2 : va.skip = false ∧ ∃ f ∈ var.fields.decls, extractAttrs P f.attrs = none := by
        have h3 : ¬ (va.skip = false → ∀ f ∈ var.fields.decls, ∃ fa, extractAttrs P f.attrs = some fa) := fun h => hbad ⟨va, hva, h⟩
        simp only [Classical.not_imp, Classical.not_forall, not_exists] at h3
        obtain ⟨h4, f, hf, h5⟩ := h3
        refine ⟨h4, f, hf, ?_⟩
        cases h6 : extractAttrs P f.attrs with
        | none => rfl
        | some x => exact absurd h6 (h5 x)
      obtain ⟨hvs, f, hf, hfa⟩ := h2
      have hb : ∀ l i, genVisitField P l i f = none := fun l i => by simp [genVisitField, hfa]
      cases hfs : var.fields with
      | unit => rw [hfs] at hf; simp [Fields.decls] at hf
      | named l =>
        rw [hfs] at hf
        obtain ⟨x, hx, rfl⟩ := List.mem_map.1 hf
        simp only [genVisitEnumVariant, hva, hvs, hfs, Bool.false_eq_true, if_false]
        rw [collect_none _ (mem_zip_fst hx) (hb _ _)]; rfl
      | unnamed l =>
        rw [hfs] at hf
        obtain ⟨i, hi, rfl⟩ := List.getElem_of_mem hf
        simp only [Fields.decls] at hi hb
        have hm : ((i, l[i]), ascii "f" ++ decimal i) ∈ (enumerate l).zip (fieldsUnnamedNames l) := by
          rw [List.mem_iff_getElem]
          refine ⟨i, by simp [enumerate, fieldsUnnamedNames_eq]; exact hi, by simp [enumerate, fieldsUnnamedNames_eq]⟩
        simp only [genVisitEnumVariant, hva, hvs, hfs, Bool.false_eq_true, if_false]
        rw [collect_none _ hm (hb _ _)]; rfl
  have : genVisitEnum P variants = none := by simp only [genVisitEnum, collectArms_none hv hvn]
  simp only [deriveAllocativeImpl, ha, hs, hd, genVisitBody, this]
  cases implGenerics lex input.generics a <;> rfl

/-- C38, defect: a field called `visitor` shadows the macro's own variable: for no value does the generated code mean anything
(it does not compile). -/
theorem C38_field_named_visitor (P : PathParser) (lex : Str → Bool) (call : List Tok → Value → Obj) (self : Ty) (sizeOfVal : Nat)
    (input : Input) (l : List (Str × Field)) (hd : input.data = .struct (.named l)) (hv : ascii "visitor" ∈ l.map Prod.fst)
    (a : Attrs) (ha : extractAttrs P input.attrs = some a) (hs : a.skip = false) (v : SelfValue) (e : Expansion)
    (he : deriveAllocativeImpl P lex input = some e) : e.visit call self sizeOfVal input.data v = none := by
  have hbody : ∃ s, e.body = .destructure (.struct (fieldsNamedNames l)) s := by
    simp only [deriveAllocativeImpl, ha, hs, hd, genVisitBody, genVisitStruct] at he
    cases h1 : implGenerics lex input.generics a with
    | none => simp [h1] at he
    | some hdr =>
      cases h2 : collect (((fieldsNamedNames l).zip l).map fun x => genVisitField P x.1 x.1 x.2.2) with
      | none => simp [h1, h2] at he
      | some s => simp [h1, h2] at he; exact ⟨s, by rw [← he]⟩
  obtain ⟨s, hs'⟩ := hbody
  have hrun : e.body.run call self.size input.data v = none := by
    rw [hs', hd]
    simp only [Body.run, Fields.names, Pat.bind, fieldsNamedNames]
    by_cases hlen : (l.map Prod.fst).length = v.fields.length
    · simp only [hlen, and_self, if_true]
      have hvis : Env.visitor? ((((l.map Prod.fst).zip v.fields).map fun x => (x.1, Bound.field x.2)).reverse ++ Env.start) = none := by
        have hex : ∃ w, (ascii "visitor", w) ∈ (l.map Prod.fst).zip v.fields := by
          obtain ⟨i, hi, he⟩ := List.getElem_of_mem hv
          refine ⟨v.fields[i]'(by omega), ?_⟩
          rw [List.mem_iff_getElem]
          exact ⟨i, by simp at hi hlen ⊢; omega, by simp only [List.getElem_zip, he]⟩
        obtain ⟨w, hw⟩ := hex
        simp only [Env.visitor?, Env.get?, List.find?_append]
        cases hf : List.find? (fun b : Str × Bound => decide (b.1 = ascii "visitor"))
            (((l.map Prod.fst).zip v.fields).map fun x => (x.1, Bound.field x.2)).reverse with
        | none =>
          rw [List.find?_eq_none] at hf
          exact absurd (by simp) (hf (ascii "visitor", .field w) (by
            simp only [List.mem_reverse, List.mem_map]; exact ⟨_, hw, rfl⟩))
        | some b =>
          have hm := List.mem_of_find?_eq_some hf
          simp only [List.mem_reverse, List.mem_map] at hm
          obtain ⟨y, _, rfl⟩ := hm
          rfl
      simp only [hvis]
      split <;> simp_all
    · simp only [hlen, and_false, if_false]
  simp only [Expansion.visit, hrun]

/-- C40. `extract_attrs` accepts exactly the lists of attributes in which every `#[allocative(args)]` follows the grammar
`args ::= opt_item | opt_item "," args` and no option occurs twice in all of them together, and returns those options. -/
theorem C40_attrs_exact (P : PathParser) (attrs : List Attr) (o : Attrs) : extractAttrs P attrs = some o ↔
    ∃ items, AttrItems P attrs items ∧ (items.map Item.kind).Nodup ∧ o.Holds items :=
  extractAttrs_iff P attrs o

/-- C41. Impl header: with a non-empty `bound` the string verbatim (or a lex error); otherwise every parameter in order, type parameters
without default and with the extra bound iff there is neither `bound` nor `skip`, lifetimes as they are, const parameters as they are
*including their default* (which rustc rejects in an impl header). -/
theorem C41_generics (lex : Str → Bool) (generics : List GenericParam) (a : Attrs) :
    (∀ s, a.bound = some s → s ≠ [] → implGenerics lex generics a = if lex s then some (.verbatim s) else none) ∧
    ((a.bound = none ∨ a.bound = some []) → ∃ ps, implGenerics lex generics a = some (.params ps) ∧ ps.length = generics.length ∧
      ∀ (i : Nat) (p : GenericParam), generics[i]? = some p →
        match p with
        | GenericParam.type n bs _ => ps[i]? = some (.type n (if a.bound = none ∧ a.skip = false then bs ++ [ascii "allocative::Allocative"] else bs) none)
        | .lifetime n bs => ps[i]? = some (.lifetime n bs)
        | .const n t d => ps[i]? = some (.const n t d)) := by
  constructor
  · intro s hs hne
    simp [implGenerics, hs, hne]
  · intro h
    refine ⟨generics.map (fun p : GenericParam => match p with
      | .type n bs _ =>
        GenericParam.type n (if a.bound = none ∧ a.skip = false then bs ++ [ascii "allocative::Allocative"] else bs) none
      | .lifetime n bs => GenericParam.lifetime n bs
      | .const n t d => GenericParam.const n t d), ?_, by simp, ?_⟩
    · rcases h with h | h
      · simp only [implGenerics, h]
        cases a.skip <;> simp <;> intro p _ <;> cases p <;> rfl
      · simp only [implGenerics, h]
        simp
        intro p _; cases p <;> rfl
    · intro i p hp
      rw [List.getElem?_map, hp]
      cases p <;> rfl

/-! ### Concrete cases -/

namespace DeriveExamples

/-- A path parser that takes one identifier. -/
def P : PathParser where
  parse | .ident s :: rest => some ([.ident s], rest)
        | _ => none
  consumes := by
    intro toks p rest h
    split at h
    · simp only [Option.some.injEq, Prod.mk.injEq] at h; obtain ⟨_, rfl⟩ := h; simp
    · exact absurd h (by simp)

def id (s : String) : Tok := .ident (ascii s)
def attr (toks : List Tok) : Attr := ⟨ascii "allocative", some toks⟩
def u32 : Value := ⟨⟨ascii "u32", 4, false⟩, 4, Visit.simpleSized ⟨ascii "u32", 4, false⟩⟩

/-- `#[doc] #[allocative(,skip,,)] #[allocative(bound = "T", visit = f)]`. -/
example : extractAttrs P [⟨ascii "doc", none⟩, attr [.comma, id "skip", .comma, .comma], attr [id "bound", .eq, .strLit (ascii "T"), .comma, id "visit", .eq, id "f"]]
    = some ⟨true, some (ascii "T"), some [id "f"]⟩ := by decide

/-- Duplicates across attributes, unknown words and missing commas are errors. -/
example : extractAttrs P [attr [id "skip"], attr [id "skip"]] = none ∧ extractAttrs P [attr [id "foo"]] = none ∧
    extractAttrs P [attr [id "skip", id "bound", .eq, .strLit []]] = none ∧ extractAttrs P [⟨ascii "allocative", none⟩] = none := by decide

/-- `struct S { a: u32, #[allocative(skip)] b: u32, #[allocative(visit = f)] c: u32 }`. -/
def fields : Fields := .named [(ascii "a", ⟨[], 4, .app (ascii "u32") []⟩), (ascii "b", ⟨[attr [id "skip"]], 4, .app (ascii "u32") []⟩), (ascii "c", ⟨[attr [id "visit", .eq, id "f"]], 4, .app (ascii "u32") []⟩)]

def infos : List FieldInfo := [⟨ascii "a", ⟨[], 4, .app (ascii "u32") []⟩, {}, u32⟩, ⟨ascii "b", ⟨[attr [id "skip"]], 4, .app (ascii "u32") []⟩, ⟨true, none, none⟩, u32⟩,
  ⟨ascii "c", ⟨[attr [id "visit", .eq, id "f"]], 4, .app (ascii "u32") []⟩, ⟨false, none, some [id "f"]⟩, u32⟩]

theorem described : fields.Described P infos where
  labels := rfl
  decls := rfl
  attrs := by
    intro x hx
    simp only [infos, List.mem_cons, List.not_mem_nil, or_false] at hx
    rcases hx with rfl | rfl | rfl <;> decide

theorem namesOk : fields.NamesOk := by simp only [fields, Fields.NamesOk]; decide

/-- The derived visit of that struct: `b` is not there. -/
example (call : List Tok → Value → Obj) : ∃ e, deriveAllocativeImpl P (fun _ => true) ⟨[], [], .struct fields, ascii "S", []⟩ = some e ∧
    e.visit call ⟨ascii "S", 12, false⟩ 12 (.struct fields) ⟨0, [u32, u32, u32]⟩ =
      some (.inline (Key.new (ascii "S")) 12 .exit
        (.inline (Key.new (ascii "a")) 4 .exit u32.visit (.inline (Key.new (ascii "c")) 4 .exit (call [id "f"] u32) .nil)) .nil) :=
  C38_struct P (fun _ => true) call ⟨ascii "S", 12, false⟩ 12 0 ⟨[], [], .struct fields, ascii "S", []⟩ fields infos {} rfl rfl rfl (by simp)
    described namesOk

/-- `enum E { A, B { a, b, c }, #[allocative(skip)] C(u32) }` with the fields above. -/
def variants : List Variant := [⟨ascii "A", [], .unit⟩, ⟨ascii "B", [], fields⟩, ⟨ascii "C", [attr [id "skip"]], .unnamed [⟨[attr [id "foo"]], 4, .app (ascii "u32") []⟩]⟩]

theorem variantsOk : ∀ v ∈ variants, v.AttrsOk P := by
  intro v hv
  simp only [variants, List.mem_cons, List.not_mem_nil, or_false] at hv
  rcases hv with rfl | rfl | rfl
  · exact ⟨_, rfl, by simp [Fields.decls]⟩
  · refine ⟨_, rfl, fun _ f hf => ?_⟩
    simp only [fields, Fields.decls, List.map, List.mem_cons, List.not_mem_nil, or_false] at hf
    rcases hf with rfl | rfl | rfl <;> exact ⟨_, rfl⟩
  · exact ⟨_, rfl, by simp⟩

example (call : List Tok → Value → Obj) : ∃ e, deriveAllocativeImpl P (fun _ => true) ⟨[], [], .enum variants, ascii "S", []⟩ = some e ∧
    e.visit call ⟨ascii "E", 16, false⟩ 16 (.enum variants) ⟨1, [u32, u32, u32]⟩ =
      some (.inline (Key.new (ascii "E")) 16 .exit (.inline (Key.new (ascii "B")) 16 .exit
        (.inline (Key.new (ascii "a")) 4 .exit u32.visit (.inline (Key.new (ascii "c")) 4 .exit (call [id "f"] u32) .nil)) .nil) .nil) :=
  C38_enum_variant P (fun _ => true) call ⟨ascii "E", 16, false⟩ 16 1 ⟨[], [], .enum variants, ascii "S", []⟩ variants ⟨ascii "B", [], fields⟩ infos {} {}
    rfl rfl rfl (by simp) (by decide) variantsOk rfl rfl rfl (by simp [fields]) described namesOk

example (call : List Tok → Value → Obj) : ∃ e, deriveAllocativeImpl P (fun _ => true) ⟨[], [], .enum variants, ascii "S", []⟩ = some e ∧
    e.visit call ⟨ascii "E", 16, false⟩ 16 (.enum variants) ⟨2, [u32]⟩ =
      some (.inline (Key.new (ascii "E")) 16 .exit (.inline (Key.new (ascii "C")) 16 .exit .nil .nil) .nil) :=
  C38_enum_skipped_variant P (fun _ => true) call ⟨ascii "E", 16, false⟩ 16 2 ⟨[], [], .enum variants, ascii "S", []⟩ variants _ [u32] {} ⟨true, none, none⟩
    rfl rfl rfl (by simp) (by decide) variantsOk rfl rfl rfl (by simp) (by simp [Fields.NamesOk]) rfl

/-- Impl header of `<'a, T: Clone = u8, const N: usize = 1>`. -/
example : implGenerics (fun _ => true) [.lifetime (ascii "'a") [], .type (ascii "T") [ascii "Clone"] (some (ascii "u8")), .const (ascii "N") (ascii "usize") (some (ascii "1"))] {} =
    some (.params [.lifetime (ascii "'a") [], .type (ascii "T") [ascii "Clone", ascii "allocative::Allocative"] none, .const (ascii "N") (ascii "usize") (some (ascii "1"))]) := by
  decide

end DeriveExamples

/-! The theorems of this file with a concrete case of their hypotheses. -/
namespace DeriveExamples

example (call : List Tok → Value → Obj) := C38_enum_unit_variant P (fun _ => true) call ⟨ascii "E", 16, false⟩ 16 0 ⟨[], [], .enum variants, ascii "E", []⟩ variants ⟨ascii "A", [], .unit⟩ {}
  rfl rfl rfl (by simp) (by decide) variantsOk rfl rfl
/-- `#[allocative(skip)]` on the enum. -/
example (call : List Tok → Value → Obj) := C38_type_skip P (fun _ => true) call ⟨ascii "E", 16, false⟩ 16 ⟨[attr [id "skip"]], [], .enum variants, ascii "E", []⟩ ⟨1, [u32, u32, u32]⟩ ⟨true, none, none⟩
  (by decide) rfl (by simp)
/-- The variant `C` above without its `skip`: the unknown word on its field is an error. -/
example := C38_rejects_enum P (fun _ => true) ⟨[], [], .enum (variants ++ [⟨ascii "D", [], .unnamed [⟨[attr [id "foo"]], 4, .app (ascii "u32") []⟩]⟩]), ascii "E", []⟩ _
  ⟨ascii "D", [], .unnamed [⟨[attr [id "foo"]], 4, .app (ascii "u32") []⟩]⟩ {} rfl rfl rfl (by simp) (by
    rintro ⟨va, h, h'⟩
    obtain ⟨x, hx⟩ := h' (by rw [show va = {} from by cases h; rfl]) ⟨[attr [id "foo"]], 4, .app (ascii "u32") []⟩ (by simp [Fields.decls])
    exact absurd hx (by rw [show extractAttrs P [attr [id "foo"]] = none from by decide]; simp))
/-- `struct S { a: u32, visitor: u32 }`: the macro expands, the expansion does not compile. -/
example (call : List Tok → Value → Obj) (v : SelfValue) : ∃ e, deriveAllocativeImpl P (fun _ => true) ⟨[], [], .struct (.named [(ascii "a", ⟨[], 4, .app (ascii "u32") []⟩), (ascii "visitor", ⟨[], 4, .app (ascii "u32") []⟩)]), ascii "S", []⟩ = some e ∧
    e.visit call ⟨ascii "S", 8, false⟩ 8 (.struct (.named [(ascii "a", ⟨[], 4, .app (ascii "u32") []⟩), (ascii "visitor", ⟨[], 4, .app (ascii "u32") []⟩)])) v = none := by
  refine ⟨_, rfl, ?_⟩
  exact C38_field_named_visitor P (fun _ => true) call ⟨ascii "S", 8, false⟩ 8 ⟨[], [], .struct (.named [(ascii "a", ⟨[], 4, .app (ascii "u32") []⟩), (ascii "visitor", ⟨[], 4, .app (ascii "u32") []⟩)]), ascii "S", []⟩ _ rfl (by decide) {} rfl rfl v _ rfl

end DeriveExamples

end Allocative
