import Verif.Props.Report
import Verif.Props.Derive
set_option linter.unusedSimpArgs false
/-
C55: from the declaration of a type to the report of its values: what `#[derive(Allocative)]` generates, run on values of supported types, makes the
specified records.  (So `Datum.struct`, `Datum.enum` and `Datum.unit`, over which C32, C48, C49 and C52 range, are what derived implementations do.)
-/
namespace Allocative
open Derive

/-- Labels and `skip` marks of described fields. -/
def Derive.marks (infos : List FieldInfo) : List (Str × Bool) := infos.map fun x => (x.label, x.attrs.skip)

/-- `d` is what is visited of a field: nothing matters if it is marked `skip`; without `visit`, `d` is the value of the field; with `visit = f`, the function `f` visits the
value of the field like the supported value `d`, and they have the same size. -/
def Derive.FieldInfo.Shows [Target] (call : List Tok → Value → Obj) (x : FieldInfo) (d : Datum) : Prop :=
  x.attrs.skip = true ∨ match x.attrs.visit with
    | none => x.value = d.value
    | some f => call f x.value = d.value.visit ∧ x.decl.size = d.size

/-- Each field. -/
def Derive.ShowsEach [Target] (call : List Tok → Value → Obj) : List FieldInfo → List Datum → Prop
  | [], [] => True
  | x :: xs, d :: ds => x.Shows call d ∧ ShowsEach call xs ds
  | _, _ => False

theorem visitFields_marks [Target] (call : List Tok → Value → Obj) {infos : List FieldInfo} : ∀ {ds : List Datum}, ShowsEach call infos ds →
    visitFields call infos = Visit.derivedFields (marks infos) (Datum.values ds) := by
  induction infos with
  | nil =>
    intro ds h
    cases ds with
    | nil => rfl
    | cons d ds => cases h
  | cons x l ih =>
    intro ds h
    cases ds with
    | nil => cases h
    | cons d ds =>
      obtain ⟨hx, h⟩ := h
      have := ih h
      simp only [visitFields, List.map_cons, Obj.concat, marks, Visit.derivedFields, Datum.values] at this ⊢
      rw [this]
      congr 1
      simp only [FieldInfo.visit]
      cases hs : x.attrs.skip with
      | true => rfl
      | false =>
        rcases hx with hx | hx
        · rw [hs] at hx; cases hx
        · cases hv : x.attrs.visit with
          | none => rw [hv] at hx; simp only [Bool.false_eq_true, if_false]; rw [hx]; rfl
          | some f => rw [hv] at hx; simp only [Bool.false_eq_true, if_false]; rw [hx.1, hx.2]; rfl

theorem length_values [Target] (ds : List Datum) : (Datum.values ds).length = ds.length := by
  induction ds with
  | nil => rfl
  | cons d ds ih => simp [Datum.values, ih]

/-- C55. Structs: the generated implementation is that of `Datum.struct` with the declared labels, and makes the specified records: the type, then each field that is not marked
`skip` below its name (or index) in declaration order.  `size` is the `size_of_val` of the struct, which may be unsized. -/
theorem C55_struct [Target] (P : PathParser) (lex : Str → Bool) (call : List Tok → Value → Obj) (self : Ty) (size : Nat) (i : Nat) (input : Input)
    (fs : Fields) (infos : List FieldInfo) (a : Attrs) (hd : input.data = .struct fs) (ha : extractAttrs P input.attrs = some a)
    (hs : a.skip = false) (hb : ∀ s, a.bound = some s → lex s = true) (h : fs.Described P infos) (hn : fs.NamesOk)
    (ds : List Datum) (hds : ShowsEach call infos ds) :
    ∃ e o, deriveAllocativeImpl P lex input = some e ∧ e.visit call self size input.data ⟨i, infos.map FieldInfo.value⟩ = some o ∧
      o = (Datum.struct self size (marks infos) ds).value.visit ∧
      ((Datum.struct self size (marks infos) ds).WF → ∀ cur,
        o.own cur = inl (cur ++ [ty self]) size :: reportDerived (marks infos) (Datum.parts ds) (cur ++ [ty self])) := by
  obtain ⟨e, h1, h2⟩ := C38_struct P lex call self size i input fs infos a hd ha hs hb h hn
  have hval : (Datum.struct self size (marks infos) ds).value.visit = .inline (Key.new self.name) size .exit (visitFields call infos) .nil := by
    simp only [Datum.value, Impl.sized, Visit.enterSelf, Visit.enter, visitFields_marks call hds]
    rfl
  refine ⟨e, _, h1, h2, hval.symm, fun hwf cur => ?_⟩
  rw [← hval, reported _ hwf cur]
  rfl

/-- C55. Enum variants with fields. -/
theorem C55_enum_variant [Target] (P : PathParser) (lex : Str → Bool) (call : List Tok → Value → Obj) (self : Ty) (i : Nat) (input : Input)
    (variants : List Variant) (var : Variant) (infos : List FieldInfo) (a va : Attrs)
    (hd : input.data = .enum variants) (ha : extractAttrs P input.attrs = some a) (hs : a.skip = false)
    (hb : ∀ s, a.bound = some s → lex s = true) (hvn : (variants.map Variant.name).Nodup) (hok : ∀ v ∈ variants, v.AttrsOk P)
    (hi : variants[i]? = some var) (hva : extractAttrs P var.attrs = some va) (hvs : va.skip = false) (hu : var.fields ≠ .unit)
    (h : var.fields.Described P infos) (hn : var.fields.NamesOk)
    (ds : List Datum) (hds : ShowsEach call infos ds) :
    ∃ e o, deriveAllocativeImpl P lex input = some e ∧ e.visit call self self.size input.data ⟨i, infos.map FieldInfo.value⟩ = some o ∧
      o = (Datum.enum self var.name (marks infos) ds).value.visit ∧
      ((Datum.enum self var.name (marks infos) ds).WF → ∀ cur,
        o.own cur = inl (cur ++ [ty self]) self.size :: inl (cur ++ [ty self, Key.new var.name]) self.size ::
          reportDerived (marks infos) (Datum.parts ds) (cur ++ [ty self, Key.new var.name])) := by
  obtain ⟨e, h1, h2⟩ := C38_enum_variant P lex call self self.size i input variants var infos a va hd ha hs hb hvn hok hi hva hvs hu h hn
  have hval : (Datum.enum self var.name (marks infos) ds).value.visit =
      .inline (Key.new self.name) self.size .exit (.inline (Key.new var.name) self.size .exit (visitFields call infos) .nil) .nil := by
    simp only [Datum.value, Impl.sized, Visit.enterSelf, Visit.enter, visitFields_marks call hds]
    rfl
  refine ⟨e, _, h1, h2, hval.symm, fun hwf cur => ?_⟩
  rw [← hval, reported _ hwf cur]
  rfl

theorem derivedFields_skipped (labels : List Str) (vs : List Value) : Visit.derivedFields (labels.map fun l => (l, true)) vs = .nil := by
  induction labels generalizing vs with
  | nil => cases vs <;> rfl
  | cons l ls ih =>
    cases vs with
    | nil => rfl
    | cons v vs => simp only [List.map_cons, Visit.derivedFields, if_true, ih]; rfl

/-- C55. Variants marked `skip`: the type and the variant. -/
theorem C55_enum_skipped_variant [Target] (P : PathParser) (lex : Str → Bool) (call : List Tok → Value → Obj) (self : Ty) (i : Nat)
    (input : Input) (variants : List Variant) (var : Variant) (a va : Attrs)
    (hd : input.data = .enum variants) (ha : extractAttrs P input.attrs = some a) (hs : a.skip = false)
    (hb : ∀ s, a.bound = some s → lex s = true) (hvn : (variants.map Variant.name).Nodup) (hok : ∀ v ∈ variants, v.AttrsOk P)
    (hi : variants[i]? = some var) (hva : extractAttrs P var.attrs = some va) (hvs : va.skip = true) (hu : var.fields ≠ .unit)
    (hn : var.fields.NamesOk) (ds : List Datum) (hlen : ds.length = var.fields.decls.length) :
    ∃ e o, deriveAllocativeImpl P lex input = some e ∧ e.visit call self self.size input.data ⟨i, Datum.values ds⟩ = some o ∧
      o = (Datum.enum self var.name (var.fields.labels.map fun l => (l, true)) ds).value.visit ∧
      ∀ cur, o.own cur = [inl (cur ++ [ty self]) self.size, inl (cur ++ [ty self, Key.new var.name]) self.size] := by
  obtain ⟨e, h1, h2⟩ := C38_enum_skipped_variant P lex call self self.size i input variants var (Datum.values ds) a va hd ha hs hb hvn hok hi hva hvs hu hn
    (by rw [length_values, hlen])
  refine ⟨e, _, h1, h2, ?_, fun cur => ?_⟩
  · simp only [Datum.value, Impl.sized, Visit.enterSelf, Visit.enter, derivedFields_skipped]
    rfl
  · simp [Obj.own, inl, ty, Key.forTypeName]

/-- C55. Unit variants: only the type. -/
theorem C55_enum_unit_variant [Target] (P : PathParser) (lex : Str → Bool) (call : List Tok → Value → Obj) (self : Ty) (i : Nat)
    (input : Input) (variants : List Variant) (var : Variant) (a : Attrs)
    (hd : input.data = .enum variants) (ha : extractAttrs P input.attrs = some a) (hs : a.skip = false)
    (hb : ∀ s, a.bound = some s → lex s = true) (hvn : (variants.map Variant.name).Nodup) (hok : ∀ v ∈ variants, v.AttrsOk P)
    (hi : variants[i]? = some var) (hu : var.fields = .unit) :
    ∃ e o, deriveAllocativeImpl P lex input = some e ∧ e.visit call self self.size input.data ⟨i, []⟩ = some o ∧
      o = (Datum.unit self self.size 0).value.visit ∧ ∀ cur, o.own cur = [inl (cur ++ [ty self]) self.size] := by
  obtain ⟨e, h1, h2⟩ := C38_enum_unit_variant P lex call self self.size i input variants var a hd ha hs hb hvn hok hi hu
  exact ⟨e, _, h1, h2, rfl, fun cur => rfl⟩

/-- C55. Types marked `skip`: only the type, whatever the data. -/
theorem C55_type_skip [Target] (P : PathParser) (lex : Str → Bool) (call : List Tok → Value → Obj) (self : Ty) (size : Nat) (input : Input)
    (v : SelfValue) (a : Attrs) (ha : extractAttrs P input.attrs = some a) (hs : a.skip = true) (hb : ∀ s, a.bound = some s → lex s = true)
    (owned : Nat) :
    ∃ e o, deriveAllocativeImpl P lex input = some e ∧ e.visit call self size input.data v = some o ∧
      o = (Datum.unit self size owned).value.visit ∧ ∀ cur, o.own cur = [inl (cur ++ [ty self]) size] := by
  obtain ⟨e, h1, h2⟩ := C38_type_skip P lex call self size input v a ha hs hb
  exact ⟨e, _, h1, h2, rfl, fun cur => rfl⟩

/-! ### A concrete case -/

namespace DerivedReportExamples

attribute [local instance] Target.x64
open DeriveExamples

/-- `struct S(u32, #[allocative(skip)] u32)`. -/
def fields : Fields := .unnamed [⟨[], 4, .app (ascii "u32") []⟩, ⟨[attr [DeriveExamples.id "skip"]], 4, .app (ascii "u32") []⟩]
def tU32 : Ty := ⟨ascii "u32", 4, false⟩
def tS : Ty := ⟨ascii "S", 8, false⟩
def infos : List FieldInfo :=
  [⟨ascii "0", ⟨[], 4, .app (ascii "u32") []⟩, {}, Impl.plain tU32⟩, ⟨ascii "1", ⟨[attr [DeriveExamples.id "skip"]], 4, .app (ascii "u32") []⟩, ⟨true, none, none⟩, Impl.plain tU32⟩]

theorem described : fields.Described P infos where
  labels := by decide
  decls := rfl
  attrs := by
    intro x hx
    simp only [infos, List.mem_cons, List.not_mem_nil, or_false] at hx
    rcases hx with rfl | rfl <;> decide

example (call : List Tok → Value → Obj) : ∃ e o, deriveAllocativeImpl P (fun _ => true) ⟨[], [], .struct fields, ascii "S", []⟩ = some e ∧
    e.visit call tS 8 (.struct fields) ⟨0, [Impl.plain tU32, Impl.plain tU32]⟩ = some o ∧
    ∀ cur, o.own cur = [inl (cur ++ [ty tS]) 8, inl (cur ++ [ty tS, lbl "0"]) 4, inl (cur ++ [ty tS, lbl "0", ty tU32]) 4] := by
  obtain ⟨e, o, h1, h2, _, h4⟩ := C55_struct P (fun _ => true) call tS 8 0 ⟨[], [], .struct fields, ascii "S", []⟩ fields infos {} rfl rfl rfl (by simp) described trivial
    [.plain tU32, .plain tU32] ⟨.inr rfl, .inl rfl, trivial⟩
  refine ⟨e, o, h1, h2, fun cur => ?_⟩
  rw [h4 (by simp [Datum.WF, Datum.WFAll, marks, infos, tU32])]
  simp [reportDerived, marks, infos, Datum.parts, Datum.report, reportField, Datum.size, Datum.value, Impl.plain, Impl.sized, tU32, tS, lbl, Visit.simpleSized]

/-- `struct Dst(str)` (test_derive/dst.rs), an unsized struct. -/
def dst : Fields := .unnamed [⟨[], 0, .app (ascii "str") []⟩]
def tStr : Ty := ⟨ascii "str", 0, false⟩
def tDst : Ty := ⟨ascii "demo::Dst", 0, false⟩
def dstInfos (len : Nat) : List FieldInfo := [⟨ascii "0", ⟨[], 0, .app (ascii "str") []⟩, {}, Impl.str tStr len⟩]

theorem dst_described (len : Nat) : dst.Described P (dstInfos len) where
  labels := by simp only [dstInfos, List.map_cons, List.map_nil]; decide
  decls := rfl
  attrs := by
    intro x hx
    simp only [dstInfos, List.mem_cons, List.not_mem_nil, or_false] at hx
    subst hx
    rfl

/-- Of a `Dst` with `len` bytes. -/
example (call : List Tok → Value → Obj) (len : Nat) : ∃ e o, deriveAllocativeImpl P (fun _ => true) ⟨[], [], .struct dst, ascii "S", []⟩ = some e ∧
    e.visit call tDst len (.struct dst) ⟨0, [Impl.str tStr len]⟩ = some o ∧
    ∀ cur, o.own cur = [inl (cur ++ [ty tDst]) len, inl (cur ++ [ty tDst, lbl "0"]) len, inl (cur ++ [ty tDst, lbl "0", lbl "str"]) len] := by
  obtain ⟨e, o, h1, h2, _, h4⟩ := C55_struct P (fun _ => true) call tDst len 0 ⟨[], [], .struct dst, ascii "S", []⟩ dst (dstInfos len) {} rfl rfl rfl (by simp) (dst_described len) trivial
    [.str tStr len] ⟨.inr rfl, trivial⟩
  refine ⟨e, o, h1, h2, fun cur => ?_⟩
  rw [h4 (by simp [Datum.WF, Datum.WFAll, marks, dstInfos])]
  simp [reportDerived, marks, dstInfos, Datum.parts, Datum.report, reportField, Datum.size, Datum.value, Impl.str, tStr, tDst, lbl]

/-! The example of the documentation of `visit` (allocative_trait.rs:103-138): `struct Bar { #[allocative(visit = visit_unsupported)] unsupported: Unsupported<usize> }`, where
`visit_unsupported` enters the value and visits its elements below the label `elements`. -/

def tUsize : Ty := ⟨ascii "usize", 8, false⟩
def tUnsupported : Ty := ⟨ascii "demo::Unsupported<usize>", 24, true⟩
def tBar : Ty := ⟨ascii "demo::Bar", 24, true⟩

def barAttr : Attr := attr [DeriveExamples.id "visit", .eq, DeriveExamples.id "visit_unsupported"]
def bar : Fields := .named [(ascii "unsupported", ⟨[barAttr], 24, .app (ascii "Unsupported") [.app (ascii "usize") []]⟩)]

/-- What `visit_unsupported` does to a value with two elements. -/
def visitUnsupported : Obj :=
  Visit.enterSelf tUnsupported 24 .exit
    ((Visit.field (Key.new (ascii "elements")) (Impl.plain tUsize)).append (Visit.field (Key.new (ascii "elements")) (Impl.plain tUsize)))

/-- A value of a type that does not implement `Allocative`: its `visit` is never used. -/
def unsupported : Value := ⟨tUnsupported, 24, .nil⟩
def barInfos : List FieldInfo := [⟨ascii "unsupported", ⟨[barAttr], 24, .app (ascii "Unsupported") [.app (ascii "usize") []]⟩, ⟨false, none, some [DeriveExamples.id "visit_unsupported"]⟩, unsupported⟩]

/-- The same as a supported value: as if `Unsupported` had a derived implementation with fields called `elements`. -/
def shown : Datum := .struct tUnsupported 24 [(ascii "elements", false), (ascii "elements", false)] [.plain tUsize, .plain tUsize]

theorem bar_described : bar.Described P barInfos where
  labels := rfl
  decls := rfl
  attrs := by
    intro x hx
    simp only [barInfos, List.mem_cons, List.not_mem_nil, or_false] at hx
    subst hx
    decide

example : ∃ e o, deriveAllocativeImpl P (fun _ => true) ⟨[], [], .struct bar, ascii "S", []⟩ = some e ∧
    e.visit (fun _ _ => visitUnsupported) tBar 24 (.struct bar) ⟨0, [unsupported]⟩ = some o ∧
    ∀ cur, o.own cur = [inl (cur ++ [ty tBar]) 24, inl (cur ++ [ty tBar, lbl "unsupported"]) 24, inl (cur ++ [ty tBar, lbl "unsupported", ty tUnsupported]) 24,
      inl (cur ++ [ty tBar, lbl "unsupported", ty tUnsupported, lbl "elements"]) 8, inl (cur ++ [ty tBar, lbl "unsupported", ty tUnsupported, lbl "elements", ty tUsize]) 8,
      inl (cur ++ [ty tBar, lbl "unsupported", ty tUnsupported, lbl "elements"]) 8, inl (cur ++ [ty tBar, lbl "unsupported", ty tUnsupported, lbl "elements", ty tUsize]) 8] := by
  obtain ⟨e, o, h1, h2, _, h4⟩ := C55_struct P (fun _ => true) (fun _ _ => visitUnsupported) tBar 24 0 ⟨[], [], .struct bar, ascii "S", []⟩ bar barInfos {} rfl rfl rfl (by simp)
    bar_described (by simp only [bar, Fields.NamesOk]; decide) [shown] ⟨.inr ⟨rfl, rfl⟩, trivial⟩
  refine ⟨e, o, h1, h2, fun cur => ?_⟩
  rw [h4 (by simp [Datum.WF, Datum.WFAll, marks, barInfos, shown, tUsize])]
  simp [reportDerived, marks, barInfos, shown, Datum.parts, Datum.report, reportField, Datum.size, Datum.value, Impl.plain, Impl.sized, Visit.simpleSized, tUsize, tBar, lbl]

end DerivedReportExamples

/-! The theorems of this file with a concrete case of their hypotheses. -/
namespace DerivedReportExamples

attribute [local instance] Target.x64
open DeriveExamples

/-- `enum E { A, B(..), #[allocative(skip)] C(u32) }` with the fields of `S` above in `B`. -/
def enumVariants : List Variant := [⟨ascii "A", [], .unit⟩, ⟨ascii "B", [], fields⟩, ⟨ascii "C", [attr [DeriveExamples.id "skip"]], .unnamed [⟨[], 4, .app (ascii "u32") []⟩]⟩]
theorem enumVariants_ok : ∀ v ∈ enumVariants, v.AttrsOk P := by
  intro v hv
  simp only [enumVariants, List.mem_cons, List.not_mem_nil, or_false] at hv
  rcases hv with rfl | rfl | rfl
  · exact ⟨_, rfl, by simp [Fields.decls]⟩
  · refine ⟨_, rfl, fun _ f hf => ?_⟩
    simp only [fields, Fields.decls, List.map, List.mem_cons, List.not_mem_nil, or_false] at hf
    rcases hf with rfl | rfl <;> exact ⟨_, rfl⟩
  · exact ⟨_, rfl, by simp⟩

/-- In variant `B` the field that is not skipped is reported, below the variant. -/
example (call : List Tok → Value → Obj) : ∃ e o, deriveAllocativeImpl P (fun _ => true) ⟨[], [], .enum enumVariants, ascii "S", []⟩ = some e ∧
    e.visit call tS tS.size (.enum enumVariants) ⟨1, [Impl.plain tU32, Impl.plain tU32]⟩ = some o ∧
    ∀ cur, o.own cur = [inl (cur ++ [ty tS]) 8, inl (cur ++ [ty tS, lbl "B"]) 8, inl (cur ++ [ty tS, lbl "B", lbl "0"]) 4, inl (cur ++ [ty tS, lbl "B", lbl "0", ty tU32]) 4] := by
  obtain ⟨e, o, h1, h2, _, h4⟩ := C55_enum_variant P (fun _ => true) call tS 1 ⟨[], [], .enum enumVariants, ascii "S", []⟩ enumVariants ⟨ascii "B", [], fields⟩ infos {} {}
    rfl rfl rfl (by simp) (by decide) enumVariants_ok rfl rfl rfl (by simp [fields]) described trivial [.plain tU32, .plain tU32] ⟨.inr rfl, .inl rfl, trivial⟩
  refine ⟨e, o, h1, h2, fun cur => ?_⟩
  rw [h4 (by simp [Datum.WF, Datum.WFAll, marks, infos, tU32])]
  simp [reportDerived, marks, infos, Datum.parts, Datum.report, reportField, Datum.size, Datum.value, Impl.plain, Impl.sized, tU32, tS, lbl, Visit.simpleSized]

example (call : List Tok → Value → Obj) := C55_enum_skipped_variant P (fun _ => true) call tS 2 ⟨[], [], .enum enumVariants, ascii "S", []⟩ enumVariants
  ⟨ascii "C", [attr [DeriveExamples.id "skip"]], .unnamed [⟨[], 4, .app (ascii "u32") []⟩]⟩ {} ⟨true, none, none⟩ rfl rfl rfl (by simp) (by decide) enumVariants_ok rfl (by decide) rfl
  (by simp) trivial [.plain tU32] rfl
example (call : List Tok → Value → Obj) := C55_enum_unit_variant P (fun _ => true) call tS 0 ⟨[], [], .enum enumVariants, ascii "S", []⟩ enumVariants ⟨ascii "A", [], .unit⟩ {}
  rfl rfl rfl (by simp) (by decide) enumVariants_ok rfl rfl
example (call : List Tok → Value → Obj) := C55_type_skip P (fun _ => true) call tS 8 ⟨[attr [DeriveExamples.id "skip"]], [], .enum enumVariants, ascii "S", []⟩ ⟨1, [Impl.plain tU32, Impl.plain tU32]⟩
  ⟨true, none, none⟩ (by decide) rfl (by simp) 0

end DerivedReportExamples

end Allocative
