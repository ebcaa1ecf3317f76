import Verif.Spec.Generated
import Verif.Props.Derive
/-
C38: the code that the macro generates is accepted by the compiler as far as patterns and names go.
-/
set_option linter.unusedSimpArgs false
namespace Allocative
open Derive

theorem genVisitField_vars {P : PathParser} {l i : Str} {f : Field} {r : List Stmt} (h : genVisitField P l i f = some r) :
    ∀ s ∈ r, s.var = i := by
  simp only [genVisitField] at h
  split at h
  · cases h
  · split at h
    · cases h; simp
    · split at h <;>
      · cases h
        intro s hs
        simp only [List.mem_singleton] at hs
        subst hs; rfl

theorem collect_vars {β : Type} {g : β → Option (List Stmt)} {S : List Str} : ∀ {l : List β} {r : List Stmt},
    (∀ x ∈ l, ∀ r, g x = some r → ∀ s ∈ r, s.var ∈ S) → collect (l.map g) = some r → ∀ s ∈ r, s.var ∈ S
  | [], r, _, h => by simp only [List.map_nil, collect, Option.some.injEq] at h; subst h; simp
  | x :: l, r, hg, h => by
    simp only [List.map_cons] at h
    cases hx : g x with
    | none => simp [hx, collect] at h
    | some a =>
      simp only [hx, collect] at h
      cases hl : collect (l.map g) with
      | none => simp [hl] at h
      | some b =>
        simp only [hl, Option.some.injEq] at h
        subst h
        intro s hs
        rcases List.mem_append.1 hs with hs | hs
        · exact hg x (by simp) a hx s hs
        · exact collect_vars (fun y hy => hg y (by simp [hy])) hl s hs

theorem mem_zip_enumerate {α β : Type} {l : List α} {m : List β} {x : (Nat × α) × β} (h : x ∈ (enumerate l).zip m) : x.1.2 ∈ l := by
  have h1 := (List.of_mem_zip h).1
  simp only [enumerate, List.mem_map] at h1
  obtain ⟨y, hy, e⟩ := h1
  rw [← e]
  exact List.fst_mem_of_mem_zipIdx hy

theorem fieldsUnnamedNames_ok (l : List Field) : (fieldsUnnamedNames l).length = l.length ∧ (fieldsUnnamedNames l).Nodup :=
  ⟨by simp [fieldsUnnamedNames_eq], (Fields.idents_ok (fs := .unnamed l) trivial).1⟩

theorem patOk_unnamed {l : List Field} {s : List Stmt} (h : ∀ x ∈ s, x.var ∈ fieldsUnnamedNames l) :
    PatOk (.tuple (fieldsUnnamedNames l)) s (.unnamed l) :=
  ⟨(fieldsUnnamedNames_ok l).1, fun _ => (fieldsUnnamedNames_ok l).2, h⟩

theorem patOk_named {l : List (Str × Field)} {s : List Stmt} (h : ∀ x ∈ s, x.var ∈ fieldsNamedNames l) :
    PatOk (.struct (fieldsNamedNames l)) s (.named l) := ⟨rfl, fun h => h l rfl, h⟩

theorem genVisitEnumVariant_ok {P : PathParser} {v : Variant} {arm : Arm} (h : genVisitEnumVariant P v = some arm) :
    arm.variant = v.name ∧ PatOk arm.pat arm.stmts v.fields := by
  simp only [genVisitEnumVariant] at h
  split at h
  · cases h
  · rename_i va _
    split at h
    · rename_i hf
      cases h
      rw [hf]
      exact ⟨rfl, trivial, fun _ => by simp [Pat.vars], by simp⟩
    · rename_i l hf
      simp only [Option.map_eq_some_iff] at h
      obtain ⟨s, hs, rfl⟩ := h
      rw [hf]
      refine ⟨rfl, patOk_unnamed (collect_vars ?_ hs)⟩
      intro x hx r hr s hs
      split at hr
      · cases hr; simp at hs
      · rw [genVisitField_vars hr s hs]; exact (List.of_mem_zip hx).2
    · rename_i l hf
      simp only [Option.map_eq_some_iff] at h
      obtain ⟨s, hs, rfl⟩ := h
      rw [hf]
      refine ⟨rfl, patOk_named (collect_vars ?_ hs)⟩
      intro x hx r hr s hs
      split at hr
      · cases hr; simp at hs
      · rw [genVisitField_vars hr s hs]; exact (List.of_mem_zip hx).1

theorem collectArms_get {P : PathParser} : ∀ {l : List Variant} {arms : List Arm}, collectArms (l.map (genVisitEnumVariant P)) = some arms →
    arms.map Arm.variant = l.map Variant.name ∧ ∀ (i : Nat) arm var, arms[i]? = some arm → l[i]? = some var → genVisitEnumVariant P var = some arm
  | [], arms, h => by simp only [List.map_nil, collectArms, Option.some.injEq] at h; subst h; simp
  | x :: l, arms, h => by
    simp only [List.map_cons] at h
    cases hx : genVisitEnumVariant P x with
    | none => simp [hx, collectArms] at h
    | some a =>
      simp only [hx, collectArms] at h
      cases hl : collectArms (l.map (genVisitEnumVariant P)) with
      | none => simp [hl] at h
      | some b =>
        simp only [hl, Option.some.injEq] at h
        subst h
        obtain ⟨h1, h2⟩ := collectArms_get hl
        refine ⟨by simp [h1, (genVisitEnumVariant_ok hx).1], ?_⟩
        intro i arm var ha hv
        cases i with
        | zero => simp only [List.getElem?_cons_zero, Option.some.injEq] at ha hv; subst ha; subst hv; exact hx
        | succ i => simp only [List.getElem?_cons_succ] at ha hv; exact h2 i arm var ha hv

/-- C38. Whatever is derived fits the declaration: patterns have the right shape, all variables are bound, `match` has one arm for each
variant in order and is never empty. -/
theorem C38_generated_ok (P : PathParser) (lex : Str → Bool) (input : Input) (e : Expansion)
    (h : deriveAllocativeImpl P lex input = some e) : e.body.Ok input.data := by
  simp only [deriveAllocativeImpl] at h
  split at h
  · cases h
  · split at h
    · cases h
    · split at h
      · cases h; exact trivial
      · split at h
        · cases h
        · rename_i body hb
          cases h
          simp only
          cases hd : input.data with
          | union => rw [hd] at hb; cases hb
          | struct fs =>
            rw [hd] at hb
            simp only [genVisitBody, genVisitStruct] at hb
            split at hb
            · rename_i l
              simp only [Option.map_eq_some_iff] at hb
              obtain ⟨s, hs, rfl⟩ := hb
              refine patOk_named (collect_vars ?_ hs)
              intro x hx r hr s hs
              rw [genVisitField_vars hr s hs]; exact (List.of_mem_zip hx).1
            · rename_i l
              simp only [Option.map_eq_some_iff] at hb
              obtain ⟨s, hs, rfl⟩ := hb
              refine patOk_unnamed (collect_vars ?_ hs)
              intro x hx r hr s hs
              rw [genVisitField_vars hr s hs]; exact mem_zip_enumerate hx
            · cases hb; exact trivial
          | enum variants =>
            rw [hd] at hb
            simp only [genVisitBody, genVisitEnum] at hb
            split at hb
            · cases hb
            · rename_i arms ha
              split at hb
              · cases hb; exact trivial
              · rename_i hne
                cases hb
                obtain ⟨h1, h2⟩ := collectArms_get ha
                refine ⟨by simpa using hne, h1, fun i arm var hi hv => (genVisitEnumVariant_ok (h2 i arm var hi hv)).2⟩

/-- C38. An enum without variants can be derived. -/
theorem C38_empty_enum (P : PathParser) (lex : Str → Bool) (input : Input) (a : Attrs) (hd : input.data = .enum [])
    (ha : extractAttrs P input.attrs = some a) (hb : ∀ s, a.bound = some s → lex s = true) :
    ∃ e, deriveAllocativeImpl P lex input = some e ∧ e.body.Ok input.data := by
  obtain ⟨hdr, hh⟩ := implGenerics_ok hb input.generics
  have : ∃ e, deriveAllocativeImpl P lex input = some e := by
    simp only [deriveAllocativeImpl, ha, hh, hd]
    split
    · exact ⟨_, rfl⟩
    · exact ⟨_, rfl⟩
  obtain ⟨e, he⟩ := this
  exact ⟨e, he, C38_generated_ok P lex input e he⟩

example : ∃ arms hdr, deriveAllocativeImpl DeriveExamples.P (fun _ => true) ⟨[], [], .enum DeriveExamples.variants, ascii "S", []⟩ = some ⟨hdr, ascii "S", [], [], .matchSelf arms⟩ ∧
    arms.map Arm.variant = [ascii "A", ascii "B", ascii "C"] := ⟨_, _, rfl, rfl⟩

example : deriveAllocativeImpl DeriveExamples.P (fun _ => true) ⟨[], [], .enum [], ascii "S", []⟩ = some ⟨.params [], ascii "S", [], [], .nothing⟩ := rfl

/-! The theorems of this file with a concrete case of their hypotheses. -/

example := C38_generated_ok DeriveExamples.P (fun _ => true) ⟨[], [], .enum DeriveExamples.variants, ascii "S", []⟩ _ rfl
example := C38_empty_enum DeriveExamples.P (fun _ => true) ⟨[DeriveExamples.attr [DeriveExamples.id "bound", .eq, .strLit (ascii "T")]], [.type (ascii "T") [] none], .enum [], ascii "S", []⟩
  ⟨false, some (ascii "T"), none⟩ rfl (by decide) (fun _ _ => rfl)

end Allocative
