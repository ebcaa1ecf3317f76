import Verif.Spec.DeriveTypes
import Verif.Props.Generated
set_option linter.unusedSimpArgs false
/-
C41, continued: parameters and trait bounds of the generated impl.
-/
namespace Allocative
open Derive

/-! ### Obligations of the body -/

theorem genVisitField_demand {P : PathParser} {l i : Str} {f : Field} {r : List Stmt} (h : genVisitField P l i f = some r) (t : TypeExpr) :
    t ∈ r.flatMap Stmt.demand ↔ f.IsVisited P ∧ f.ty = t := by
  simp only [genVisitField] at h
  unfold Field.IsVisited
  split at h
  · cases h
  · rename_i a ha
    rw [ha]
    split at h
    · rename_i hs
      cases h
      simp [hs]
    · rename_i hs
      split at h
      · rename_i p hp
        cases h
        simp [Stmt.demand, hp]
      · rename_i hp
        cases h
        simp only [List.flatMap_cons, List.flatMap_nil, List.append_nil, Stmt.demand, List.mem_singleton]
        have hs' : a.skip = false := by simpa using hs
        exact ⟨fun e => ⟨⟨a, rfl, hs', hp⟩, e.symm⟩, fun h => h.2.symm⟩

theorem collect_demand {β : Type} {g : β → Option (List Stmt)} {D : β → TypeExpr → Prop} : ∀ {l : List β} {r : List Stmt},
    (∀ x ∈ l, ∀ r, g x = some r → ∀ t, t ∈ r.flatMap Stmt.demand ↔ D x t) → collect (l.map g) = some r →
    ∀ t, t ∈ r.flatMap Stmt.demand ↔ ∃ x ∈ l, D x t
  | [], r, _, h => by simp only [List.map_nil, collect, Option.some.injEq] at h; subst h; simp
  | x :: l, r, hg, h => by
    simp only [List.map_cons] at h
    cases hx : g x with
    | none => simp [hx, collect] at h
    | some a =>
      simp only [hx, collect] at h
      cases hl : collect (l.map g) with
      | none => simp [hl] at h
      | some b =>
        simp only [hl, Option.some.injEq] at h
        subst h
        intro t
        rw [List.flatMap_append, List.mem_append, hg x (by simp) a hx t, collect_demand (fun y hy => hg y (by simp [hy])) hl t]
        simp

theorem mem_zip_of_length {α β : Type} : ∀ {l : List α} {m : List β}, l.length = m.length → ∀ b ∈ m, ∃ a, (a, b) ∈ l.zip m
  | [], [], _, b, hb => by simp at hb
  | _ :: _, [], h, _, _ => by simp at h
  | [], _ :: _, h, _, _ => by simp at h
  | a :: l, c :: m, h, b, hb => by
    rcases List.mem_cons.1 hb with rfl | hb
    · exact ⟨a, by simp⟩
    · obtain ⟨a', h'⟩ := mem_zip_of_length (l := l) (m := m) (by simpa using h) b hb
      exact ⟨a', by simp [h']⟩

theorem genVisitStruct_demand {P : PathParser} {fs : Fields} {body : Body} (h : genVisitStruct P fs = some body) (t : TypeExpr) :
    t ∈ body.demands ↔ ∃ f ∈ fs.decls, f.IsVisited P ∧ f.ty = t := by
  cases fs with
  | unit => simp only [genVisitStruct, Option.some.injEq] at h; subst h; simp [Body.demands, Fields.decls]
  | named l =>
    simp only [genVisitStruct, Option.map_eq_some_iff] at h
    obtain ⟨s, hs, rfl⟩ := h
    rw [Body.demands, collect_demand (D := fun x t => x.2.2.IsVisited P ∧ x.2.2.ty = t) (fun x _ r hr t => genVisitField_demand hr t) hs t]
    constructor
    · rintro ⟨x, hx, h⟩
      exact ⟨x.2.2, List.mem_map_of_mem (List.of_mem_zip hx).2, h⟩
    · rintro ⟨f, hf, h⟩
      obtain ⟨y, hy, rfl⟩ := List.mem_map.1 hf
      obtain ⟨n, hn⟩ := mem_zip_of_length (l := fieldsNamedNames l) (m := l) (by simp [fieldsNamedNames]) y hy
      exact ⟨_, hn, h⟩
  | unnamed l =>
    simp only [genVisitStruct, Option.map_eq_some_iff] at h
    obtain ⟨s, hs, rfl⟩ := h
    rw [Body.demands, collect_demand (D := fun x t => x.2.IsVisited P ∧ x.2.ty = t) (fun x _ r hr t => genVisitField_demand hr t) hs t]
    constructor
    · rintro ⟨x, hx, h⟩
      exact ⟨x.2, (List.of_mem_zip hx).2, h⟩
    · rintro ⟨f, hf, h⟩
      obtain ⟨n, hn⟩ := mem_zip_of_length (l := enumerate (fieldsUnnamedNames l)) (m := l) (by simp [enumerate, (fieldsUnnamedNames_ok l).1]) f hf
      exact ⟨_, hn, h⟩

theorem genVisitEnumVariant_demand {P : PathParser} {v : Variant} {arm : Arm} (h : genVisitEnumVariant P v = some arm) (t : TypeExpr) :
    t ∈ arm.stmts.flatMap Stmt.demand ↔ (∃ a, extractAttrs P v.attrs = some a ∧ a.skip = false) ∧ ∃ f ∈ v.fields.decls, f.IsVisited P ∧ f.ty = t := by
  simp only [genVisitEnumVariant] at h
  split at h
  · cases h
  · rename_i va hva
    rw [hva]
    split at h
    · rename_i hf
      cases h
      simp [hf, Fields.decls]
    · rename_i l hf
      simp only [Option.map_eq_some_iff] at h
      obtain ⟨s, hs, rfl⟩ := h
      rw [collect_demand (D := fun x t => va.skip = false ∧ x.1.2.IsVisited P ∧ x.1.2.ty = t) (by
        intro x _ r hr t
        split at hr
        · rename_i hsk
          cases hr; simp [hsk]
        · rename_i hsk
          rw [genVisitField_demand hr t]; simp [hsk]) hs t, hf]
      constructor
      · rintro ⟨x, hx, h1, h2⟩
        exact ⟨⟨va, rfl, h1⟩, x.1.2, mem_zip_enumerate hx, h2⟩
      · rintro ⟨⟨a, ha, h1⟩, f, hf, h2⟩
        cases ha
        simp only [Fields.decls] at hf
        obtain ⟨i, hi, rfl⟩ := List.getElem_of_mem hf
        obtain ⟨e1, e2⟩ := fieldsUnnamedNames_ok l
        refine ⟨((i, l[i]), (fieldsUnnamedNames l)[i]'(by omega)), ?_, h1, h2⟩
        rw [List.mem_iff_getElem]
        refine ⟨i, by simp [enumerate, e1, hi], ?_⟩
        simp [enumerate]
    · rename_i l hf
      simp only [Option.map_eq_some_iff] at h
      obtain ⟨s, hs, rfl⟩ := h
      rw [collect_demand (D := fun x t => va.skip = false ∧ x.2.2.IsVisited P ∧ x.2.2.ty = t) (by
        intro x _ r hr t
        split at hr
        · rename_i hsk
          cases hr; simp [hsk]
        · rename_i hsk
          rw [genVisitField_demand hr t]; simp [hsk]) hs t, hf]
      constructor
      · rintro ⟨x, hx, h1, h2⟩
        exact ⟨⟨va, rfl, h1⟩, x.2.2, List.mem_map_of_mem (List.of_mem_zip hx).2, h2⟩
      · rintro ⟨⟨a, ha, h1⟩, f, hf, h2⟩
        cases ha
        obtain ⟨y, hy, rfl⟩ := List.mem_map.1 hf
        obtain ⟨n, hn⟩ := mem_zip_of_length (l := fieldsNamedNames l) (m := l) (by simp [fieldsNamedNames]) y hy
        exact ⟨_, hn, h1, h2⟩

theorem collectArms_demand {P : PathParser} : ∀ {l : List Variant} {arms : List Arm}, collectArms (l.map (genVisitEnumVariant P)) = some arms → ∀ t,
    t ∈ (Body.matchSelf arms).demands ↔ (Data.enum l).Visits P t
  | [], arms, h, t => by simp only [List.map_nil, collectArms, Option.some.injEq] at h; subst h; simp [Body.demands, Data.Visits]
  | x :: l, arms, h, t => by
    simp only [List.map_cons] at h
    cases hx : genVisitEnumVariant P x with
    | none => simp [hx, collectArms] at h
    | some a =>
      simp only [hx, collectArms] at h
      cases hl : collectArms (l.map (genVisitEnumVariant P)) with
      | none => simp [hl] at h
      | some b =>
        simp only [hl, Option.some.injEq] at h
        subst h
        have ih := collectArms_demand hl t
        simp only [Body.demands, Data.Visits] at ih ⊢
        rw [List.flatMap_cons, List.mem_append, genVisitEnumVariant_demand hx t, ih]
        simp

/-- C41. The generated code requires the trait exactly of the types of the fields that are visited by their own implementation: not of fields with `skip` or `visit = f`, nor of
those of skipped variants, and of nothing if the type is skipped. -/
theorem C41_demands (P : PathParser) (lex : Str → Bool) (input : Input) (e : Expansion) (a : Attrs) (ha : extractAttrs P input.attrs = some a)
    (h : deriveAllocativeImpl P lex input = some e) (t : TypeExpr) : t ∈ e.body.demands ↔ a.skip = false ∧ input.data.Visits P t := by
  simp only [deriveAllocativeImpl, ha] at h
  split at h
  · cases h
  · split at h
    · rename_i hs
      cases h
      simp [Body.demands, hs]
    · rename_i hs
      split at h
      · cases h
      · rename_i body hb
        cases h
        have hs' : a.skip = false := by simpa using hs
        simp only [hs', true_and]
        cases hd : input.data with
        | union => rw [hd] at hb; cases hb
        | struct fs =>
          rw [hd] at hb
          exact genVisitStruct_demand hb t
        | enum variants =>
          rw [hd] at hb
          simp only [genVisitBody, genVisitEnum] at hb
          split at hb
          · cases hb
          · rename_i arms harms
            have := collectArms_demand harms t
            split at hb
            · rename_i hemp
              cases hb
              have : arms = [] := by simpa using hemp
              subst this
              simpa [Body.demands] using this
            · cases hb
              exact this

/-! ### The header -/

theorem GenericParam.name_eq : GenericParam.name = GenericParam.ident := by funext p; cases p <;> rfl

theorem GenericParam.isLifetime_iff (p : GenericParam) : p.isLifetime = true ↔ p.IsLifetime := by
  cases p <;> simp [GenericParam.isLifetime, GenericParam.IsLifetime]

theorem typeGenerics_eq {generics : List GenericParam} (h : ParamsOk generics) : typeGenerics generics = generics.map GenericParam.ident := by
  obtain ⟨ls, rest, rfl, h1, h2⟩ := h.lifetimesFirst
  have h1 : ∀ p ∈ ls, p.isLifetime = true := fun p hp => (GenericParam.isLifetime_iff p).2 (h1 p hp)
  have h2 : ∀ p ∈ rest, p.isLifetime = false := fun p hp => Bool.eq_false_iff.2 (fun e => h2 p hp ((GenericParam.isLifetime_iff p).1 e))
  have e1 : ls.filter (fun p => p.isLifetime) = ls := List.filter_eq_self.2 h1
  have e2 : rest.filter (fun p => p.isLifetime) = [] := List.filter_eq_nil_iff.2 (fun p hp => by simp [h2 p hp])
  have e3 : ls.filter (fun p => !p.isLifetime) = [] := List.filter_eq_nil_iff.2 (fun p hp => by simp [h1 p hp])
  have e4 : rest.filter (fun p => !p.isLifetime) = rest := List.filter_eq_self.2 (fun p hp => by simp [h2 p hp])
  simp [typeGenerics, e1, e2, e3, e4, GenericParam.name_eq]

/-- A parameter as `impl_generics` writes it. -/
def written (a : Attrs) : GenericParam → GenericParam
  | .type n bs _ => .type n (if a.bound.isNone && !a.skip then bs ++ [ascii "allocative::Allocative"] else bs) none
  | .lifetime n bs => .lifetime n bs
  | .const n t d => .const n t d

theorem implGenerics_written {lex : Str → Bool} {generics : List GenericParam} {a : Attrs} (hb : a.bound = none ∨ a.bound = some []) :
    implGenerics lex generics a = some (.params (generics.map (written a))) := by
  rcases hb with hb | hb <;>
  · simp only [implGenerics, hb, ne_eq, not_true_eq_false, if_false, Option.some.injEq, ImplGenerics.params.injEq]
    apply List.map_congr_left
    intro p _
    cases p <;> simp [written, hb]

theorem written_name (a : Attrs) (p : GenericParam) : (written a p).ident = p.ident := by cases p <;> rfl
theorem written_isLifetime (a : Attrs) (p : GenericParam) : (written a p).IsLifetime ↔ p.IsLifetime := by cases p <;> simp [written, GenericParam.IsLifetime]
theorem written_serves (a : Attrs) (p : GenericParam) : (written a p).Serves p := by
  cases p with
  | type n bs d =>
    simp only [written, GenericParam.Serves]
    intro b hb
    split
    · simp [hb]
    · exact hb
  | lifetime n bs => exact fun b hb => hb
  | const n t d => rfl

/-- The header and the rest of a derived impl. -/
theorem derive_header {P : PathParser} {lex : Str → Bool} {input : Input} {e : Expansion} {a : Attrs} (ha : extractAttrs P input.attrs = some a)
    (h : deriveAllocativeImpl P lex input = some e) :
    implGenerics lex input.generics a = some e.header ∧ e.name = input.name ∧ e.typeArgs = typeGenerics input.generics ∧ e.whereClause = input.whereClause := by
  simp only [deriveAllocativeImpl, ha] at h
  split at h
  · cases h
  · rename_i hdr hh
    split at h
    · cases h; exact ⟨hh, rfl, rfl, rfl⟩
    · split at h
      · cases h
      · cases h; exact ⟨hh, rfl, rfl, rfl⟩

/-- C41. Without `bound` (or with an empty one) the impl is for the type applied to its own parameters, under its own where clause, and rustc accepts its header exactly if no const
parameter has a default and no lifetime is called like one of the generated method. -/
theorem C41_header_ok (P : PathParser) (lex : Str → Bool) (read : Str → List GenericParam) (input : Input) (e : Expansion) (a : Attrs)
    (ha : extractAttrs P input.attrs = some a) (h : deriveAllocativeImpl P lex input = some e) (hb : a.bound = none ∨ a.bound = some [])
    (hg : ParamsOk input.generics) :
    e.name = input.name ∧ e.whereClause = input.whereClause ∧ e.typeArgs = input.generics.map GenericParam.ident ∧
    (ImplOk input.generics (e.header.read read) e.typeArgs ↔
      (∀ n t d, .const n t d ∈ input.generics → d = none) ∧ ∀ p ∈ input.generics, p.ident ∉ methodLifetimes) := by
  obtain ⟨h1, h2, h3, h4⟩ := derive_header ha h
  rw [implGenerics_written hb, Option.some.injEq] at h1
  rw [typeGenerics_eq hg] at h3
  refine ⟨h2, h4, h3, ?_⟩
  rw [← h1, h3]
  simp only [ImplGenerics.read]
  have hn : (input.generics.map (written a)).map GenericParam.ident = input.generics.map GenericParam.ident := by
    rw [List.map_map]; apply List.map_congr_left; intro p _; exact written_name a p
  constructor
  · intro ok
    refine ⟨?_, ?_⟩
    · intro n t d hm
      exact ok.noDefaults (written a (.const n t d)) (List.mem_map_of_mem hm)
    · intro p hp
      have := ok.noShadow (written a p) (List.mem_map_of_mem hp)
      rwa [written_name] at this
  · rintro ⟨k1, k2⟩
    refine ⟨⟨by rw [hn]; exact hg.distinct, ?_⟩, ?_, by simp, ?_, ?_, ?_⟩
    · obtain ⟨ls, rest, e0, g1, g2⟩ := hg.lifetimesFirst
      refine ⟨ls.map (written a), rest.map (written a), by rw [e0, List.map_append], ?_, ?_⟩
      · intro p hp; obtain ⟨q, hq, rfl⟩ := List.mem_map.1 hp; rw [written_isLifetime]; exact g1 q hq
      · intro p hp; obtain ⟨q, hq, rfl⟩ := List.mem_map.1 hp; rw [written_isLifetime]; exact g2 q hq
    · intro p hp
      obtain ⟨q, hq, rfl⟩ := List.mem_map.1 hp
      cases q with
      | type n bs d => rfl
      | lifetime n bs => rfl
      | const n t d => exact k1 n t d hq
    · intro i p hp
      refine ⟨written a p, List.mem_map_of_mem (List.mem_of_getElem? hp), ?_, written_serves a p⟩
      rw [List.getElem?_map, hp, written_name]; rfl
    · intro q hq _
      obtain ⟨p, hp, rfl⟩ := List.mem_map.1 hq
      rw [written_name]; exact List.mem_map_of_mem hp
    · intro q hq
      obtain ⟨p, hp, rfl⟩ := List.mem_map.1 hq
      rw [written_name]; exact k2 p hp

/-- C41. With a non-empty `bound` the header is what it says; for rustc to accept it, it has to declare every parameter of the type again, types, lifetimes and constants alike, each with
the bounds of the declaration, and without defaults. -/
theorem C41_bound_header (P : PathParser) (lex : Str → Bool) (read : Str → List GenericParam) (input : Input) (e : Expansion) (a : Attrs) (s : Str)
    (ha : extractAttrs P input.attrs = some a) (h : deriveAllocativeImpl P lex input = some e) (hb : a.bound = some s) (hs : s ≠ [])
    (hg : ParamsOk input.generics) :
    e.name = input.name ∧ e.whereClause = input.whereClause ∧ e.typeArgs = input.generics.map GenericParam.ident ∧ e.header.read read = read s ∧
    (ImplOk input.generics (e.header.read read) e.typeArgs →
      ∀ p ∈ input.generics, ∃ q ∈ read s, q.ident = p.ident ∧ q.Serves p ∧ q.default = none) := by
  obtain ⟨h1, h2, h3, h4⟩ := derive_header ha h
  rw [typeGenerics_eq hg] at h3
  have hr : e.header.read read = read s := by
    simp only [implGenerics, hb, ne_eq, hs, not_false_eq_true, if_true] at h1
    split at h1
    · rw [Option.some.injEq] at h1; rw [← h1]; rfl
    · cases h1
  refine ⟨h2, h4, h3, hr, fun ok p hp => ?_⟩
  obtain ⟨i, hi, hip⟩ := List.getElem_of_mem hp
  obtain ⟨q, hq, e1, e2⟩ := ok.applies i p (by rw [List.getElem?_eq_getElem hi, hip])
  refine ⟨q, by rw [← hr]; exact hq, ?_, e2, ok.noDefaults q hq⟩
  rw [h3, List.getElem?_map, List.getElem?_eq_getElem hi, hip] at e1
  simpa using e1.symm

/-! ### Bounds suffice -/

theorem Implements.mono {impls : ImplTable} {a b : TypeExpr → Prop} (h : ∀ t, a t → Implements impls b t) {t : TypeExpr} (ht : Implements impls a t) : Implements impls b t := by
  induction ht with
  | assumed h' => exact h _ h'
  | impl h1 _ ih => exact .impl h1 ih

/-- What is in scope in the derived impl. -/
theorem derive_scope {P : PathParser} {lex : Str → Bool} (read : Str → List GenericParam) {input : Input} {e : Expansion} {a : Attrs} (ha : extractAttrs P input.attrs = some a)
    (h : deriveAllocativeImpl P lex input = some e) (hb : a.bound = none ∨ a.bound = some []) (isTrait : Str → Prop)
    (ht : isTrait (ascii "allocative::Allocative")) (t : TypeExpr) :
    inScope isTrait (e.header.read read) e.whereClause t ↔
      (inScope isTrait input.generics input.whereClause t ∨ a.bound = none ∧ a.skip = false ∧ ∃ n bs d, .type n bs d ∈ input.generics ∧ t = .param n) := by
  obtain ⟨h1, _, _, h4⟩ := derive_header ha h
  rw [implGenerics_written hb, Option.some.injEq] at h1
  rw [← h1, h4]
  simp only [ImplGenerics.read, inScope]
  constructor
  · rintro (⟨n, bs, d, b, hm, hbm, hbt, rfl⟩ | hw)
    · obtain ⟨p, hp, hpe⟩ := List.mem_map.1 hm
      cases p with
      | lifetime n bs => simp [written] at hpe
      | const n t d => simp [written] at hpe
      | type n' bs' d' =>
        simp only [written, GenericParam.type.injEq] at hpe
        obtain ⟨rfl, rfl, rfl⟩ := hpe
        split at hbm
        · rename_i hc
          simp only [Bool.and_eq_true, Option.isNone_iff_eq_none, Bool.not_eq_true'] at hc
          exact .inr ⟨hc.1, hc.2, _, _, _, hp, rfl⟩
        · exact .inl (.inl ⟨_, _, _, b, hp, hbm, hbt, rfl⟩)
    · exact .inl (.inr hw)
  · rintro ((⟨n, bs, d, b, hm, hbm, hbt, rfl⟩ | hw) | ⟨c1, c2, n, bs, d, hm, rfl⟩)
    · refine .inl ⟨n, _, _, b, List.mem_map.2 ⟨_, hm, rfl⟩, ?_, hbt, rfl⟩
      split
      · simp [hbm]
      · exact hbm
    · exact .inr hw
    · refine .inl ⟨n, _, _, ascii "allocative::Allocative", List.mem_map.2 ⟨_, hm, rfl⟩, ?_, ht, rfl⟩
      simp [c1, c2]

/-- C41. Bounds of the derived impl suffice for its body exactly if the types of the visited fields implement the trait, given the bounds of the declaration, its where clause and,
without `bound`, the trait for every type parameter.  With `bound = ""` nothing is known beyond the declaration; a skipped type needs nothing. -/
theorem C41_bounds_suffice (P : PathParser) (lex : Str → Bool) (read : Str → List GenericParam) (input : Input) (e : Expansion) (a : Attrs)
    (ha : extractAttrs P input.attrs = some a) (h : deriveAllocativeImpl P lex input = some e) (hb : a.bound = none ∨ a.bound = some [])
    (isTrait : Str → Prop) (ht : isTrait (ascii "allocative::Allocative")) (impls : ImplTable) :
    (∀ t ∈ e.body.demands, Implements impls (inScope isTrait (e.header.read read) e.whereClause) t) ↔
    (a.skip = false → ∀ t, input.data.Visits P t →
      Implements impls (fun u => inScope isTrait input.generics input.whereClause u ∨ a.bound = none ∧ ∃ n bs d, .type n bs d ∈ input.generics ∧ u = .param n) t) := by
  have hd := C41_demands P lex input e a ha h
  have hsc := derive_scope read ha h hb isTrait ht
  constructor
  · intro hall hs t hv
    refine Implements.mono (fun u hu => .assumed ?_) (hall t ((hd t).2 ⟨hs, hv⟩))
    rcases (hsc u).1 hu with h' | ⟨c1, _, h'⟩
    · exact .inl h'
    · exact .inr ⟨c1, h'⟩
  · intro hall t hm
    obtain ⟨hs, hv⟩ := (hd t).1 hm
    refine Implements.mono (fun u hu => .assumed ((hsc u).2 ?_)) (hall hs t hv)
    rcases hu with h' | ⟨c1, h'⟩
    · exact .inl h'
    · exact .inr ⟨c1, hs, h'⟩

/-! ### Instances -/

mutual
theorem TypeExpr.substs_get (σ : Str → TypeExpr) : ∀ (l : List TypeExpr) (i : Nat), (TypeExpr.substs σ l)[i]? = l[i]?.map (TypeExpr.subst σ)
  | [], i => by simp [TypeExpr.substs]
  | t :: l, 0 => by simp [TypeExpr.substs]
  | t :: l, i + 1 => by simp [TypeExpr.substs, TypeExpr.substs_get σ l i]
end

theorem Implements.subst {impls : ImplTable} {a b : TypeExpr → Prop} (σ : Str → TypeExpr) (h : ∀ t, a t → Implements impls b (t.subst σ)) {t : TypeExpr}
    (ht : Implements impls a t) : Implements impls b (t.subst σ) := by
  induction ht with
  | assumed h' => exact h _ h'
  | @impl con args needs h1 _ ih =>
    simp only [TypeExpr.subst]
    refine .impl h1 ?_
    intro i t hn hi
    rw [TypeExpr.substs_get, Option.map_eq_some_iff] at hi
    obtain ⟨u, hu, rfl⟩ := hi
    exact ih i u hn hu

/-- C41. Instances: a type derived without attributes and without a where clause is in the table of impls with the requirement that all its type arguments implement the trait.  Whenever an
instance `Name<args>` implements it (without assumptions), so does every visited field with its type instantiated: no call in the generated code is without an implementation. -/
theorem C41_instances (P : PathParser) (lex : Str → Bool) (read : Str → List GenericParam) (input : Input) (e : Expansion) (a : Attrs)
    (ha : extractAttrs P input.attrs = some a) (h : deriveAllocativeImpl P lex input = some e) (hb : a.bound = none) (hs : a.skip = false)
    (isTrait : Str → Prop) (impls : ImplTable) (hw : input.whereClause = [])
    (htable : impls input.name = some ((typeParams input.generics).map fun _ => true))
    (hok : ∀ t ∈ e.body.demands, Implements impls (inScope isTrait (e.header.read read) e.whereClause) t)
    (args : List TypeExpr) (σ : Str → TypeExpr) (hσ : ∀ (i : Nat) (n : Str), (typeParams input.generics)[i]? = some n → args[i]? = some (σ n))
    (hinst : Implements impls (fun _ => False) (.app input.name args)) (t : TypeExpr) (hv : input.data.Visits P t) :
    Implements impls (fun _ => False) (t.subst σ) := by
  have htps : ∀ n, n ∈ typeParams input.generics ↔ ∃ bs d, .type n bs d ∈ input.generics := by
    intro n
    simp only [typeParams, List.mem_filterMap]
    constructor
    · rintro ⟨p, hp, hpe⟩
      cases p with
      | type n' bs d => simp only [Option.some.injEq] at hpe; subst hpe; exact ⟨bs, d, hp⟩
      | lifetime n' bs => simp at hpe
      | const n' t d => simp at hpe
    · rintro ⟨bs, d, hp⟩
      exact ⟨_, hp, rfl⟩
  have hparam : ∀ n ∈ typeParams input.generics, Implements impls (fun _ => False) (σ n) := by
    intro n hn
    obtain ⟨i, hi, hin⟩ := List.getElem_of_mem hn
    have hg : (typeParams input.generics)[i]? = some n := by rw [List.getElem?_eq_getElem hi, hin]
    cases hinst with
    | assumed hf => exact hf.elim
    | impl h1 h2 =>
      rw [htable] at h1
      cases h1
      exact h2 i (σ n) (by simp [hg]) (hσ i n hg)
  refine Implements.subst σ ?_ (hok t ((C41_demands P lex input e a ha h t).2 ⟨hs, hv⟩))
  intro u hu
  obtain ⟨h1, _, _, h4⟩ := derive_header ha h
  rw [implGenerics_written (.inl hb), Option.some.injEq] at h1
  rw [← h1, h4, hw] at hu
  rcases hu with ⟨n, bs, d, b, hm, _, _, rfl⟩ | ⟨b, hm, _⟩
  · obtain ⟨p, hp, hpe⟩ := List.mem_map.1 hm
    cases p with
    | lifetime n bs => simp [written] at hpe
    | const n t d => simp [written] at hpe
    | type n' bs' d' =>
      simp only [written, GenericParam.type.injEq] at hpe
      obtain ⟨rfl, _, _⟩ := hpe
      simp only [TypeExpr.subst]
      exact hparam _ ((htps _).2 ⟨_, _, hp⟩)
  · simp at hm

/-! ### Concrete cases -/

namespace DeriveTypesExamples
open DeriveExamples

def isTrait (s : Str) : Prop := s = ascii "allocative::Allocative"

def tT : TypeExpr := .param (ascii "T")
def tVec (t : TypeExpr) : TypeExpr := .app (ascii "Vec") [t]
def tU32 : TypeExpr := .app (ascii "u32") []
def tOpaque : TypeExpr := .app (ascii "Opaque") []

/-- `struct Foo<'a, T: Clone = u32, const N: usize> { x: Vec<T>, #[allocative(skip)] y: &'a Opaque, z: [u32; N] }`. -/
def fields : Fields := .named [(ascii "x", ⟨[], 24, tVec tT⟩), (ascii "y", ⟨[attr [DeriveExamples.id "skip"]], 8, .app (ascii "&") [tOpaque]⟩), (ascii "z", ⟨[], 12, .app (ascii "[]") [tU32]⟩)]
def generics : List GenericParam := [.lifetime (ascii "'a") [], .type (ascii "T") [ascii "Clone"] (some (ascii "u32")), .const (ascii "N") (ascii "usize") none]
def foo : Input := ⟨[], generics, .struct fields, ascii "Foo", []⟩

/-- `Vec<T>` and `[T; N]` need `T`, `u32` and `PhantomData` need nothing, `Foo` needs its type parameter, `Opaque` has no impl. -/
def impls : ImplTable := fun c =>
  if c = ascii "Vec" ∨ c = ascii "[]" ∨ c = ascii "Foo" then some [true] else if c = ascii "u32" then some [] else if c = ascii "PhantomData" then some [false] else none

theorem generics_ok : ParamsOk generics :=
  ⟨by decide, [.lifetime (ascii "'a") []], _, rfl, by simp [GenericParam.IsLifetime], by simp [GenericParam.IsLifetime]⟩

theorem foo_visits (t : TypeExpr) : foo.data.Visits P t ↔ t = tVec tT ∨ t = .app (ascii "[]") [tU32] := by
  have e1 : extractAttrs P [] = some {} := rfl
  have e2 : extractAttrs P [attr [DeriveExamples.id "skip"]] = some ⟨true, none, none⟩ := by decide
  simp only [foo, Data.Visits, fields, Fields.decls, List.map_cons, List.map_nil, List.mem_cons, List.not_mem_nil, or_false, Field.IsVisited]
  constructor
  · rintro ⟨f, rfl | rfl | rfl, ⟨a, ha, hs, _⟩, rfl⟩
    · exact .inl rfl
    · simp only [e2, Option.some.injEq] at ha; subst ha; simp at hs
    · exact .inr rfl
  · rintro (rfl | rfl)
    · exact ⟨_, .inl rfl, ⟨_, e1, rfl, rfl⟩, rfl⟩
    · exact ⟨_, .inr (.inr rfl), ⟨_, e1, rfl, rfl⟩, rfl⟩

theorem u32_implements (assume : TypeExpr → Prop) : Implements impls assume tU32 := .impl (needs := []) (by decide) (by simp)

/-- An element in a constructor with one argument. -/
theorem wraps {assume : TypeExpr → Prop} {c : Str} {t : TypeExpr} (hc : impls c = some [true]) (h : Implements impls assume t) : Implements impls assume (.app c [t]) :=
  .impl hc (by
    intro i u hi hu
    cases i with
    | zero => simp only [List.getElem?_cons_zero, Option.some.injEq] at hu; subst hu; exact h
    | succ i => simp at hi)

/-- The derived impl of `Foo`: its header is accepted, and the bounds suffice. -/
example : ∃ e, deriveAllocativeImpl P (fun _ => true) foo = some e ∧ ImplOk generics (e.header.read fun _ => []) e.typeArgs ∧
    e.typeArgs = [ascii "'a", ascii "T", ascii "N"] ∧
    ∀ t ∈ e.body.demands, Implements impls (inScope isTrait (e.header.read fun _ => []) e.whereClause) t := by
  refine ⟨_, rfl, ?_, by decide, ?_⟩
  · refine (C41_header_ok P (fun _ => true) (fun _ => []) foo _ {} rfl rfl (.inl rfl) generics_ok).2.2.2.2 ⟨?_, ?_⟩
    · intro n t d hm
      simp only [foo, generics, List.mem_cons, List.not_mem_nil, or_false, reduceCtorEq, false_or, GenericParam.const.injEq] at hm
      exact hm.2.2
    · decide
  · refine (C41_bounds_suffice P (fun _ => true) (fun _ => []) foo _ {} rfl rfl (.inl rfl) isTrait rfl impls).2 ?_
    intro _ t hv
    rcases (foo_visits t).1 hv with rfl | rfl
    · exact wraps (by decide) (.assumed (.inr ⟨rfl, ascii "T", [ascii "Clone"], some (ascii "u32"), by simp [foo, generics], rfl⟩))
    · exact wraps (by decide) (u32_implements _)

/-- `Foo<Vec<u32>>`: the field `x: Vec<Vec<u32>>` implements the trait. -/
example : Implements impls (fun _ => False) (tVec (tVec tU32)) := by
  have h := C41_instances P (fun _ => true) (fun _ => []) foo _ {} rfl rfl rfl rfl isTrait impls rfl (by decide)
    ((C41_bounds_suffice P (fun _ => true) (fun _ => []) foo _ {} rfl rfl (.inl rfl) isTrait rfl impls).2 (by
      intro _ t hv
      rcases (foo_visits t).1 hv with rfl | rfl
      · exact wraps (by decide) (.assumed (.inr ⟨rfl, ascii "T", [ascii "Clone"], some (ascii "u32"), by simp [foo, generics], rfl⟩))
      · exact wraps (by decide) (u32_implements _)))
    [tVec tU32] (fun _ => tVec tU32) (by
      intro i n hi
      cases i with
      | zero => rfl
      | succ i => simp [foo, generics, typeParams] at hi)
    (wraps (by decide) (wraps (by decide) (u32_implements _))) (tVec tT) ((foo_visits _).2 (.inl rfl))
  simpa [TypeExpr.subst, TypeExpr.substs, tVec, tT] using h

/-- Nothing makes `Opaque` implement the trait, so a struct that visits an `Opaque` does not compile. -/
example (assume : TypeExpr → Prop) (h : ¬ assume tOpaque) : ¬ Implements impls assume tOpaque := by
  intro hi
  cases hi with
  | assumed h' => exact h h'
  | impl h1 _ =>
    have e0 : impls (ascii "Opaque") = none := by decide
    rw [e0] at h1; cases h1

/-- The same with `#[allocative(bound = "")]`. -/
def fooBare : Input := ⟨[attr [DeriveExamples.id "bound", .eq, .strLit []]], generics, .struct fields, ascii "Foo", []⟩

/-- With `bound = ""` nothing is known of `T`: `Foo` above would not compile. -/
example : ∃ e, deriveAllocativeImpl P (fun _ => true) fooBare = some e ∧
    ¬ ∀ t ∈ e.body.demands, Implements impls (inScope isTrait (e.header.read fun _ => []) e.whereClause) t := by
  refine ⟨_, rfl, ?_⟩
  intro hall
  have h := (C41_bounds_suffice P (fun _ => true) (fun _ => []) fooBare _ ⟨false, some [], none⟩ (by decide) rfl
    (.inr rfl) isTrait rfl impls).1 hall rfl (tVec tT) ((foo_visits _).2 (.inl rfl))
  have no : ∀ t, ¬ (inScope isTrait generics [] t ∨ (some ([] : Str)) = none ∧ ∃ n bs d, .type n bs d ∈ generics ∧ t = .param n) := by
    rintro t ((⟨n, bs, d, b, hm, hb, rfl, rfl⟩ | ⟨b, hm, _⟩) | ⟨h, _⟩)
    · simp only [generics, List.mem_cons, List.not_mem_nil, or_false, reduceCtorEq, false_or, GenericParam.type.injEq] at hm
      obtain ⟨_, rfl, _⟩ := hm
      exact absurd hb (by decide)
    · simp at hm
    · cases h
  cases h with
  | assumed h' => exact no _ h'
  | impl h1 h2 =>
    have e0 : impls (ascii "Vec") = some [true] := by decide
    rw [e0, Option.some.injEq] at h1
    subst h1
    have h3 := h2 0 tT rfl rfl
    cases h3 with
    | assumed h' => exact no _ h'

end DeriveTypesExamples

/-! The theorems of this file with a concrete case of their hypotheses. -/
namespace DeriveTypesExamples
open DeriveExamples

/-- `Foo` with `bound = "'a, T: Allocative + Clone, const N: usize"`. -/
def fooBound : Input := ⟨[attr [DeriveExamples.id "bound", .eq, .strLit (ascii "'a, T: Allocative + Clone, const N: usize")]], generics, .struct fields, ascii "Foo", []⟩

/-- How that is read. -/
def readBound (_ : Str) : List GenericParam :=
  [.lifetime (ascii "'a") [], .type (ascii "T") [ascii "Allocative", ascii "Clone"] none, .const (ascii "N") (ascii "usize") none]

example := C41_bound_header P (fun _ => true) readBound fooBound _ ⟨false, some (ascii "'a, T: Allocative + Clone, const N: usize"), none⟩ _ (by decide) rfl rfl (by decide) generics_ok
example (t : TypeExpr) : ∃ e, deriveAllocativeImpl P (fun _ => true) foo = some e ∧
    (t ∈ e.body.demands ↔ t = tVec tT ∨ t = .app (ascii "[]") [tU32]) :=
  ⟨_, rfl, (C41_demands P (fun _ => true) foo _ {} rfl rfl t).trans ⟨fun h => (foo_visits t).1 h.2, fun h => ⟨rfl, (foo_visits t).2 h⟩⟩⟩

end DeriveTypesExamples

end Allocative
