import Verif.Spec.Live
import Verif.Lemmas.Derive
import Verif.Lemmas.Report
import Verif.Props.Locks
set_option linter.unusedSimpArgs false
/-
Lemmas for C61.
-/
namespace Allocative

/-! ### Filling the places of a shape, on the level of visits -/

/-- Replace pointers by other visits.  (All visitors end by `exit`: how they end makes no difference, C15.) -/
def Obj.fill (g : Ptr → Option Obj) : Obj → Obj
  | .nil => .nil
  | .inline k n _ inside rest => .inline k n .exit (inside.fill g) (rest.fill g)
  | .unique k n _ inside rest => .unique k n .exit (inside.fill g) (rest.fill g)
  | .shared k n p _ rest =>
    match g p with
    | some o => o.append (rest.fill g)
    | none => .shared k n p .exit (rest.fill g)

/-- No places. -/
abbrev nowhere : Ptr → Option Obj := fun _ => none

/-- The same for values. -/
def Value.fill (g : Ptr → Option Obj) (v : Value) : Value := { v with visit := v.visit.fill g }

variable {g : Ptr → Option Obj}

theorem append_nil_live (a : Obj) : a.append .nil = a := by induction a <;> simp_all [Obj.append]
theorem append_assoc_live (a b c : Obj) : (a.append b).append c = a.append (b.append c) := by induction a <;> simp_all [Obj.append]

@[simp] theorem fill_nil : Obj.nil.fill g = .nil := rfl
@[simp] theorem fill_append (a b : Obj) : (a.append b).fill g = (a.fill g).append (b.fill g) := by
  induction a with
  | nil => rfl
  | inline k n e i r _ ih => simp [Obj.append, Obj.fill, ih]
  | unique k n e i r _ ih => simp [Obj.append, Obj.fill, ih]
  | shared k n p e r ih =>
    simp only [Obj.append, Obj.fill, ih]
    cases g p with
    | none => rfl
    | some o => simp only [append_assoc_live]
@[simp] theorem fill_enter (k n e) (o : Obj) : (Visit.enter k n e o).fill g = Visit.enter k n .exit (o.fill g) := rfl
@[simp] theorem fill_enterUnique (k n e) (o : Obj) : (Visit.enterUnique k n e o).fill g = Visit.enterUnique k n .exit (o.fill g) := rfl
@[simp] theorem fill_simple (k n) : (Visit.simple k n).fill g = Visit.simple k n := rfl
@[simp] theorem fill_fieldWith (k n) (o : Obj) : (Visit.fieldWith k n o).fill g = Visit.fieldWith k n (o.fill g) := rfl
@[simp] theorem fill_field (k) (v : Value) : (Visit.field k v).fill g = Visit.field k (v.fill g) := rfl
@[simp] theorem fill_sizeOfVal (v : Value) : (v.fill g).sizeOfVal = v.sizeOfVal := rfl
@[simp] theorem fill_visit (v : Value) : (v.fill g).visit = v.visit.fill g := rfl
@[simp] theorem fill_ite {c : Prop} [Decidable c] (a b : Obj) : (if c then a else b).fill g = if c then a.fill g else b.fill g := by split <;> rfl
theorem fill_concat_map {α : Type} (f : α → Obj) (l : List α) : (Obj.concat (l.map f)).fill g = Obj.concat (l.map fun x => (f x).fill g) := by
  induction l with
  | nil => rfl
  | cons x l ih => simp only [List.map_cons, Obj.concat, fill_append, ih]
@[simp] theorem fill_each (l : List Value) : (Visit.each l).fill g = Visit.each (l.map (Value.fill g)) := by
  simp [Visit.each, List.map_map, Function.comp_def, fill_concat_map]
@[simp] theorem fill_iter [Target] (T : Ty) (l : List Value) : (Visit.iter T l).fill g = Visit.iter T (l.map (Value.fill g)) := by
  simp [Visit.iter]
@[simp] theorem fill_slice [Target] (T : Ty) (l : List Value) : (Visit.slice T l).fill g = Visit.slice T (l.map (Value.fill g)) := fill_iter T l
@[simp] theorem fill_sized (self : Ty) (o : Obj) : (Impl.sized self o).fill g = Impl.sized self (o.fill g) := rfl
theorem fill_derived (ls : List (Str × Bool)) : ∀ l : List Value, (Visit.derivedFields ls l).fill g = Visit.derivedFields ls (l.map (Value.fill g)) := by
  induction ls with
  | nil => intro l; cases l <;> rfl
  | cons x ls ih =>
    intro l
    cases l with
    | nil => rfl
    | cons v l =>
      obtain ⟨a, b⟩ := x
      simp only [Visit.derivedFields, List.map_cons, fill_append, ih]
      cases b <;> rfl
theorem fill_tuple (l : List Value) : ∀ i, tupleLabels i (l.map (Value.fill g)) = (tupleLabels i l).map fun x => (x.1, x.2.fill g) := by
  induction l with
  | nil => intro i; rfl
  | cons v l ih => intro i; simp only [List.map_cons, tupleLabels, ih]
theorem fill_zip (a b : List Value) : (a.map (Value.fill g)).zip (b.map (Value.fill g)) = (a.zip b).map fun x => (x.1.fill g, x.2.fill g) := by
  induction a generalizing b with
  | nil => rfl
  | cons x a ih => cases b with
    | nil => rfl
    | cons y b => simp only [List.map_cons, List.zip_cons_cons, ih]

@[simp] theorem fill_concat_fields (k) (l : List Value) : (Obj.concat (l.map fun v => Visit.field k v)).fill g = Obj.concat ((l.map (Value.fill g)).map fun v => Visit.field k v) := by
  simp only [fill_concat_map, fill_field, List.map_map, Function.comp_def]
@[simp] theorem fill_concat_zip (k k') (a b : List Value) : (Obj.concat ((a.zip b).map fun e => (Visit.field k e.1).append (Visit.field k' e.2))).fill g =
    Obj.concat (((a.map (Value.fill g)).zip (b.map (Value.fill g))).map fun e => (Visit.field k e.1).append (Visit.field k' e.2)) := by
  simp only [fill_concat_map, fill_append, fill_field, fill_zip, List.map_map, Function.comp_def]
@[simp] theorem fill_concat_tuple (i) (l : List Value) : (Obj.concat ((tupleLabels i l).map fun x => Visit.field (Key.new x.1) x.2)).fill g =
    Obj.concat ((tupleLabels i (l.map (Value.fill g))).map fun x => Visit.field (Key.new x.1) x.2) := by
  simp only [fill_concat_map, fill_field, fill_tuple, List.map_map, Function.comp_def]
theorem fillAll_length (f : Ptr → Option (Ty → Datum)) (l : List Datum) : (Datum.fillAll f l).length = l.length := by
  induction l with
  | nil => rfl
  | cons d l ih => simp only [Datum.fillAll, List.length_cons, ih]
theorem visit_of_fill {v v' : Value} {g g' : Ptr → Option Obj} (h : v.fill g = v'.fill g') : v.visit.fill g = v'.visit.fill g' := congrArg Value.visit h
theorem size_of_fill {v v' : Value} {g g' : Ptr → Option Obj} (h : v.fill g = v'.fill g') : v.sizeOfVal = v'.sizeOfVal := show (v.fill g).sizeOfVal = (v'.fill g').sizeOfVal by rw [h]
theorem ty_of_fill {v v' : Value} {g g' : Ptr → Option Obj} (h : v.fill g = v'.fill g') : v.ty = v'.ty := show (v.fill g).ty = (v'.fill g').ty by rw [h]

/-- `f` and `g` fill places in the same way. -/
def Coherent [Target] (f : Ptr → Option (Ty → Datum)) (g : Ptr → Option Obj) : Prop := ∀ p,
  match f p, g p with
  | none, none => True
  | some h, some o => ∀ self, (h self).value.fill nowhere = Impl.sized self (Visit.enterSelfSized self .exit o)
  | _, _ => False

/-- Unfolds an implementation. -/
macro "fill_simp" "[" ls:Lean.Parser.Tactic.simpLemma,* "]" : tactic =>
  `(tactic| simp [Datum.value, Datum.fill, Visit.enterSelfSized, Visit.enterSelf, Visit.simpleSized, fillAll_length, $ls,*])

mutual
theorem fill_value [Target] {f : Ptr → Option (Ty → Datum)} (h : Coherent f g) : (d : Datum) → (d.fill f).value.fill nowhere = d.value.fill g
  | .plain self => by fill_simp [Impl.plain]
  | .hollow self owned => by fill_simp [Impl.empty]
  | .str self len => by fill_simp [Impl.str, Value.fill]
  | .osStr self len => by fill_simp [Impl.osStr, Value.fill]
  | .box self ptrSize v => by fill_simp [Impl.box, visit_of_fill (fill_value h v), size_of_fill (fill_value h v), ty_of_fill (fill_value h v), fill_value h v]
  | .ok self v => by fill_simp [Impl.result, visit_of_fill (fill_value h v), size_of_fill (fill_value h v), ty_of_fill (fill_value h v), fill_value h v]
  | .err self v => by fill_simp [Impl.result, visit_of_fill (fill_value h v), size_of_fill (fill_value h v), ty_of_fill (fill_value h v), fill_value h v]
  | .none self => by fill_simp [Impl.option]
  | .some self v => by fill_simp [Impl.option, visit_of_fill (fill_value h v), size_of_fill (fill_value h v), ty_of_fill (fill_value h v), fill_value h v]
  | .left self v => by fill_simp [Impl.either, visit_of_fill (fill_value h v), size_of_fill (fill_value h v), ty_of_fill (fill_value h v), fill_value h v]
  | .right self v => by fill_simp [Impl.either, visit_of_fill (fill_value h v), size_of_fill (fill_value h v), ty_of_fill (fill_value h v), fill_value h v]
  | .vec self T items capacity => by fill_simp [Impl.vec, fill_values h items]
  | .vecDeque self T front back capacity => by fill_simp [Impl.vecDeque, fill_values h front, fill_values h back]
  | .string self len capacity => by
    have : ∀ g, Value.fill g (Impl.plain Impl.u8) = Impl.plain Impl.u8 := fun _ => rfl
    fill_simp [Impl.string, Visit.vecLikeBody, this]
  | .pathBuf self len capacity => by fill_simp [Impl.pathBuf]
  | .compactString self heapAllocated len capacity => by fill_simp [Impl.compactString]
  | .slice self T items => by fill_simp [Impl.slice, Impl.sliceVisit, fill_values h items, Value.fill]
  | .array self T items => by fill_simp [Impl.array, Impl.sliceVisit, fill_values h items]
  | .tuple self fields => by fill_simp [Impl.tuple, fill_values h fields, fill_tuple]
  | .manuallyDrop self v => by fill_simp [Impl.manuallyDrop, visit_of_fill (fill_value h v), size_of_fill (fill_value h v), ty_of_fill (fill_value h v), fill_value h v, Value.fill]
  | .cell self accessible v => by cases accessible <;> fill_simp [Impl.cell, visit_of_fill (fill_value h v), size_of_fill (fill_value h v), ty_of_fill (fill_value h v), fill_value h v]
  | .cellEmpty self => by fill_simp [Impl.cell]
  | .onceCell self v => by fill_simp [Impl.onceCell, visit_of_fill (fill_value h v), size_of_fill (fill_value h v), ty_of_fill (fill_value h v), fill_value h v]
  | .onceCellEmpty self => by fill_simp [Impl.onceCell]
  | .map self table keys values => by
    fill_simp [Impl.map, Visit.genericMapFields, fill_values h keys, fill_values h values, fillAll_length]
  | .set self table items => by fill_simp [Impl.set, Visit.genericSetFields, fill_values h items]
  | .smallVecInline self T items => by fill_simp [Impl.smallVec, fill_values h items]
  | .smallVecSpilled self T items capacity => by fill_simp [Impl.smallVec, fill_values h items]
  | .slab self T entry items capacity => by fill_simp [Impl.slab, fill_values h items]
  | .arc self ptrSize p => by
    have := h p
    cases hf : f p <;> cases hg : g p <;> simp only [hf, hg] at this
    · fill_simp [hf, Impl.arc, Obj.fill, hg]
    · fill_simp [hf, Impl.arc, Obj.fill, hg, this, append_nil_live]
  | .weakDangling self => by fill_simp [Impl.weak]
  | .weak self strong ptrSize p => by
    have := h p
    cases hf : f p <;> cases hg : g p <;> simp only [hf, hg] at this
    · fill_simp [hf, Impl.arc, Impl.weak, Impl.sized, Obj.fill, hg, Value.fill]
    · have e := congrArg Value.visit (this strong)
      simp only [fill_visit, Impl.sized] at e
      fill_simp [hf, Impl.arc, Impl.weak, Impl.onceCell, Impl.sized, Obj.fill, hg, e, Value.fill, append_nil_live]
  | .struct self size labels fields => by fill_simp [fill_derived, fill_values h fields, Value.fill]
  | .enum self variant labels fields => by fill_simp [fill_derived, fill_values h fields]
  | .hashTable self T items capacity table => by fill_simp [Impl.hashTable, fill_values h items]
  | .indexSet self T items capacity bucket table => by fill_simp [Impl.indexSet, fill_values h items, Impl.addRawTableForLen]
  | .indexMap self K V KV keys values capacity bucket table => by
    fill_simp [Impl.indexMap, fill_values h keys, fill_values h values, fillAll_length, Impl.addRawTableForLen]
  | .dashMap self K V KV capacity keys values capacityLater len table => by
    fill_simp [Impl.dashMap, fill_values h keys, fill_values h values, fillAll_length]
  | .dashSet self T capacity items capacityLater len table => by fill_simp [Impl.dashSet, fill_values h items]
  | .bigInt self digits heap => by fill_simp [Impl.bigInt]
  | .bump self allocated chunks heap => by fill_simp [Impl.bump]
  | .jsonMap self table keys values => by fill_simp [Impl.jsonMap, fill_values h keys, fill_values h values, fillAll_length]
  | .jsonLeaf self => by fill_simp [Impl.jsonValue]
  | .json self variant v => by fill_simp [Impl.jsonValue, visit_of_fill (fill_value h v), size_of_fill (fill_value h v), ty_of_fill (fill_value h v), fill_value h v]
  | .futuresPending self => by fill_simp [Impl.futuresShared]
  | .futuresShared self p => by
    have := h p
    cases hf : f p <;> cases hg : g p <;> simp only [hf, hg] at this
    · fill_simp [hf, Impl.futuresShared, Obj.fill, hg]
    · fill_simp [hf, Impl.futuresShared, Obj.fill, hg, this, append_nil_live]
  | .headerSlice self sizeOfVal header tail => by fill_simp [Impl.headerSlice, visit_of_fill (fill_value h header), size_of_fill (fill_value h header), ty_of_fill (fill_value h header), fill_value h header, visit_of_fill (fill_value h tail), size_of_fill (fill_value h tail), ty_of_fill (fill_value h tail), fill_value h tail, Value.fill]
  | .headerWithLength self header len => by fill_simp [Impl.headerWithLength, visit_of_fill (fill_value h header), size_of_fill (fill_value h header), ty_of_fill (fill_value h header), fill_value h header, visit_of_fill (fill_value h len), size_of_fill (fill_value h len), ty_of_fill (fill_value h len), fill_value h len]
  | .unit self size owned => by fill_simp [Value.fill]
theorem fill_values [Target] {f : Ptr → Option (Ty → Datum)} (h : Coherent f g) : (l : List Datum) →
    (Datum.values (Datum.fillAll f l)).map (Value.fill nowhere) = (Datum.values l).map (Value.fill g)
  | [] => rfl
  | d :: l => by simp only [Datum.fillAll, Datum.values, List.map_cons, visit_of_fill (fill_value h d), size_of_fill (fill_value h d), ty_of_fill (fill_value h d), fill_value h d, fill_values h l]
end

theorem fillAll_eq (f : Ptr → Option (Ty → Datum)) (l : List Datum) : Datum.fillAll f l = l.map (Datum.fill f) := by
  induction l with
  | nil => rfl
  | cons d l ih => simp only [Datum.fillAll, List.map_cons, ih]

theorem fill_size [Target] {f : Ptr → Option (Ty → Datum)} (h : Coherent f g) (d : Datum) : (d.fill f).size = d.size := by
  exact size_of_fill (fill_value h d)

theorem fill_allOf [Target] {f : Ptr → Option (Ty → Datum)} (h : Coherent f g) {T : Ty} {l : List Datum} (hl : Datum.AllOf T l) : Datum.AllOf T (Datum.fillAll f l) := by
  intro d hd
  rw [fillAll_eq] at hd
  obtain ⟨d', hd', rfl⟩ := List.mem_map.1 hd
  rw [fill_size h, ty_of_fill (fill_value h d')]
  exact hl d' hd'

theorem fill_sizes [Target] {f : Ptr → Option (Ty → Datum)} (h : Coherent f g) (l : List Datum) : Datum.sizes (Datum.fillAll f l) = Datum.sizes l := by
  simp only [Datum.sizes, fillAll_eq, List.map_map]
  congr 1
  exact List.map_congr_left fun d _ => fill_size h d

mutual
theorem fill_WF [Target] {f : Ptr → Option (Ty → Datum)} (h : Coherent f g) (hf : ∀ p k, f p = some k → ∀ self, (k self).WF) : (d : Datum) → d.WF → (d.fill f).WF
  | .plain self, _ => trivial
  | .hollow self owned, _ => trivial
  | .str self len, _ => trivial
  | .osStr self len, _ => trivial
  | .box self ptrSize v, hd => fill_WF h hf v hd
  | .ok self v, hd => fill_WF h hf v hd
  | .err self v, hd => fill_WF h hf v hd
  | .none self, _ => trivial
  | .some self v, hd => fill_WF h hf v hd
  | .left self v, hd => fill_WF h hf v hd
  | .right self v, hd => fill_WF h hf v hd
  | .vec self T items capacity, ⟨a, b, c, d, e⟩ => ⟨fill_allOf h a, by rw [fillAll_length]; exact b, c, d, fill_WFAll h hf items e⟩
  | .vecDeque self T front back capacity, ⟨a, b, c, d, e, x, y⟩ =>
    ⟨fill_allOf h a, fill_allOf h b, by rw [fillAll_length, fillAll_length]; exact c, d, e, fill_WFAll h hf front x, fill_WFAll h hf back y⟩
  | .string self len capacity, hd => hd
  | .pathBuf self len capacity, hd => hd
  | .compactString self heapAllocated len capacity, hd => hd
  | .slice self T items, ⟨a, b, c⟩ => ⟨fill_allOf h a, by rw [fillAll_length]; exact b, fill_WFAll h hf items c⟩
  | .array self T items, ⟨a, b, c, d⟩ => ⟨fill_allOf h a, by rw [fillAll_length]; exact b, c, fill_WFAll h hf items d⟩
  | .tuple self fields, hd => fill_WFAll h hf fields hd
  | .manuallyDrop self v, hd => fill_WF h hf v hd
  | .cell self accessible v, hd => fill_WF h hf v hd
  | .cellEmpty self, _ => trivial
  | .onceCell self v, hd => fill_WF h hf v hd
  | .onceCellEmpty self, _ => trivial
  | .map self table keys values, ⟨a, b, c⟩ => ⟨by rw [fillAll_length, fillAll_length]; exact a, fill_WFAll h hf keys b, fill_WFAll h hf values c⟩
  | .set self table items, hd => fill_WFAll h hf items hd
  | .smallVecInline self T items, ⟨a, b⟩ => ⟨fill_allOf h a, fill_WFAll h hf items b⟩
  | .smallVecSpilled self T items capacity, ⟨a, b, c⟩ => ⟨fill_allOf h a, by rw [fillAll_length]; exact b, fill_WFAll h hf items c⟩
  | .slab self T entry items capacity, ⟨a, b, c, d, e, x⟩ => ⟨fill_allOf h a, by rw [fillAll_length]; exact b, c, d, e, fill_WFAll h hf items x⟩
  | .arc self ptrSize p, _ => by
    simp only [Datum.fill]
    cases hp : f p with
    | none => trivial
    | some k => exact hf p k hp self
  | .weakDangling self, _ => trivial
  | .weak self strong ptrSize p, _ => by
    simp only [Datum.fill]
    cases hp : f p with
    | none => trivial
    | some k => exact hf p k hp strong
  | .struct self size labels fields, ⟨a, b⟩ => ⟨by rw [fillAll_length]; exact a, fill_WFAll h hf fields b⟩
  | .enum self variant labels fields, ⟨a, b⟩ => ⟨by rw [fillAll_length]; exact a, fill_WFAll h hf fields b⟩
  | .hashTable self T items capacity table, ⟨a, b, c, d, e⟩ => ⟨fill_allOf h a, by rw [fillAll_length]; exact b, c, d, fill_WFAll h hf items e⟩
  | .indexSet self T items capacity bucket table, ⟨a, b, c, d, e, x, y, z⟩ =>
    ⟨fill_allOf h a, by rw [fillAll_length]; exact b, c, d, e, by rw [fillAll_length]; exact x, y, fill_WFAll h hf items z⟩
  | .indexMap self K V KV keys values capacity bucket table, ⟨a, b, c, d, e, x, y, z, u, v, w, t⟩ =>
    ⟨fill_allOf h a, fill_allOf h b, by rw [fillAll_length, fillAll_length]; exact c, by rw [fillAll_length]; exact d, e, x, y, z,
      by rw [fillAll_length]; exact u, v, fill_WFAll h hf keys w, fill_WFAll h hf values t⟩
  | .dashMap self K V KV capacity keys values capacityLater len table, ⟨a, b, c, d, e, x, y, z, u⟩ =>
    ⟨fill_allOf h a, fill_allOf h b, by rw [fillAll_length, fillAll_length]; exact c, d, e, x, y, fill_WFAll h hf keys z, fill_WFAll h hf values u⟩
  | .dashSet self T capacity items capacityLater len table, ⟨a, b, c, d, e⟩ => ⟨fill_allOf h a, b, c, d, fill_WFAll h hf items e⟩
  | .bigInt self digits heap, hd => hd
  | .bump self allocated chunks heap, hd => hd
  | .jsonMap self table keys values, ⟨a, b, c, d⟩ =>
    ⟨by rw [fillAll_length, fillAll_length]; exact a, by rw [fill_sizes h, fill_sizes h]; exact b, fill_WFAll h hf keys c, fill_WFAll h hf values d⟩
  | .jsonLeaf self, _ => trivial
  | .json self variant v, hd => fill_WF h hf v hd
  | .futuresPending self, _ => trivial
  | .futuresShared self p, _ => by
    simp only [Datum.fill]
    cases hp : f p with
    | none => trivial
    | some k => exact hf p k hp self
  | .headerSlice self sizeOfVal header tail, ⟨a, b⟩ => ⟨fill_WF h hf header a, fill_WF h hf tail b⟩
  | .headerWithLength self header len, ⟨a, b⟩ => ⟨fill_WF h hf header a, fill_WF h hf len b⟩
  | .unit self size owned, _ => trivial
theorem fill_WFAll [Target] {f : Ptr → Option (Ty → Datum)} (h : Coherent f g) (hf : ∀ p k, f p = some k → ∀ self, (k self).WF) : (l : List Datum) → Datum.WFAll l →
    Datum.WFAll (Datum.fillAll f l)
  | [], _ => trivial
  | d :: l, ⟨a, b⟩ => ⟨fill_WF h hf d a, fill_WFAll h hf l b⟩
end

/-! ### Traces -/

theorem trace_mono (a : Prog) : ∀ cur vis p, p ∈ vis → p ∈ (a.trace cur vis).visited := by
  induction a with
  | done => intro cur vis p h; exact h
  | panic => intro cur vis p h; exact h
  | enter k n f body rest ih1 ih2 =>
    intro cur vis p h
    simp only [Prog.trace]
    split
    · exact ih1 _ _ _ h
    · exact ih2 _ _ _ (ih1 _ _ _ h)
  | enterUnique k n f body rest ih1 ih2 =>
    intro cur vis p h
    simp only [Prog.trace]
    split
    · exact ih1 _ _ _ h
    · exact ih2 _ _ _ (ih1 _ _ _ h)
  | enterShared k n q f body rs rn ih1 ih2 ih3 =>
    intro cur vis p h
    simp only [Prog.trace]
    split
    · exact ih3 _ _ _ h
    · split
      · exact ih1 _ _ _ (by simp [h])
      · exact ih2 _ _ _ (ih1 _ _ _ (by simp [h]))
  | catchUnwind body rest ih1 ih2 => intro cur vis p h; exact ih2 _ _ _ (ih1 _ _ _ h)

/-- The visit of the pointee at an address. -/
def contS (h : Heap) : Nat → Ptr → Prog
  | 0, _ => .panic
  | f + 1, p => h.visit f (h p)

theorem visit_contS (h : Heap) (f : Nat) (o : Obj) : h.visit f o = o.visitWith (contS h f) := by cases f <;> rfl

/-- The trace of a visit depends only on the pointees that are entered in it. -/
theorem trace_congr (f : Nat) : ∀ (h h' : Heap) (o : Obj) (cur : Path) (vis : List Ptr),
    (∀ p ∈ ((o.visitWith (contS h f)).trace cur vis).visited, p ∉ vis → h p = h' p) →
    (o.visitWith (contS h' f)).trace cur vis = (o.visitWith (contS h f)).trace cur vis := by
  induction f with
  | zero =>
    intro h h' o cur vis _
    have : contS h' 0 = contS h 0 := by funext p; rfl
    rw [this]
  | succ f ihf =>
    intro h h' o
    induction o with
    | nil => intro cur vis _; rfl
    | inline k n e i r ih1 ih2 =>
      intro cur vis hh
      simp only [Obj.visitWith, Prog.trace] at hh ⊢
      have e1 : (i.visitWith (contS h' (f + 1))).trace (cur ++ [k]) vis = (i.visitWith (contS h (f + 1))).trace (cur ++ [k]) vis := by
        refine ih1 _ _ fun p hp hv => hh p ?_ hv
        split
        · exact hp
        · exact trace_mono _ _ _ _ hp
      rw [e1]
      cases hc : ((i.visitWith (contS h (f + 1))).trace (cur ++ [k]) vis).ctl with
      | unwinding => rfl
      | returned =>
        simp only [hc] at hh ⊢
        rw [ih2 _ _ fun p hp hv => hh p hp fun h => hv (trace_mono _ _ _ _ h)]
    | unique k n e i r ih1 ih2 =>
      intro cur vis hh
      simp only [Obj.visitWith, Prog.trace] at hh ⊢
      have e1 : (i.visitWith (contS h' (f + 1))).trace (cur ++ [k]) vis = (i.visitWith (contS h (f + 1))).trace (cur ++ [k]) vis := by
        refine ih1 _ _ fun p hp hv => hh p ?_ hv
        split
        · exact hp
        · exact trace_mono _ _ _ _ hp
      rw [e1]
      cases hc : ((i.visitWith (contS h (f + 1))).trace (cur ++ [k]) vis).ctl with
      | unwinding => rfl
      | returned =>
        simp only [hc] at hh ⊢
        rw [ih2 _ _ fun p hp hv => hh p hp fun h => hv (trace_mono _ _ _ _ h)]
    | shared k n p e r ih =>
      intro cur vis hh
      simp only [Obj.visitWith, Prog.trace] at hh ⊢
      split
      · rename_i hp
        simp only [hp, if_true] at hh
        rw [ih _ _ hh]
      · rename_i hp
        simp only [hp, if_false] at hh
        have hbody : (contS h' (f + 1) p).trace [] (p :: vis) = (contS h (f + 1) p).trace [] (p :: vis) := by
          have hm : ∀ q ∈ ((contS h (f + 1) p).trace [] (p :: vis)).visited, q ∉ vis → h q = h' q := by
            intro q hq hv
            refine hh q ?_ hv
            split
            · exact hq
            · exact trace_mono _ _ _ _ hq
          have e := hm p (trace_mono _ _ _ _ (by simp)) hp
          simp only [contS, visit_contS] at hm ⊢
          rw [← e]
          exact ihf h h' (h p) [] (p :: vis) fun q hq hv => hm q hq fun h => hv (by simp [h])
        rw [hbody]
        cases hc : ((contS h (f + 1) p).trace [] (p :: vis)).ctl with
        | unwinding => rfl
        | returned =>
          simp only [hc] at hh ⊢
          rw [ih _ _ fun q hq hv => hh q hq fun h => hv (trace_mono _ _ _ _ (by simp [h]))]

theorem contS_congr {f : Nat} {h h' : Heap} {p : Ptr} {cur : Path} {vis : List Ptr} (hp : h p = h' p)
    (hh : ∀ q ∈ ((contS h f p).trace cur vis).visited, q ∉ vis → h q = h' q) :
    (contS h' f p).trace cur vis = (contS h f p).trace cur vis := by
  cases f with
  | zero => rfl
  | succ f =>
    simp only [contS, visit_contS] at hh ⊢
    rw [← hp]
    exact trace_congr f h h' (h p) cur vis hh

theorem visitWith_append_live (content : Ptr → Prog) (a b : Obj) : (a.append b).visitWith content = (a.visitWith content).seq (b.visitWith content) := by
  induction a with
  | nil => rfl
  | inline k n e inside rest _ ih => simp only [Obj.append, Obj.visitWith, Prog.seq, ih]
  | unique k n e inside rest _ ih => simp only [Obj.append, Obj.visitWith, Prog.seq, ih]
  | shared k n p e rest ih => simp only [Obj.append, Obj.visitWith, Prog.seq, ih]

theorem fill_congr {g g' : Ptr → Option Obj} (o : Obj) (h : ∀ p ∈ o.ptrs, g p = g' p) : o.fill g = o.fill g' := by
  induction o with
  | nil => rfl
  | inline k n e i r ih1 ih2 =>
    simp only [Obj.fill, ih1 fun p hp => h p (by simp [Obj.ptrs, hp]), ih2 fun p hp => h p (by simp [Obj.ptrs, hp])]
  | unique k n e i r ih1 ih2 =>
    simp only [Obj.fill, ih1 fun p hp => h p (by simp [Obj.ptrs, hp]), ih2 fun p hp => h p (by simp [Obj.ptrs, hp])]
  | shared k n p e r ih =>
    simp only [Obj.fill, ih fun p hp => h p (by simp [Obj.ptrs, hp]), h p (by simp [Obj.ptrs])]

theorem ending_leaks (e : Ending) (c : Ctl) : e.fate.leaks c = Fate.exit.leaks c := by cases e <;> cases c <;> rfl

/-- How visitors end makes no difference. -/
theorem trace_nowhere (c : Ptr → Prog) (o : Obj) : ∀ cur vis, ((o.fill nowhere).visitWith c).trace cur vis = (o.visitWith c).trace cur vis := by
  induction o with
  | nil => intros; rfl
  | inline k n e i r ih1 ih2 => intro cur vis; simp only [Obj.fill, Obj.visitWith, Prog.trace, ih1, ih2, ending_leaks]
  | unique k n e i r ih1 ih2 => intro cur vis; simp only [Obj.fill, Obj.visitWith, Prog.trace, ih1, ih2, ending_leaks]
  | shared k n p e r ih => intro cur vis; simp only [Obj.fill, Obj.visitWith, Prog.trace, ih, ending_leaks]

/-! ### Every resolution of a live visit has the trace of the visit of a snapshot -/

section
variable (L : Looks) (H : Ptr → LiveCell)

/-- A snapshot of the shared allocations. -/
def GoodHeap (h : Ptr → Cell) : Prop := ∀ p, (H p).Sees L (h p)

/-- As a heap. -/
def heapOf [Target] (h : Ptr → Cell) : Heap := fun p => (h p).visit

/-- Merge by what has been visited. -/
def mergeCells (vis : List Ptr) (h1 h2 : Ptr → Cell) : Ptr → Cell := fun p => if p ∈ vis then h1 p else h2 p

variable {L H}

theorem GoodHeap.merge {h1 h2 : Ptr → Cell} (a : GoodHeap L H h1) (b : GoodHeap L H h2) (vis : List Ptr) : GoodHeap L H (mergeCells vis h1 h2) := by
  intro p
  unfold mergeCells
  split
  · exact a p
  · exact b p

theorem merge_left [Target] {f : Nat} {h1 h2 : Ptr → Cell} (o : Obj) (cur : Path) (vis : List Ptr) :
    (o.visitWith (contS (heapOf (mergeCells ((o.visitWith (contS (heapOf h1) f)).trace cur vis).visited h1 h2)) f)).trace cur vis =
      (o.visitWith (contS (heapOf h1) f)).trace cur vis := by
  apply trace_congr
  intro p hp _
  simp only [heapOf, mergeCells, hp, if_true]

theorem merge_right [Target] {f : Nat} {h1 h2 : Ptr → Cell} (o : Obj) (cur : Path) (vis : List Ptr) :
    (o.visitWith (contS (heapOf (mergeCells vis h1 h2)) f)).trace cur vis = (o.visitWith (contS (heapOf h2) f)).trace cur vis := by
  apply trace_congr
  intro p _ hp
  simp only [heapOf, mergeCells, hp, if_false]

variable {D : Prop} {I : List Hold → Store → Prop}

/-- The moments of a visit with the states `I`. -/
def looksOf (D : Prop) (I : List Hold → Store → Prop) : Looks where
  moment st' := ∃ hs, I hs st'
  asks a st' := ∃ hs, I hs st' ∧ (D → ∀ how, .lock how a ∉ hs)
  reads how a st' := ∃ hs, I hs st' ∧ .lock how a ∈ hs

/-- No shared allocation that is not visited yet has one of the locks in it that the visit has taken. -/
def Free (H : Ptr → LiveCell) (hs : List Hold) (vis : List Ptr) : Prop := ∀ how a, .lock how a ∈ hs → ∀ q, q ∉ vis → ¬ (H q).value.Has a

theorem Free.mono {H : Ptr → LiveCell} {hs : List Hold} {vis vis' : List Ptr} (h : Free H hs vis) (hv : ∀ p ∈ vis, p ∈ vis') : Free H hs vis' :=
  fun how a ha q hq => h how a ha q fun hq' => hq (hv q hq')

/-- The value has none of the locks taken in it. -/
def LiveDatum.Clear (v : LiveDatum) (hs : List Hold) : Prop := ∀ how a, .lock how a ∈ hs → ¬ v.Has a

/-- What is known when the visit of a value begins. -/
def LiveDatum.Ready (D : Prop) (H : Ptr → LiveCell) (v : LiveDatum) (hs : List Hold) (vis : List Ptr) : Prop :=
  D → Free H hs vis ∧ v.Clear hs ∧ v.Nested ∧ ∀ a, v.Has a → ∀ q, q ∉ vis → ¬ (H q).value.Has a

theorem LiveDatum.Ready.mono {v : LiveDatum} {hs : List Hold} {vis vis' : List Ptr} (h : v.Ready D H hs vis) (hv : ∀ p ∈ vis, p ∈ vis') : v.Ready D H hs vis' :=
  fun d => ⟨(h d).1.mono hv, (h d).2.1, (h d).2.2.1, fun a ha q hq => (h d).2.2.2 a ha q fun hq' => hq (hv q hq')⟩

/-- The pointees, nested `f` deep. -/
def ContSpec [Target] (D : Prop) (I : List Hold → Store → Prop) (H : Ptr → LiveCell) (cont : Ptr → LProg) (f : Nat) : Prop := ∀ p hs b, Resolves I (fun _ => False) hs (cont p) b → ∀ cur vis, p ∈ vis →
  (D → Free H hs vis ∧ (H p).value.Clear hs) → ∃ h, GoodHeap (looksOf D I) H h ∧ b.trace cur vis = (contS (heapOf h) f p).trace cur vis

/-- The places: `W p X` says that `X` can be seen at `p`. -/
def PlaceSpec [Target] (D : Prop) (I : List Hold → Store → Prop) (H : Ptr → LiveCell) (f : Nat) (ready : List Hold → List Ptr → Prop) (place : Ptr → Option (LProg → LProg))
    (W : Ptr → Obj → Prop) : Prop := ∀ p G, place p = some G →
  (∃ X, W p X) ∧ ∀ hs rest q, Resolves I (fun _ => False) hs (G rest) q → ∀ cur vis, ready hs vis → ∃ X h r, W p X ∧ GoodHeap (looksOf D I) H h ∧ Resolves I (fun _ => False) hs rest r ∧
    q.trace cur vis = ((X.visitWith (contS (heapOf h) f)).seq r).trace cur vis

/-- `g` fills the places with what can be seen there. -/
def Fills (place : Ptr → Option (LProg → LProg)) (W : Ptr → Obj → Prop) (g : Ptr → Option Obj) : Prop := ∀ p,
  match place p with
  | none => g p = none
  | some _ => ∃ X, g p = some X ∧ W p X

theorem exists_fills [Target] {f : Nat} {ready : List Hold → List Ptr → Prop} {place : Ptr → Option (LProg → LProg)} {W : Ptr → Obj → Prop} (hP : PlaceSpec D I H f ready place W) : ∃ g, Fills place W g := by
  have : ∀ p, ∃ o : Option Obj, match place p with
      | none => o = none
      | some _ => ∃ X, o = some X ∧ W p X := by
    intro p
    cases hp : place p with
    | none => exact ⟨none, rfl⟩
    | some G => obtain ⟨X, hX⟩ := (hP p G hp).1; exact ⟨some X, X, rfl, hX⟩
  exact ⟨fun p => (this p).choose, fun p => (this p).choose_spec⟩

theorem Fills.ite {place : Ptr → Option (LProg → LProg)} {W : Ptr → Obj → Prop} {g1 g2 : Ptr → Option Obj} (a : Fills place W g1) (b : Fills place W g2)
    (l : List Ptr) : Fills place W (fun p => if p ∈ l then g1 p else g2 p) := by
  intro p
  have h1 := a p
  have h2 := b p
  by_cases hl : p ∈ l
  · simp only [hl, if_true]; exact h1
  · simp only [hl, if_false]; exact h2

/-- Two parts, one after the other, in which no place occurs twice. -/
theorem fills_two {place : Ptr → Option (LProg → LProg)} {W : Ptr → Obj → Prop} {g1 g2 : Ptr → Option Obj} (a : Fills place W g1) (b : Fills place W g2)
    (i r : Obj) (hn : ((i.ptrs ++ r.ptrs).filter fun p => (place p).isSome).Nodup) :
    ∃ g, Fills place W g ∧ i.fill g = i.fill g1 ∧ r.fill g = r.fill g2 := by
  refine ⟨_, a.ite b i.ptrs, ?_, ?_⟩
  · refine fill_congr i fun p hp => ?_
    simp only [hp, if_true]
  · refine fill_congr r fun p hp => ?_
    split
    · rename_i hi
      cases hp' : place p with
      | none =>
        have h1 := a p
        have h2 := b p
        simp only [hp'] at h1 h2
        rw [h1, h2]
      | some G =>
        rw [List.filter_append, List.nodup_append] at hn
        exact absurd rfl (hn.2.2 p (by simp [List.mem_filter, hi, hp']) p (by simp [List.mem_filter, hp, hp']))
    · rfl

theorem obj_main [Target] {f : Nat} {cont : Ptr → LProg} (hC : ContSpec D I H cont f) {ready : List Hold → List Ptr → Prop} {place : Ptr → Option (LProg → LProg)} {W : Ptr → Obj → Prop}
    (hP : PlaceSpec D I H f ready place W) (hmono : ∀ hs vis vis', ready hs vis → (∀ p ∈ vis, p ∈ vis') → ready hs vis') (hfree : ∀ hs vis, ready hs vis → D → Free H hs vis)
    (h0 : ∃ h, GoodHeap (looksOf D I) H h) (hs : List Hold) (o : Obj) : (o.ptrs.filter fun p => (place p).isSome).Nodup →
    ∀ q, Resolves I (fun _ => False) hs (o.visitLive cont place) q → ∀ cur vis, ready hs vis → ∃ g h, Fills place W g ∧ GoodHeap (looksOf D I) H h ∧
      q.trace cur vis = ((o.fill g).visitWith (contS (heapOf h) f)).trace cur vis := by
  induction o with
  | nil =>
    intro _ q hq cur vis hready
    obtain ⟨g, hg⟩ := exists_fills hP
    obtain ⟨h, hh⟩ := h0
    cases hq
    exact ⟨g, h, hg, hh, rfl⟩
  | inline k n e i r ih1 ih2 =>
    intro hn q hq cur vis hready
    have hn' := hn
    simp only [Obj.ptrs, List.filter_append, List.nodup_append] at hn'
    cases hq with
    | enter _ _ _ hb hr =>
      rename_i b' r'
      obtain ⟨g1, h1, a1, c1, e1⟩ := ih1 hn'.1 b' hb (cur ++ [k]) vis hready
      obtain ⟨g2, h2, a2, c2, e2⟩ := ih2 hn'.2.1 r' hr cur (b'.trace (cur ++ [k]) vis).visited (hmono _ _ _ hready (trace_mono _ _ _))
      obtain ⟨g, hg, f1, f2⟩ := fills_two a1 a2 i r hn
      refine ⟨g, mergeCells (b'.trace (cur ++ [k]) vis).visited h1 h2, hg, c1.merge c2 _, ?_⟩
      simp only [Obj.fill, Obj.visitWith, Prog.trace, f1, f2, ending_leaks]
      have m1 := merge_left (f := f) (h1 := h1) (h2 := h2) (i.fill g1) (cur ++ [k]) vis
      rw [← e1] at m1
      rw [m1, merge_right, e2]
  | unique k n e i r ih1 ih2 =>
    intro hn q hq cur vis hready
    have hn' := hn
    simp only [Obj.ptrs, List.filter_append, List.nodup_append] at hn'
    cases hq with
    | enterUnique _ _ _ hb hr =>
      rename_i b' r'
      obtain ⟨g1, h1, a1, c1, e1⟩ := ih1 hn'.1 b' hb (cur ++ [k]) vis hready
      obtain ⟨g2, h2, a2, c2, e2⟩ := ih2 hn'.2.1 r' hr cur (b'.trace (cur ++ [k]) vis).visited (hmono _ _ _ hready (trace_mono _ _ _))
      obtain ⟨g, hg, f1, f2⟩ := fills_two a1 a2 i r hn
      refine ⟨g, mergeCells (b'.trace (cur ++ [k]) vis).visited h1 h2, hg, c1.merge c2 _, ?_⟩
      simp only [Obj.fill, Obj.visitWith, Prog.trace, f1, f2, ending_leaks]
      have m1 := merge_left (f := f) (h1 := h1) (h2 := h2) (i.fill g1) (cur ++ [k]) vis
      rw [← e1] at m1
      rw [m1, merge_right, e2]
  | shared k n p e r ih =>
    intro hn q hq cur vis hready
    have hn' : (r.ptrs.filter fun p => (place p).isSome).Nodup := by
      simp only [Obj.ptrs, List.filter_cons] at hn
      split at hn
      · exact (List.nodup_cons.1 hn).2
      · exact hn
    simp only [Obj.visitLive] at hq
    cases hp : place p with
    | some G =>
      simp only [hp] at hq
      obtain ⟨X, h1, r', hX, c1, hr, e1⟩ := (hP p G hp).2 hs _ q hq cur vis hready
      obtain ⟨g2, h2, a2, c2, e2⟩ := ih hn' r' hr cur ((X.visitWith (contS (heapOf h1) f)).trace cur vis).visited (hmono _ _ _ hready (trace_mono _ _ _))
      have hnot : p ∉ r.ptrs := by
        intro hm
        simp only [Obj.ptrs, List.filter_cons, hp, Option.isSome_some, if_true] at hn
        exact (List.nodup_cons.1 hn).1 (by simp [List.mem_filter, hm, hp])
      have fr : r.fill (fun x => if x = p then some X else g2 x) = r.fill g2 := by
        refine fill_congr r fun x hx => ?_
        have : x ≠ p := fun h => hnot (h ▸ hx)
        simp only [this, if_false]
      refine ⟨fun x => if x = p then some X else g2 x, mergeCells ((X.visitWith (contS (heapOf h1) f)).trace cur vis).visited h1 h2, ?_, c1.merge c2 _, ?_⟩
      · intro x
        by_cases hx : x = p
        · subst hx; simp only [hp, if_true]; exact ⟨X, rfl, hX⟩
        · have := a2 x
          simp only [hx, if_false]
          exact this
      · simp only [Obj.fill, if_true, fr, visitWith_append_live]
        rw [e1, trace_seq, trace_seq, merge_left, merge_right, e2]
    | none =>
      simp only [hp] at hq
      cases hq with
      | enterShared _ _ _ _ hb hr hs' =>
        rename_i b' r' s'
        simp only [Obj.fill]
        by_cases hv : p ∈ vis
        · obtain ⟨g, h, a, c, e'⟩ := ih hn' s' hs' cur vis hready
          refine ⟨g, h, a, c, ?_⟩
          have hg : g p = none := by have := a p; simp only [hp] at this; exact this
          simp only [hg, Obj.visitWith, Prog.trace, hv, if_true, e']
        · obtain ⟨h1, c1, e1⟩ := hC p hs b' hb [] (p :: vis) (by simp)
            (fun d => ⟨(hfree _ _ hready d).mono (by simp +contextual), fun how a ha => hfree _ _ hready d how a ha p hv⟩)
          obtain ⟨g, h2, a, c2, e2⟩ := ih hn' r' hr cur (b'.trace [] (p :: vis)).visited (hmono _ _ _ hready fun p' hp' => trace_mono _ _ _ _ (by simp [hp']))
          have hg : g p = none := by have := a p; simp only [hp] at this; exact this
          refine ⟨g, mergeCells (b'.trace [] (p :: vis)).visited h1 h2, a, c1.merge c2 _, ?_⟩
          simp only [hg, Obj.visitWith, Prog.trace, hv, if_false, ending_leaks]
          have m1 : (contS (heapOf (mergeCells (b'.trace [] (p :: vis)).visited h1 h2)) f p).trace [] (p :: vis) = b'.trace [] (p :: vis) := by
            rw [e1]
            refine contS_congr ?_ fun q hq _ => ?_
            · have : p ∈ ((contS (heapOf h1) f p).trace [] (p :: vis)).visited := trace_mono _ _ _ _ (by simp)
              simp only [heapOf, mergeCells, this, if_true]
            · simp only [heapOf, mergeCells, hq, if_true]
          rw [m1, merge_right, e2]

/-- There is a moment at which everything can be asked for, and whatever is granted then can be read; and what is waited for is granted sooner or later. -/
structure Looks.Begins (L : Looks) (S : Ptr → Prop) (st : Store) : Prop where
  moment : L.moment st
  asks : ∀ a, L.asks a st
  reads : ∀ how a, how.granted (st.lock a) = true → ∃ st', L.reads how a st' ∧ st'.mem = st.mem
  waits : ∀ a, S a → ∃ st', L.reads .read a st'

variable {S : Ptr → Prop}

theorem answer_how {k : PlaceKind} {how : Access} {a : Ptr} {st : Store} (h : k.how = some how) : k.answer a st = how.granted (st.lock a) := by
  cases k <;> simp_all [PlaceKind.how, PlaceKind.answer]

theorem Looks.Begins.asksFor {st : Store} (h : L.Begins S st) (a : Ptr) (k : PlaceKind) : L.asksFor a k st := by
  cases k <;> first | exact h.asks a | exact h.moment

theorem PlaceKind.OK.waits [Target] {k : PlaceKind} {addr : Ptr → Ptr} {entries : Ptr → Nat → Datum} {p q : Ptr} (h : k.OK S addr entries p) (hq : q ∈ k.shards) : S (addr q) := by
  cases k with
  | dashMap K V KV shards capacity len bytes => exact (h.2.2.2 q hq).1
  | dashSet T shards capacity len bytes => exact (h.2.2 q hq).1
  | _ => cases hq

/-- Something can be seen. -/
theorem sees_exists [Target] {st : Store} (hL : L.Begins S st) (v : LiveDatum) : v.OK S → ∃ d, v.Sees L d := by
  induction v with
  | still d => exact fun _ => ⟨d, .still d⟩
  | live shape kind addr content ih =>
    intro hok
    have ih : ∀ p x, ∃ d, (content p x).Sees L d := fun p x => ih p x (hok.2.2.2 p x)
    have hy : ∀ q, ∃ y, S (addr q) → ∃ st', L.reads .read (addr q) st' ∧ st'.mem (addr q) = y := by
      intro q
      by_cases h : S (addr q)
      · obtain ⟨st', h'⟩ := hL.waits _ h
        exact ⟨_, fun _ => ⟨st', h', rfl⟩⟩
      · exact ⟨0, fun h' => (h h').elim⟩
    refine ⟨_, .live shape kind addr content (fun p => match kind p with | some k => k.answer (addr p) st | none => false) (fun p => st.mem (addr p))
      (fun p => (ih p (st.mem (addr p))).choose)
      (fun _ => ⟨fun q => st.mem (addr q), fun q => st.mem (addr q), fun q => st.mem (addr q), fun q => (ih q (hy q).choose).choose⟩)
      (fun _ q => (hy q).choose) ?_ ?_ (fun p _ _ _ _ _ => (ih p (st.mem (addr p))).choose_spec) ?_ (fun _ _ q _ _ => (ih q (hy q).choose).choose_spec)⟩
    · intro p k hk
      exact ⟨st, hL.asksFor _ _, by simp only [hk]⟩
    · intro p k how hk hh hg
      simp only [hk] at hg
      rw [answer_how hh] at hg
      obtain ⟨st', h1, h2⟩ := hL.reads how (addr p) hg
      exact ⟨st', h1, by rw [h2]⟩
    · intro p k hk q hq
      exact ⟨⟨st, hL.moment, rfl⟩, ⟨st, hL.moment, rfl⟩, ⟨st, hL.moment, rfl⟩, (hy q).choose_spec ((hok.2.2.1 p k hk).waits hq)⟩

theorem with_sees {c : LiveCell} {d : Datum} (h : c.value.Sees L d) : c.Sees L (c.frame.with d) := by
  obtain ⟨f, v⟩ := c
  cases f <;> exact ⟨h, by simp [Cell.with, Cell.SameFrame]⟩

theorem goodHeap_exists [Target] {st : Store} (hL : L.Begins S st) {H : Ptr → LiveCell} (hok : ∀ p, (H p).value.OK S) : ∃ h, GoodHeap L H h :=
  ⟨fun p => (H p).frame.with (sees_exists hL (H p).value (hok p)).choose, fun p => with_sees (sees_exists hL (H p).value (hok p)).choose_spec⟩

/-- What is visited inside of a lock, cell, `Weak` or `DashMap` if the content is `d` or `m`. -/
def PlaceKind.obj [Target] (granted : Bool) (d : Datum) (m : DashSeen) : PlaceKind → Obj
  | .cell _ => if granted then Visit.field dataName d.value else .nil
  | .once => if granted then d.value.visit else .nil
  | .weak strong ptrSize target => if granted then (Impl.arc strong ptrSize target).visit else .nil
  | .dashMap _ _ KV shards capacity len _ =>
    Visit.enterUnique ptrName ptrBytes .exit
      (Visit.enter capacityName (Usize.mul (shards.map fun q => capacity q (m.capacity q)).sum KV.size) .exit
        ((Obj.concat (((Datum.values (shards.flatMap fun q => (m.entries q).keysOf)).zip (Datum.values (shards.flatMap fun q => (m.entries q).valuesOf))).map
            fun e => (Visit.field keyName e.1).append (Visit.field valueName e.2))).append
          (Visit.simple unusedCapacityName (Usize.mul (Usize.saturatingSub (shards.map fun q => capacity q (m.capacityLater q)).sum (shards.map fun q => len q (m.len q)).sum) KV.size))))
  | .dashSet T shards capacity len _ =>
    Visit.enterUnique ptrName ptrBytes .exit
      (Visit.enter capacityName (Usize.mul (shards.map fun q => capacity q (m.capacity q)).sum T.size) .exit
        ((Obj.concat ((Datum.values (shards.flatMap fun q => (m.entries q).itemsOf)).map fun v => Visit.field dataName v)).append
          (Visit.simple unusedCapacityName (Usize.mul (Usize.saturatingSub (shards.map fun q => capacity q (m.capacityLater q)).sum (shards.map fun q => len q (m.len q)).sum) T.size))))

theorem seen_value [Target] (k : PlaceKind) (granted : Bool) (d : Datum) (m : DashSeen) (self : Ty) :
    (k.seen granted d m self).value.fill nowhere = Impl.sized self (Visit.enterSelfSized self .exit ((k.obj granted d m).fill nowhere)) := by
  cases k <;> cases granted <;> rfl

theorem coherent_seen [Target] (kind : Ptr → Option PlaceKind) (granted : Ptr → Bool) (d : Ptr → Datum) (m : Ptr → DashSeen) :
    Coherent (fun p => (kind p).map fun k self => k.seen (granted p) (d p) (m p) self) (fun p => (kind p).map fun k => (k.obj (granted p) (d p) (m p)).fill nowhere) := by
  intro p
  dsimp only
  cases kind p with
  | none => trivial
  | some k => exact fun self => seen_value _ _ _ _ _

/-- What can be seen at the places of a live value. -/
def LiveDatum.At [Target] (L : Looks) : LiveDatum → Ptr → Obj → Prop
  | .still _, _, _ => False
  | .live _ kind addr content, p, X => ∃ k granted x d m y, kind p = some k ∧ (∃ st, L.asksFor (addr p) k st ∧ k.answer (addr p) st = granted) ∧
      (∀ how, k.how = some how → granted = true → (∃ st, L.reads how (addr p) st ∧ st.mem (addr p) = x) ∧ (content p x).Sees L d) ∧
      L.SeesShards addr k.shards m y ∧ (∀ q ∈ k.shards, (content q (y q)).Sees L (m.entries q)) ∧ X = (k.obj granted d m).fill nowhere

theorem at_exists [Target] {st : Store} (hL : L.Begins S st) {shape kind addr content p k} (hok : (LiveDatum.live shape kind addr content).OK S) (hk : kind p = some k) :
    ∃ X, LiveDatum.At L (.live shape kind addr content) p X := by
  obtain ⟨d, hd⟩ := sees_exists hL _ hok
  cases hd with
  | live _ _ _ _ granted x d m y ha hm hs hy hys =>
    exact ⟨_, k, granted p, x p, d p, m p, y p, hk, ha p k hk, fun how hh hg => ⟨hm p k how hk hh hg, hs p k how hk hh hg⟩, hy p k hk, fun q => hys p k q hk, rfl⟩

/-- A map or a set. -/
def Datum.Table (d : Datum) : Prop := (∃ self table keys values, d = .map self table keys values) ∨ ∃ self table items, d = .set self table items

theorem fill_entries [Target] {f : Ptr → Option (Ty → Datum)} (h : Coherent f g) {d : Datum} (hd : d.Table) : (Datum.fill f d).entriesVisit.fill nowhere = d.entriesVisit.fill g := by
  rcases hd with ⟨self, table, keys, values, rfl⟩ | ⟨self, table, items, rfl⟩
  · simp only [Datum.fill, Datum.entriesVisit, fill_concat_zip, fill_values h]
  · simp only [Datum.fill, Datum.entriesVisit, fill_concat_fields, fill_values h]

theorem sees_of_fills [Target] {cont : Ptr → LProg} (v : LiveDatum) {g : Ptr → Option Obj} (hg : Fills (v.places cont) (v.At L) g) :
    ∃ d, v.Sees L d ∧ d.value.fill nowhere = v.shape.value.fill g ∧ (v.shape.Table → d.entriesVisit.fill nowhere = v.shape.entriesVisit.fill g) := by
  cases v with
  | still d =>
    have : g = fun _ => none := by
      funext p
      have := hg p
      simp only [LiveDatum.places] at this
      exact this
    subst this
    exact ⟨d, .still d, rfl, fun _ => rfl⟩
  | live shape kind addr content =>
    have hx : ∀ p, ∃ (granted : Bool) (x : Nat) (d : Datum) (m : DashSeen) (y : Ptr → Nat),
        ((∀ k, kind p = some k → ∃ st, L.asksFor (addr p) k st ∧ k.answer (addr p) st = granted) ∧
        (∀ k how, kind p = some k → k.how = some how → granted = true → (∃ st, L.reads how (addr p) st ∧ st.mem (addr p) = x) ∧ (content p x).Sees L d) ∧
        (∀ k, kind p = some k → L.SeesShards addr k.shards m y) ∧ ∀ k q, kind p = some k → q ∈ k.shards → (content q (y q)).Sees L (m.entries q)) ∧
        ∀ k, kind p = some k → g p = some ((k.obj granted d m).fill nowhere) := by
      intro p
      have := hg p
      simp only [LiveDatum.places] at this
      cases hk : kind p with
      | none => exact ⟨false, 0, shape, ⟨fun _ => 0, fun _ => 0, fun _ => 0, fun _ => shape⟩, fun _ => 0, ⟨(by simp), (by simp), (by simp), (by simp)⟩, (by simp)⟩
      | some k =>
        rw [hk] at this
        have h2 : ∃ X, g p = some X ∧ LiveDatum.At L (.live shape kind addr content) p X := by cases k <;> exact this
        obtain ⟨X, e, k', granted, x, d, m, y, hk', ha, hm, hy, hys, rfl⟩ := h2
        rw [hk] at hk'
        cases hk'
        exact ⟨granted, x, d, m, y, ⟨by intro k hk; cases hk; exact ha, by intro k how hk; cases hk; exact hm how, by intro k hk; cases hk; exact hy,
          by intro k q hk; cases hk; exact hys q⟩, by intro k hk; cases hk; exact e⟩
    refine Exists.elim (Classical.axiomOfChoice hx) fun granted hx => Exists.elim (Classical.axiomOfChoice hx) fun x hx => Exists.elim (Classical.axiomOfChoice hx) fun d hx =>
      Exists.elim (Classical.axiomOfChoice hx) fun m hx => Exists.elim (Classical.axiomOfChoice hx) fun y hx => ?_
    have hh : (fun p => (kind p).map fun k => (k.obj (granted p) (d p) (m p)).fill nowhere) = g := by
      funext p
      have h1 := hg p
      simp only [LiveDatum.places] at h1
      cases hk : kind p with
      | none => rw [hk] at h1; exact h1.symm
      | some k => rw [(hx p).2 k hk]; rfl
    have hc := coherent_seen kind granted d m
    rw [hh] at hc
    refine ⟨_, .live shape kind addr content granted x d m y (fun p => (hx p).1.1) (fun p k how a b c => ((hx p).1.2.1 k how a b c).1)
      (fun p k how a b c => ((hx p).1.2.1 k how a b c).2) (fun p => (hx p).1.2.2.1) (fun p => (hx p).1.2.2.2), fill_value hc _, ?_⟩
    exact fun e => fill_entries hc e

theorem sees_sizeOfVal [Target] {v : LiveDatum} {d : Datum} (h : v.Sees L d) : d.value.sizeOfVal = v.shape.value.sizeOfVal := by
  cases h with
  | still d => rfl
  | live shape kind addr content granted x d m y =>
    exact size_of_fill (fill_value (coherent_seen kind granted d m) shape)

/-- What can be seen of a map is a map. -/
theorem sees_map [Target] {v : LiveDatum} {d : Datum} (h : v.Sees L d) {self table keys values} (e : v.shape = .map self table keys values) :
    ∃ keys' values', d = .map self table keys' values' ∧ (∀ T, Datum.AllOf T keys → Datum.AllOf T keys') ∧ ∀ T, Datum.AllOf T values → Datum.AllOf T values' := by
  cases h with
  | still d => simp only [LiveDatum.shape] at e; subst e; exact ⟨keys, values, rfl, fun _ h => h, fun _ h => h⟩
  | live shape kind addr content granted x d m y =>
    simp only [LiveDatum.shape] at e
    subst e
    exact ⟨_, _, rfl, fun _ h => fill_allOf (coherent_seen _ _ _ _) h, fun _ h => fill_allOf (coherent_seen _ _ _ _) h⟩

/-- What can be seen of a set is a set. -/
theorem sees_set [Target] {v : LiveDatum} {d : Datum} (h : v.Sees L d) {self table items} (e : v.shape = .set self table items) :
    ∃ items', d = .set self table items' ∧ ∀ T, Datum.AllOf T items → Datum.AllOf T items' := by
  cases h with
  | still d => simp only [LiveDatum.shape] at e; subst e; exact ⟨items, rfl, fun _ h => h⟩
  | live shape kind addr content granted x d m y =>
    simp only [LiveDatum.shape] at e
    subst e
    exact ⟨_, rfl, fun _ h => fill_allOf (coherent_seen _ _ _ _) h⟩

theorem WFAll_flatMap [Target] {α : Type} {f : α → List Datum} {l : List α} (h : ∀ q ∈ l, Datum.WFAll (f q)) : Datum.WFAll (l.flatMap f) := by
  induction l with
  | nil => trivial
  | cons x l ih =>
    have h1 := h x (by simp)
    have h2 := ih fun q hq => h q (by simp [hq])
    simp only [List.flatMap_cons]
    revert h1
    generalize f x = a
    intro h1
    induction a with
    | nil => exact h2
    | cons d a ih => exact ⟨h1.1, ih h1.2⟩

theorem allOf_flatMap [Target] {α : Type} {T : Ty} {f : α → List Datum} {l : List α} (h : ∀ q ∈ l, Datum.AllOf T (f q)) : Datum.AllOf T (l.flatMap f) := by
  intro d hd
  obtain ⟨q, hq, hd⟩ := List.mem_flatMap.1 hd
  exact h q hq d hd

theorem length_flatMap_eq {α β γ : Type} {f : α → List β} {f' : α → List γ} {l : List α} (h : ∀ q ∈ l, (f q).length = (f' q).length) :
    (l.flatMap f).length = (l.flatMap f').length := by
  induction l with
  | nil => rfl
  | cons x l ih => simp only [List.flatMap_cons, List.length_append, h x (by simp), ih fun q hq => h q (by simp [hq])]

theorem sum_le_sum {α : Type} {f f' : α → Nat} {l : List α} (h : ∀ q ∈ l, f q ≤ f' q) : (l.map f).sum ≤ (l.map f').sum := by
  induction l with
  | nil => exact Nat.le_refl _
  | cons x l ih =>
    simp only [List.map_cons, List.sum_cons]
    exact Nat.add_le_add (h x (by simp)) (ih fun q hq => h q (by simp [hq]))

theorem sum_mul {α : Type} (f : α → Nat) (n : Nat) (l : List α) : (l.map f).sum * n = (l.map fun q => f q * n).sum := by
  induction l with
  | nil => simp
  | cons x l ih => simp only [List.map_cons, List.sum_cons, Nat.add_mul, ih]

/-- The entries of the shards. -/
theorem shard_entries [Target] {addr : Ptr → Ptr} {content : Ptr → Nat → LiveDatum} {K V KV : Ty} {shards : List Ptr} {capacity len bytes : Ptr → Nat → Nat} {p : Ptr}
    (hok : (PlaceKind.dashMap K V KV shards capacity len bytes).OK S addr (fun q x => (content q x).shape) p) {q : Ptr} (hq : q ∈ shards) {x : Nat} {d : Datum} (hd : (content q x).Sees L d) :
    ∃ self table keys values, d = .map self table keys values ∧ Datum.AllOf K keys ∧ Datum.AllOf V values := by
  obtain ⟨-, -, -, h⟩ := hok
  obtain ⟨-, self, table, keys, values, e, hK, hV⟩ := (h q hq).2 x
  obtain ⟨keys', values', e', h1, h2⟩ := sees_map hd e
  exact ⟨self, table, keys', values', e', h1 _ hK, h2 _ hV⟩

theorem shard_items [Target] {addr : Ptr → Ptr} {content : Ptr → Nat → LiveDatum} {T : Ty} {shards : List Ptr} {capacity len bytes : Ptr → Nat → Nat} {p : Ptr}
    (hok : (PlaceKind.dashSet T shards capacity len bytes).OK S addr (fun q x => (content q x).shape) p) {q : Ptr} (hq : q ∈ shards) {x : Nat} {d : Datum} (hd : (content q x).Sees L d) :
    ∃ self table items, d = .set self table items ∧ Datum.AllOf T items := by
  obtain ⟨-, -, h⟩ := hok
  obtain ⟨-, self, table, items, e, hT⟩ := (h q hq).2 x
  obtain ⟨items', e', h1⟩ := sees_set hd e
  exact ⟨self, table, items', e', h1 _ hT⟩

theorem sees_WF [Target] {v : LiveDatum} {d : Datum} (h : v.Sees L d) : v.OK S → d.WF := by
  induction h with
  | still d => exact id
  | live shape kind addr content granted x d m y ha hm hs hy hys ih ihs =>
    intro hok
    refine fill_WF (coherent_seen _ _ _ _) ?_ shape hok.1
    intro p k hk self
    cases hkd : kind p with
    | none => simp [hkd] at hk
    | some k' =>
      simp only [hkd, Option.map_some, Option.some.injEq] at hk
      subst hk
      cases k' with
      | cell how =>
        cases hg : granted p with
        | false => trivial
        | true => exact ih p _ how hkd rfl hg (hok.2.2.2 _ _)
      | once =>
        cases hg : granted p with
        | false => trivial
        | true => exact ih p _ .get hkd rfl hg (hok.2.2.2 _ _)
      | weak strong ptrSize target => cases granted p <;> trivial
      | dashMap K V KV shards capacity len bytes =>
        have hk := hok.2.2.1 p _ hkd
        have he : ∀ q ∈ shards, ∃ self table keys values, (m p).entries q = .map self table keys values ∧ Datum.AllOf K keys ∧ Datum.AllOf V values ∧
            keys.length = values.length ∧ Datum.WFAll keys ∧ Datum.WFAll values := by
          intro q hq
          obtain ⟨self, table, keys, values, e, hK, hV⟩ := shard_entries hk hq (hys p _ q hkd hq)
          have hw := ihs p _ q hkd hq (hok.2.2.2 _ _)
          rw [e] at hw
          exact ⟨self, table, keys, values, e, hK, hV, hw⟩
        obtain ⟨-, h2, h3, h4⟩ := hk
        have hb : ∀ w : Ptr → Nat, (shards.map fun q => capacity q (w q)).sum * KV.size ≤ (shards.map fun q => bytes q (w q)).sum := by
          intro w
          rw [sum_mul]
          exact sum_le_sum fun q hq => ((h4 q hq).2 (w q)).1
        refine ⟨allOf_flatMap fun q hq => ?_, allOf_flatMap fun q hq => ?_, length_flatMap_eq fun q hq => ?_, h2, hb _, (h3 _).2.2, ?_, WFAll_flatMap fun q hq => ?_, WFAll_flatMap fun q hq => ?_⟩
        · obtain ⟨self, table, keys, values, e, hK, hV, hl, hw1, hw2⟩ := he q hq
          rw [e]; exact hK
        · obtain ⟨self, table, keys, values, e, hK, hV, hl, hw1, hw2⟩ := he q hq
          rw [e]; exact hV
        · obtain ⟨self, table, keys, values, e, hK, hV, hl, hw1, hw2⟩ := he q hq
          rw [e]; exact hl
        · exact Nat.lt_of_le_of_lt (Nat.le_trans (Nat.mul_le_mul_right _ (Nat.sub_le _ _)) (hb (m p).capacityLater)) (h3 _).2.2
        · obtain ⟨self, table, keys, values, e, hK, hV, hl, hw1, hw2⟩ := he q hq
          rw [e]; exact hw1
        · obtain ⟨self, table, keys, values, e, hK, hV, hl, hw1, hw2⟩ := he q hq
          rw [e]; exact hw2
      | dashSet T shards capacity len bytes =>
        have hk := hok.2.2.1 p _ hkd
        have he : ∀ q ∈ shards, ∃ self table items, (m p).entries q = .set self table items ∧ Datum.AllOf T items ∧ Datum.WFAll items := by
          intro q hq
          obtain ⟨self, table, items, e, hT⟩ := shard_items hk hq (hys p _ q hkd hq)
          have hw := ihs p _ q hkd hq (hok.2.2.2 _ _)
          rw [e] at hw
          exact ⟨self, table, items, e, hT, hw⟩
        obtain ⟨-, h3, h4⟩ := hk
        have hb : ∀ w : Ptr → Nat, (shards.map fun q => capacity q (w q)).sum * T.size ≤ (shards.map fun q => bytes q (w q)).sum := by
          intro w
          rw [sum_mul]
          exact sum_le_sum fun q hq => ((h4 q hq).2 (w q)).1
        refine ⟨allOf_flatMap fun q hq => ?_, hb _, (h3 _).2.2, ?_, WFAll_flatMap fun q hq => ?_⟩
        · obtain ⟨self, table, items, e, hT, hw⟩ := he q hq
          rw [e]; exact hT
        · exact Nat.lt_of_le_of_lt (Nat.le_trans (Nat.mul_le_mul_right _ (Nat.sub_le _ _)) (hb (m p).capacityLater)) (h3 _).2.2
        · obtain ⟨self, table, items, e, hT, hw⟩ := he q hq
          rw [e]; exact hw

theorem places_isSome [Target] (cont : Ptr → LProg) (shape kind addr content) :
    (fun p => (LiveDatum.places (.live shape kind addr content) cont p).isSome) = fun p => (kind p).isSome := by
  funext p
  simp only [LiveDatum.places]
  cases kind p with
  | none => rfl
  | some k => cases k <;> rfl

theorem places_nodup [Target] (cont : Ptr → LProg) (v : LiveDatum) (hok : v.OK S) : (v.shape.value.visit.ptrs.filter fun p => (v.places cont p).isSome).Nodup := by
  cases v with
  | still d => rw [List.filter_eq_nil_iff.2 (by simp [LiveDatum.places])]; exact List.nodup_nil
  | live shape kind addr content =>
    rw [places_isSome]
    simp only [LiveDatum.shape]
    rw [pointed shape hok.1]
    exact hok.2.1

theorem field_ptrs (k k' : Key) (l : List Value) : (Obj.concat (l.map fun v => Visit.field k v)).ptrs = (Obj.concat (l.map fun v => Visit.field k' v)).ptrs := by
  induction l with
  | nil => rfl
  | cons v l ih => simp only [List.map_cons, Obj.concat, ptrs_append, ptrs_field, ih]

theorem entries_ptrs [Target] {d : Datum} (h : d.Table) : d.entriesVisit.ptrs = d.value.visit.ptrs := by
  rcases h with ⟨self, table, keys, values, rfl⟩ | ⟨self, table, items, rfl⟩
  · simp [Datum.value, Impl.map, Impl.sized, Visit.enterSelfSized, Visit.enterSelf, Visit.genericMapFields, Datum.entriesVisit, Visit.fieldWith]
  · simp [Datum.value, Impl.set, Impl.sized, Visit.enterSelfSized, Visit.enterSelf, Visit.genericSetFields, Datum.entriesVisit, Visit.fieldWith, field_ptrs dataName keyName]

theorem entries_nodup [Target] (cont : Ptr → LProg) (v : LiveDatum) (hok : v.OK S) (e : v.shape.Table) :
    (v.shape.entriesVisit.ptrs.filter fun p => (v.places cont p).isSome).Nodup := by
  rw [entries_ptrs e]
  exact places_nodup cont v hok

/-- Inside of one more lock. -/
theorem LiveDatum.Ready.inside {shape kind addr content} {hs : List Hold} {vis : List Ptr} (h : (LiveDatum.live shape kind addr content).Ready D H hs vis) {p k how}
    (hk : kind p = some k) (hh : k.how = some how) (x : Nat) : (content p x).Ready D H (.lock how (addr p) :: hs) vis := by
  intro d
  obtain ⟨h1, h2, h3, h4⟩ := h d
  have ha : (LiveDatum.live shape kind addr content).Has (addr p) := .here hk hh rfl
  have hi : ∀ {b}, (content p x).Has b → (LiveDatum.live shape kind addr content).Has b := fun hb => .inside hk hh hb
  refine ⟨?_, ?_, (h3.1 p k how hk hh x).2, fun b hb => h4 b (hi hb)⟩
  · intro how' a hm
    rcases List.mem_cons.1 hm with e | hm
    · cases e; exact h4 _ ha
    · exact h1 how' a hm
  · intro how' a hm hb
    rcases List.mem_cons.1 hm with e | hm
    · cases e; exact (h3.1 p k how hk hh x).1 hb
    · exact h2 how' a hm (hi hb)

/-- Inside of a shard. -/
theorem LiveDatum.Ready.inShard {shape kind addr content} {hs : List Hold} {vis : List Ptr} (h : (LiveDatum.live shape kind addr content).Ready D H hs vis) {p k q}
    (hk : kind p = some k) (hq : q ∈ k.shards) (x : Nat) : (content q x).Ready D H (.lock .read (addr q) :: hs) vis := by
  intro d
  obtain ⟨h1, h2, h3, h4⟩ := h d
  have ha : (LiveDatum.live shape kind addr content).Has (addr q) := .shard hk hq rfl
  have hi : ∀ {b}, (content q x).Has b → (LiveDatum.live shape kind addr content).Has b := fun hb => .inShard hk hq hb
  refine ⟨?_, ?_, (h3.2 p k q hk hq x).2, fun b hb => h4 b (hi hb)⟩
  · intro how' a hm
    rcases List.mem_cons.1 hm with e | hm
    · cases e; exact h4 _ ha
    · exact h1 how' a hm
  · intro how' a hm hb
    rcases List.mem_cons.1 hm with e | hm
    · cases e; exact (h3.2 p k q hk hq x).1 hb
    · exact h2 how' a hm (hi hb)

/-- A lock of the value may be asked for. -/
theorem LiveDatum.Ready.asks {v : LiveDatum} {hs : List Hold} {vis : List Ptr} (h : v.Ready D H hs vis) {a : Ptr} (ha : v.Has a) {st : Store} (hi : I hs st) :
    (looksOf D I).asks a st := ⟨hs, hi, fun d how hm => (h d).2.1 how a hm ha⟩

/-! Shards -/

/-- A sum over shards, as it comes out. -/
theorem sum_resolves [Target] {hs : List Hold} {addr : Ptr → Ptr} {num : Ptr → Nat → Nat} {mk : Ptr → LImpl.Shard} {get : LImpl.Shard → LImpl.Number}
    (hget : ∀ q, get (mk q) = ⟨addr q, num q⟩) {next : Nat → LProg} (l : List Ptr) : ∀ acc, l.Nodup → (∀ w : Ptr → Nat, acc + (l.map fun q => num q (w q)).sum < Usize.modulus) →
    ∀ b, Resolves I (fun _ => False) hs (LImpl.sumShards get next acc (l.map mk)) b →
    ∃ w : Ptr → Nat, (∀ q ∈ l, ∃ st, I hs st ∧ st.mem (addr q) = w q) ∧ Resolves I (fun _ => False) hs (next (acc + (l.map fun q => num q (w q)).sum)) b := by
  induction l with
  | nil => intro acc _ _ b h; exact ⟨fun _ => 0, by simp, h⟩
  | cons q l ih =>
    intro acc hn hb b h
    obtain ⟨hq, hn⟩ := List.nodup_cons.1 hn
    simp only [List.map_cons, LImpl.sumShards] at h
    cases h with
    | skipped _ _ _ _ _ hw _ => exact (hw rfl).elim
    | visited _ _ _ _ hi hr =>
      cases hi
      rw [hget] at hr
      cases hr with
      | @read _ _ _ st _ ho hr =>
        have hw' : ∀ w : Ptr → Nat, (l.map fun q' => num q' (if q' = q then st.mem (addr q) else w q')) = l.map fun q' => num q' (w q') := by
          intro w
          refine List.map_congr_left fun q' hq' => ?_
          have : q' ≠ q := fun e => hq (e ▸ hq')
          simp only [this, if_false]
        have hb' : ∀ w : Ptr → Nat, acc + num q (st.mem (addr q)) + (l.map fun q => num q (w q)).sum < Usize.modulus := by
          intro w
          have := hb fun q' => if q' = q then st.mem (addr q) else w q'
          simp only [List.map_cons, List.sum_cons, hw', if_true] at this
          omega
        have e : Usize.add acc (num q (st.mem (addr q))) = acc + num q (st.mem (addr q)) := Usize.add_eq (by have := hb' fun _ => 0; omega)
        simp only [Prog.seq, e] at hr ⊢
        obtain ⟨w, h1, h2⟩ := ih _ hn hb' _ hr
        refine ⟨fun q' => if q' = q then st.mem (addr q) else w q', ?_, ?_⟩
        · intro q' hq'
          by_cases e : q' = q
          · subst e; exact ⟨st, ho, by simp⟩
          · simp only [e, if_false]
            exact h1 q' (by simpa [e] using hq')
        · simp only [List.map_cons, List.sum_cons, hw', if_true]
          rw [← Nat.add_assoc]
          exact h2

/-- The loop over the entries of all shards. -/
theorem shards_spec [Target] {f : Nat} {cont : Ptr → LProg} (hC : ContSpec D I H cont f) {addr : Ptr → Ptr} {content : Ptr → Nat → LiveDatum} {mk : Ptr → LImpl.Shard} {hs : List Hold}
    {ready : List Ptr → Prop} (hmono : ∀ vis vis', ready vis → (∀ p ∈ vis, p ∈ vis') → ready vis') (h0 : ∃ h, GoodHeap (looksOf D I) H h) (d0 : Datum)
    (hmk : ∀ q, (mk q).lock = addr q ∧ (mk q).entries = .load (addr q) fun x => (content q x).shape.entriesVisit.visitLive cont ((content q x).places cont)) {rest : LProg} (l : List Ptr)
    (hl : ∀ q ∈ l, ∀ x, (content q x).OK S ∧ (content q x).shape.Table ∧
      PlaceSpec D I H f ((content q x).Ready D H) ((content q x).places cont) ((content q x).At (looksOf D I)) ∧
      ∀ vis, ready vis → (content q x).Ready D H (.lock .read (addr q) :: hs) vis) : l.Nodup →
    ∀ b, Resolves I (fun _ => False) hs (LImpl.shards (l.map mk) rest) b → ∀ cur vis, ready vis →
    ∃ (y : Ptr → Nat) (es : Ptr → Datum) (h : Ptr → Cell) (r : Prog), (∀ q ∈ l, (∃ st, (looksOf D I).reads .read (addr q) st ∧ st.mem (addr q) = y q) ∧ (content q (y q)).Sees (looksOf D I) (es q)) ∧
      GoodHeap (looksOf D I) H h ∧ Resolves I (fun _ => False) hs rest r ∧
      b.trace cur vis = (((Obj.concat (l.map fun q => (es q).entriesVisit)).visitWith (contS (heapOf h) f)).seq r).trace cur vis := by
  induction l with
  | nil =>
    intro _ b hb cur vis _
    obtain ⟨h, hh⟩ := h0
    exact ⟨fun _ => 0, fun _ => d0, h, b, by simp, hh, hb, rfl⟩
  | cons q l ih =>
    intro hn b hb cur vis hready
    obtain ⟨hq, hn⟩ := List.nodup_cons.1 hn
    simp only [List.map_cons, LImpl.shards, (hmk q).1] at hb
    cases hb with
    | skipped _ _ _ _ _ hw _ => exact (hw rfl).elim
    | visited _ _ ho hgr hi hr =>
      rename_i i' r'
      have hi := resolves_seq_done (fun _ _ h => ahead_resolves _ h) _ hi
      rw [(hmk q).2] at hi
      cases hi with
      | @read _ _ _ stx _ hm hi =>
        obtain ⟨hok, hmap, hP, hrd⟩ := hl q (by simp) (stx.mem (addr q))
        obtain ⟨g, h1, hg, c1, e1⟩ := obj_main hC hP (fun _ _ _ h h' => h.mono h') (fun _ _ h d => (h d).1) h0 _ _ (entries_nodup cont _ hok hmap) _ hi cur vis (hrd vis hready)
        obtain ⟨d, hd, -, ed⟩ := sees_of_fills _ hg
        rw [← ed hmap, trace_nowhere] at e1
        obtain ⟨y, es, h2, r, hy, c2, hr', e2⟩ := ih (fun q hq => hl q (by simp [hq])) hn r' hr cur (i'.trace cur vis).visited (hmono _ _ hready (trace_mono _ _ _))
        have hne : ∀ q' ∈ l, q' ≠ q := fun q' hq' e => hq (e ▸ hq')
        refine ⟨fun q' => if q' = q then stx.mem (addr q) else y q', fun q' => if q' = q then d else es q', mergeCells (i'.trace cur vis).visited h1 h2, r, ?_, c1.merge c2 _, hr', ?_⟩
        · intro q' hq'
          rcases List.mem_cons.1 hq' with e | hq'
          · subst e
            simp only [if_true]
            exact ⟨⟨stx, ⟨_, hm, by simp⟩, rfl⟩, hd⟩
          · simp only [hne q' hq', if_false]
            exact hy q' hq'
        · have el : (l.map fun q' => (if q' = q then d else es q').entriesVisit) = l.map fun q' => (es q').entriesVisit :=
            List.map_congr_left fun q' hq' => by simp only [hne q' hq', if_false]
          simp only [List.map_cons, if_true, el, Obj.concat, visitWith_append_live, prog_seq_assoc]
          have m1 := merge_left (f := f) (h1 := h1) (h2 := h2) d.entriesVisit cur vis
          rw [← e1] at m1
          rw [trace_seq, trace_seq, m1, trace_seq (Obj.visitWith _ _), merge_right, ← trace_seq (Obj.visitWith _ _), e2]

theorem values_eq_map_live [Target] (l : List Datum) : Datum.values l = l.map Datum.value := by
  induction l with
  | nil => rfl
  | cons d l ih => simp only [Datum.values, List.map_cons, ih]

/-- The entries of all shards, together. -/
theorem concat_entries [Target] {es : Ptr → Datum} {l : List Ptr} (h : ∀ q ∈ l, ∃ self table keys values, es q = .map self table keys values ∧ keys.length = values.length) :
    Obj.concat (((Datum.values (l.flatMap fun q => (es q).keysOf)).zip (Datum.values (l.flatMap fun q => (es q).valuesOf))).map
      fun e => (Visit.field keyName e.1).append (Visit.field valueName e.2)) = Obj.concat (l.map fun q => (es q).entriesVisit) := by
  induction l with
  | nil => rfl
  | cons q l ih =>
    have ih := ih fun q hq => h q (by simp [hq])
    obtain ⟨self, table, keys, values, e, hl⟩ := h q (by simp)
    simp only [values_eq_map_live] at ih ⊢
    have ek : (es q).keysOf = keys := by rw [e]; rfl
    have ev : (es q).valuesOf = values := by rw [e]; rfl
    have ee : (es q).entriesVisit = Obj.concat (((keys.map Datum.value).zip (values.map Datum.value)).map fun e => (Visit.field keyName e.1).append (Visit.field valueName e.2)) := by
      rw [e]; simp only [Datum.entriesVisit, values_eq_map_live]
    simp only [List.flatMap_cons, List.map_append, List.map_cons, Obj.concat, ek, ev, ee]
    rw [List.zip_append (by simp [hl]), List.map_append, concat_append, ih]

theorem concat_items [Target] {es : Ptr → Datum} {l : List Ptr} (h : ∀ q ∈ l, ∃ self table items, es q = .set self table items) :
    Obj.concat ((Datum.values (l.flatMap fun q => (es q).itemsOf)).map fun v => Visit.field dataName v) = Obj.concat (l.map fun q => (es q).entriesVisit) := by
  induction l with
  | nil => rfl
  | cons q l ih =>
    have ih := ih fun q hq => h q (by simp [hq])
    obtain ⟨self, table, items, e⟩ := h q (by simp)
    simp only [values_eq_map_live] at ih ⊢
    have ek : (es q).itemsOf = items := by rw [e]; rfl
    have ee : (es q).entriesVisit = Obj.concat ((items.map Datum.value).map fun v => Visit.field dataName v) := by
      rw [e]; simp only [Datum.entriesVisit, values_eq_map_live]
    simp only [List.flatMap_cons, List.map_append, List.map_cons, Obj.concat, ek, ee]
    rw [concat_append, ih]

theorem places_spec [Target] {st : Store} (hL : (looksOf D I).Begins S st) {f : Nat} {cont : Ptr → LProg} (hC : ContSpec D I H cont f) (hH : ∀ p, (H p).value.OK S) (v : LiveDatum) : v.OK S →
    PlaceSpec D I H f (v.Ready D H) (v.places cont) (v.At (looksOf D I)) ∧
    ∀ hs q, Resolves I (fun _ => False) hs (v.visit cont) q → ∀ cur vis, v.Ready D H hs vis → ∃ d h, v.Sees (looksOf D I) d ∧ GoodHeap (looksOf D I) H h ∧
      q.trace cur vis = (d.value.visit.visitWith (contS (heapOf h) f)).trace cur vis := by
  have visitOf : ∀ v : LiveDatum, v.OK S → PlaceSpec D I H f (v.Ready D H) (v.places cont) (v.At (looksOf D I)) →
      ∀ hs q, Resolves I (fun _ => False) hs (v.visit cont) q → ∀ cur vis, v.Ready D H hs vis → ∃ d h, v.Sees (looksOf D I) d ∧ GoodHeap (looksOf D I) H h ∧
      q.trace cur vis = (d.value.visit.visitWith (contS (heapOf h) f)).trace cur vis := by
    intro v hok hP hs q hq cur vis hready
    obtain ⟨g, h, hg, hh, e⟩ := obj_main hC hP (fun _ _ _ h h' => h.mono h') (fun _ _ h d => (h d).1) (goodHeap_exists hL hH) hs _ (places_nodup cont v hok) q hq cur vis hready
    obtain ⟨d, hd, ed, -⟩ := sees_of_fills v hg
    exact ⟨d, h, hd, hh, by rw [e, ← fill_visit, ← ed, fill_visit, trace_nowhere]⟩
  induction v with
  | still d =>
    intro hok
    have hP : PlaceSpec D I H f ((LiveDatum.still d).Ready D H) ((LiveDatum.still d).places cont) ((LiveDatum.still d).At (looksOf D I)) := by intro p G h; cases h
    exact ⟨hP, visitOf _ hok hP⟩
  | live shape kind addr content ih =>
    intro hok
    have hP : PlaceSpec D I H f ((LiveDatum.live shape kind addr content).Ready D H) ((LiveDatum.live shape kind addr content).places cont)
        ((LiveDatum.live shape kind addr content).At (looksOf D I)) := by
      intro p G hG
      let m0 : DashSeen := ⟨fun _ => 0, fun _ => 0, fun _ => 0, fun _ => shape⟩
      have hnil : ∀ k, kind p = some k → (∃ st, (looksOf D I).asksFor (addr p) k st ∧ k.answer (addr p) st = false) →
          LiveDatum.At (looksOf D I) (.live shape kind addr content) p .nil := by
        intro k hk ha
        cases k with
        | dashMap => obtain ⟨_, _, h⟩ := ha; cases h
        | dashSet => obtain ⟨_, _, h⟩ := ha; cases h
        | _ => exact ⟨_, false, 0, shape, m0, fun _ => 0, hk, ha, (by simp), (fun q hq => by cases hq), (fun q hq => by cases hq), rfl⟩
      simp only [LiveDatum.places] at hG
      cases hk : kind p with
      | none => rw [hk] at hG; cases hG
      | some k =>
        refine ⟨at_exists hL hok hk, ?_⟩
        intro hs rest q hq cur vis hready
        rw [hk] at hG
        obtain ⟨h0, hh0⟩ := goodHeap_exists hL hH
        cases k with
        | cell how =>
          simp only [Option.some.injEq] at hG
          subst hG
          cases hq with
          | skipped _ _ _ ho hg _ hr => exact ⟨.nil, h0, q, hnil _ hk ⟨_, hready.asks (.here hk rfl rfl) ho, hg⟩, hh0, hr, rfl⟩
          | visited _ _ ho hgr hi hr =>
            rename_i i' r'
            cases hi with
            | @read _ _ _ stx _ hm hi =>
              cases hi with
              | enter _ _ _ hb hd =>
                rename_i b' _
                cases hd
                obtain ⟨d, h, hs', hh, e⟩ := (ih p _ (hok.2.2.2 p _)).2 _ b' hb (cur ++ [dataName]) vis (hready.inside hk rfl _)
                refine ⟨_, h, r', ⟨.cell how, true, stx.mem (addr p), d, m0, fun _ => 0, hk, ⟨_, hready.asks (.here hk rfl rfl) ho, hgr⟩, ?_, (fun q hq => by cases hq), (fun q hq => by cases hq), rfl⟩, hh, hr, ?_⟩
                · intro how' hw _
                  cases hw
                  exact ⟨⟨stx, ⟨_, hm, by simp⟩, rfl⟩, hs'⟩
                · rw [trace_seq, trace_seq, trace_nowhere]
                  simp only [PlaceKind.obj, if_true, Visit.field, Visit.fieldWith, Visit.enter, Obj.visitWith, Prog.trace, e, sees_sizeOfVal hs', Ending.fate]
        | once =>
          simp only [Option.some.injEq] at hG
          subst hG
          cases hq with
          | skipped _ _ _ ho hg _ hr => exact ⟨.nil, h0, q, hnil _ hk ⟨_, hready.asks (.here hk rfl rfl) ho, hg⟩, hh0, hr, rfl⟩
          | visited _ _ ho hgr hi hr =>
            rename_i i' r'
            cases hi with
            | @read _ _ _ stx _ hm hi =>
              obtain ⟨d, h, hs', hh, e⟩ := (ih p _ (hok.2.2.2 p _)).2 _ _ hi cur vis (hready.inside hk rfl _)
              refine ⟨_, h, r', ⟨.once, true, stx.mem (addr p), d, m0, fun _ => 0, hk, ⟨_, hready.asks (.here hk rfl rfl) ho, hgr⟩, ?_, (fun q hq => by cases hq), (fun q hq => by cases hq), rfl⟩, hh, hr, ?_⟩
              · intro how' hw _
                cases hw
                exact ⟨⟨stx, ⟨_, hm, by simp⟩, rfl⟩, hs'⟩
              · rw [trace_seq, trace_seq, trace_nowhere]
                simp only [PlaceKind.obj, if_true, e]
        | weak strong ptrSize target =>
          simp only [Option.some.injEq] at hG
          subst hG
          cases hq with
          | dead _ _ ho hg hr => exact ⟨.nil, h0, q, hnil _ hk ⟨_, ⟨_, ho⟩, hg⟩, hh0, hr, rfl⟩
          | alive _ ho hgr hi hr =>
            rename_i i' r'
            have hP0 : PlaceSpec D I H f (fun hs vis => D → Free H hs vis) (fun _ => none) (fun _ _ => False) := by intro p G h; cases h
            obtain ⟨g, h, hg, hh, e⟩ := obj_main hC hP0 (fun _ _ _ h h' d => (h d).mono h') (fun _ _ h => h) ⟨h0, hh0⟩ _ _
              (by rw [List.filter_eq_nil_iff.2 (by simp)]; exact List.nodup_nil) _ hi cur vis
              (fun d how a ha => (hready d).1 how a (by simpa using ha))
            have hg' : g = fun _ => none := by funext p; exact hg p
            subst hg'
            rw [trace_nowhere] at e
            refine ⟨_, h, r', ⟨.weak strong ptrSize target, true, 0, shape, m0, fun _ => 0, hk, ⟨_, ⟨_, ho⟩, hgr⟩, ?_, (fun q hq => by cases hq), (fun q hq => by cases hq), rfl⟩, hh, hr, ?_⟩
            · intro how' hw; cases hw
            · rw [trace_seq, trace_seq, trace_nowhere]
              simp only [PlaceKind.obj, if_true, e]
        | dashMap K V KV shards capacity len bytes =>
          simp only [Option.some.injEq] at hG
          subst hG
          have hkok := hok.2.2.1 p _ hk
          have hkok' := hkok
          obtain ⟨hnd, -, hsz, hsh⟩ := hkok'
          cases hq with
          | enterUnique _ _ _ hb hr =>
            rename_i b' r'
            obtain ⟨w1, hw1, hb1⟩ := sum_resolves (addr := addr) (num := capacity) (fun _ => rfl) shards 0 hnd (by intro w; have := (hsz w).1; omega) _ hb
            rw [Nat.zero_add] at hb1
            clear hb
            cases hb1 with
            | enter _ _ _ hb2 hd =>
              cases hd
              obtain ⟨y, es, h, r, hy, hh, hr2, e⟩ := shards_spec (S := S) hC (addr := addr) (hs := hs) (mk := fun q => { lock := addr q, capacity := ⟨addr q, capacity q⟩, len := ⟨addr q, len q⟩, entries := .load (addr q) fun x => (content q x).shape.entriesVisit.visitLive cont ((content q x).places cont) }) (ready := fun vis => (LiveDatum.live shape kind addr content).Ready D H hs vis) (content := content)
                (fun _ _ h h' => h.mono h') ⟨h0, hh0⟩ shape (fun _ => ⟨rfl, rfl⟩) shards (by
                  intro q hq x
                  obtain ⟨-, self, table, keys, values, e, -⟩ := (hsh q hq).2 x
                  exact ⟨hok.2.2.2 q x, .inl ⟨self, table, keys, values, e⟩, (ih q x (hok.2.2.2 q x)).1, fun vis h => h.inShard hk hq x⟩) hnd _ hb2 (cur ++ [ptrName] ++ [capacityName]) vis hready
              obtain ⟨w2, hw2, hr2⟩ := sum_resolves (addr := addr) (num := capacity) (fun _ => rfl) shards 0 hnd (by intro w; have := (hsz w).1; omega) _ hr2
              obtain ⟨w3, hw3, hr2⟩ := sum_resolves (addr := addr) (num := len) (fun _ => rfl) shards 0 hnd (by intro w; have := (hsz w).2.1; omega) _ hr2
              simp only [Nat.zero_add] at hr2
              cases hr2 with
              | enter _ _ _ hb' hd' =>
                cases hb'
                cases hd'
                have hx : ∀ {q : Ptr} {w : Nat}, (∃ st, I hs st ∧ st.mem (addr q) = w) → ∃ st, (looksOf D I).moment st ∧ st.mem (addr q) = w := fun ⟨st, h, e⟩ => ⟨st, ⟨hs, h⟩, e⟩
                refine ⟨_, h, r', ⟨.dashMap K V KV shards capacity len bytes, true, 0, shape, ⟨w1, w2, w3, es⟩, y, hk, ⟨st, hL.moment, rfl⟩, fun _ hw => (by cases hw),
                  fun q hq => ⟨hx (hw1 q hq), hx (hw2 q hq), hx (hw3 q hq), (hy q hq).1⟩, fun q hq => (hy q hq).2, rfl⟩, hh, hr, ?_⟩
                have hce := concat_entries (es := es) (l := shards) (by
                  intro q hq
                  obtain ⟨self, table, keys, values, e, -⟩ := shard_entries hkok hq (hy q hq).2
                  have hw := sees_WF (hy q hq).2 (hok.2.2.2 _ _)
                  rw [e] at hw
                  exact ⟨self, table, keys, values, e, hw.1⟩)
                rw [trace_seq (Obj.visitWith _ _), trace_nowhere, ← trace_seq (Obj.visitWith _ _)]
                simp only [PlaceKind.obj, hce, Visit.enterUnique, Visit.enter, Visit.simple, Obj.visitWith, Prog.seq, Prog.trace, visitWith_append_live, Ending.fate, e]
        | dashSet T shards capacity len bytes =>
          simp only [Option.some.injEq] at hG
          subst hG
          have hkok := hok.2.2.1 p _ hk
          have hkok' := hkok
          obtain ⟨hnd, hsz, hsh⟩ := hkok'
          cases hq with
          | enterUnique _ _ _ hb hr =>
            rename_i b' r'
            obtain ⟨w1, hw1, hb1⟩ := sum_resolves (addr := addr) (num := capacity) (fun _ => rfl) shards 0 hnd (by intro w; have := (hsz w).1; omega) _ hb
            rw [Nat.zero_add] at hb1
            clear hb
            cases hb1 with
            | enter _ _ _ hb2 hd =>
              cases hd
              obtain ⟨y, es, h, r, hy, hh, hr2, e⟩ := shards_spec (S := S) hC (addr := addr) (hs := hs) (mk := fun q => { lock := addr q, capacity := ⟨addr q, capacity q⟩, len := ⟨addr q, len q⟩, entries := .load (addr q) fun x => (content q x).shape.entriesVisit.visitLive cont ((content q x).places cont) }) (ready := fun vis => (LiveDatum.live shape kind addr content).Ready D H hs vis) (content := content)
                (fun _ _ h h' => h.mono h') ⟨h0, hh0⟩ shape (fun _ => ⟨rfl, rfl⟩) shards (by
                  intro q hq x
                  obtain ⟨-, self, table, items, e, -⟩ := (hsh q hq).2 x
                  exact ⟨hok.2.2.2 q x, .inr ⟨self, table, items, e⟩, (ih q x (hok.2.2.2 q x)).1, fun vis h => h.inShard hk hq x⟩) hnd _ hb2 (cur ++ [ptrName] ++ [capacityName]) vis hready
              obtain ⟨w2, hw2, hr2⟩ := sum_resolves (addr := addr) (num := capacity) (fun _ => rfl) shards 0 hnd (by intro w; have := (hsz w).1; omega) _ hr2
              obtain ⟨w3, hw3, hr2⟩ := sum_resolves (addr := addr) (num := len) (fun _ => rfl) shards 0 hnd (by intro w; have := (hsz w).2.1; omega) _ hr2
              simp only [Nat.zero_add] at hr2
              cases hr2 with
              | enter _ _ _ hb' hd' =>
                cases hb'
                cases hd'
                have hx : ∀ {q : Ptr} {w : Nat}, (∃ st, I hs st ∧ st.mem (addr q) = w) → ∃ st, (looksOf D I).moment st ∧ st.mem (addr q) = w := fun ⟨st, h, e⟩ => ⟨st, ⟨hs, h⟩, e⟩
                refine ⟨_, h, r', ⟨.dashSet T shards capacity len bytes, true, 0, shape, ⟨w1, w2, w3, es⟩, y, hk, ⟨st, hL.moment, rfl⟩, fun _ hw => (by cases hw),
                  fun q hq => ⟨hx (hw1 q hq), hx (hw2 q hq), hx (hw3 q hq), (hy q hq).1⟩, fun q hq => (hy q hq).2, rfl⟩, hh, hr, ?_⟩
                have hce := concat_items (es := es) (l := shards) (by
                  intro q hq
                  obtain ⟨self, table, items, e, -⟩ := shard_items hkok hq (hy q hq).2
                  exact ⟨self, table, items, e⟩)
                rw [trace_seq (Obj.visitWith _ _), trace_nowhere, ← trace_seq (Obj.visitWith _ _)]
                simp only [PlaceKind.obj, hce, Visit.enterUnique, Visit.enter, Visit.simple, Obj.visitWith, Prog.seq, Prog.trace, visitWith_append_live, Ending.fate, e, Fate.leaks]
    exact ⟨hP, visitOf _ hok hP⟩

theorem with_ptrs [Target] (c : Cell) (d : Datum) : (c.with d).visit.ptrs = d.value.visit.ptrs := by
  cases c <;> simp [Cell.with, Cell.visit, Impl.arcInner, Impl.rcInner, Impl.triompheInner, Impl.thinArcInner]

theorem with_fill [Target] (c : Cell) {d d' : Datum} {g : Ptr → Option Obj} (h : d'.value.fill nowhere = d.value.fill g) : (c.with d).visit.fill g = (c.with d').visit.fill nowhere := by
  cases c <;> simp [Cell.with, Cell.visit, Impl.arcInner, Impl.rcInner, Impl.triompheInner, Impl.thinArcInner, h, visit_of_fill h, size_of_fill h, ty_of_fill h]

theorem cell_spec [Target] {st : Store} (hL : (looksOf D I).Begins S st) (hO : D → (∀ p, (H p).value.Nested) ∧ ∀ p q a, (H p).value.Has a → (H q).value.Has a → p = q)
    {f : Nat} {cont : Ptr → LProg} (hC : ContSpec D I H cont f) (hok : ∀ p, (H p).value.OK S) :
    ContSpec D I H (fun p => (H p).visit cont) (f + 1) := by
  intro p hs b hb cur vis hp hready
  have hP := (places_spec hL hC hok (H p).value (hok p)).1
  have hr : (H p).value.Ready D H hs vis := fun d => ⟨(hready d).1, (hready d).2, (hO d).1 p, fun a ha q hq hq' => hq ((hO d).2 p q a ha hq' ▸ hp)⟩
  obtain ⟨g, h, hg, hh, e⟩ := obj_main hC hP (fun _ _ _ h h' => h.mono h') (fun _ _ h d => (h d).1) (goodHeap_exists hL hok) hs _
    (by rw [with_ptrs]; exact places_nodup cont _ (hok p)) b hb cur vis hr
  obtain ⟨d, hd, ed, -⟩ := sees_of_fills _ hg
  rw [with_fill _ ed, trace_nowhere] at e
  refine ⟨fun q => if q = p then (H p).frame.with d else h q, ?_, ?_⟩
  · intro q
    dsimp only
    split
    · rename_i hq; subst hq; exact with_sees hd
    · exact hh q
  · have hp' : heapOf (fun q => if q = p then (H p).frame.with d else h q) p = ((H p).frame.with d).visit := by simp only [heapOf, if_true]
    simp only [contS, visit_contS, hp']
    rw [e]
    refine (trace_congr f _ _ _ cur vis fun q _ hq => ?_).symm
    have : q ≠ p := fun h => hq (h ▸ hp)
    simp only [heapOf, this, if_false]

theorem liveCont_spec [Target] {st : Store} (hL : (looksOf D I).Begins S st) (hO : D → (∀ p, (H p).value.Nested) ∧ ∀ p q a, (H p).value.Has a → (H q).value.Has a → p = q)
    (hok : ∀ p, (H p).value.OK S) : ∀ f, ContSpec D I H (liveCont H f) f
  | 0 => by
    intro p hs b hb cur vis _ _
    obtain ⟨h, hh⟩ := goodHeap_exists hL hok
    cases hb
    exact ⟨h, hh, rfl⟩
  | f + 1 => cell_spec hL hO (liveCont_spec hL hO hok f) hok

/-- A root. -/
theorem OneOwner.ready {roots : List LiveDatum} (hD : D → OneOwner H roots) {v : LiveDatum} (hv : v ∈ roots) (vis : List Ptr) : v.Ready D H [] vis :=
  fun d => ⟨fun _ _ h => (by cases h), fun _ _ h => (by cases h), (hD d).nestedRoot v hv, fun a ha q _ => (hD d).notBoth v hv a ha q⟩

/-- Each resolution of the visits of some live roots has the trace of the visits of a snapshot. -/
theorem roots_spec [Target] {st : Store} (hL : (looksOf D I).Begins S st) (hok : ∀ p, (H p).value.OK S) (f : Nat) (roots : List LiveDatum) (hr : ∀ v ∈ roots, v.OK S)
    (hO : D → (∀ p, (H p).value.Nested) ∧ ∀ p q a, (H p).value.Has a → (H q).value.Has a → p = q) (hR : ∀ v ∈ roots, ∀ vis, v.Ready D H [] vis) :
    ∀ hist, ResolvesEach I (fun _ => False) (liveVisits H f roots) hist →
    ∀ vis, ∃ ds h, LiveDatum.SeesEach (looksOf D I) roots ds ∧ GoodHeap (looksOf D I) H h ∧
      traceRoots hist vis = traceRoots (visits (heapOf h) f (ds.map fun d => d.value.visit)) vis := by
  induction roots with
  | nil =>
    intro hist hh vis
    obtain ⟨h, hg⟩ := goodHeap_exists hL hok
    cases hh
    exact ⟨[], h, .nil, hg, rfl⟩
  | cons v roots ih =>
    intro hist hh vis
    cases hh with
    | cons hq hh =>
      rename_i q hist
      obtain ⟨d, h1, s1, c1, e1⟩ := (places_spec hL (liveCont_spec hL hO hok f) hok v (hr v (by simp))).2 _ q hq [] vis (hR v (by simp) vis)
      obtain ⟨ds, h2, s2, c2, e2⟩ := ih (fun v hv => hr v (by simp [hv])) (fun v hv => hR v (by simp [hv])) hist hh (q.trace [] vis).visited
      refine ⟨d :: ds, mergeCells (q.trace [] vis).visited h1 h2, .cons s1 s2, c1.merge c2 _, ?_⟩
      have m1 := merge_left (f := f) (h1 := h1) (h2 := h2) d.value.visit [] vis
      rw [← e1] at m1
      have m2 : ∀ (os : List Obj) vis', (∀ p ∈ (q.trace [] vis).visited, p ∈ vis') →
          traceRoots (visits (heapOf (mergeCells (q.trace [] vis).visited h1 h2)) f os) vis' = traceRoots (visits (heapOf h2) f os) vis' := by
        intro os
        induction os with
        | nil => intro vis' _; rfl
        | cons o os ih =>
          intro vis' hv
          have e : (o.visitWith (contS (heapOf (mergeCells (q.trace [] vis).visited h1 h2)) f)).trace [] vis' =
              (o.visitWith (contS (heapOf h2) f)).trace [] vis' := by
            apply trace_congr
            intro p _ hp
            have : p ∉ (q.trace [] vis).visited := fun h => hp (hv p h)
            simp only [heapOf, mergeCells, this, if_false]
          have ih' := ih ((o.visitWith (contS (heapOf h2) f)).trace [] vis').visited fun p hp => trace_mono _ _ _ _ (hv p hp)
          simp only [visits, List.map_cons, traceRoots, visit_contS, e] at ih' ⊢
          rw [ih']
      have m2' := m2 (ds.map fun d => d.value.visit) (q.trace [] vis).visited fun _ h => h
      simp only [visits, List.map_cons, traceRoots, visit_contS, m1] at m2' e2 ⊢
      rw [m2', e2]

end

/-! ### Live visits do not wait, close their visitors and use proper keys -/

/-- All keys satisfy `Q`. -/
def LProg.KeysAre (Q : Key → Prop) : LProg → Prop
  | .done => True
  | .panic => True
  | .enter k _ _ b r => Q k ∧ b.KeysAre Q ∧ r.KeysAre Q
  | .enterUnique k _ _ b r => Q k ∧ b.KeysAre Q ∧ r.KeysAre Q
  | .enterShared k _ _ _ b r q => Q k ∧ b.KeysAre Q ∧ r.KeysAre Q ∧ q.KeysAre Q
  | .catchUnwind b r => b.KeysAre Q ∧ r.KeysAre Q
  | .access _ _ i r => i.KeysAre Q ∧ r.KeysAre Q
  | .upgrade _ i r => i.KeysAre Q ∧ r.KeysAre Q
  | .load _ next => ∀ x, (next x).KeysAre Q

theorem seq_keysAre {Q : Key → Prop} {a b : Prog} (ha : a.KeysAre Q) (hb : b.KeysAre Q) : (a.seq b).KeysAre Q := by
  induction a with
  | done => exact hb
  | panic => trivial
  | enter k n f body rest _ ih => exact ⟨ha.1, ha.2.1, ih ha.2.2⟩
  | enterUnique k n f body rest _ ih => exact ⟨ha.1, ha.2.1, ih ha.2.2⟩
  | enterShared k n p f body rs rn _ ih1 ih2 => exact ⟨ha.1, ha.2.1, ih1 ha.2.2.1, ih2 ha.2.2.2⟩
  | catchUnwind body rest _ ih => exact ⟨ha.1, ih ha.2⟩

theorem Resolves.keysAre {I : List Hold → Store → Prop} {hs : List Hold} {Q : Key → Prop} {p : LProg} {q : Prog} (h : Resolves I (fun _ => False) hs p q) : p.KeysAre Q → q.KeysAre Q := by
  induction h with
  | done => exact id
  | panic => exact id
  | enter k n f _ _ ih1 ih2 => exact fun h => ⟨h.1, ih1 h.2.1, ih2 h.2.2⟩
  | enterUnique k n f _ _ ih1 ih2 => exact fun h => ⟨h.1, ih1 h.2.1, ih2 h.2.2⟩
  | enterShared k n p f _ _ _ ih1 ih2 ih3 => exact fun h => ⟨h.1, ih1 h.2.1, ih2 h.2.2.1, ih3 h.2.2.2⟩
  | catchUnwind _ _ ih1 ih2 => exact fun h => ⟨ih1 h.1, ih2 h.2⟩
  | visited _ _ _ _ _ _ ih1 ih2 => exact fun h => seq_keysAre (ih1 h.1) (ih2 h.2)
  | skipped _ _ _ _ _ _ _ ih => exact fun h => ih h.2
  | alive _ _ _ _ _ ih1 ih2 => exact fun h => seq_keysAre (ih1 h.1) (ih2 h.2)
  | dead _ _ _ _ _ ih => exact fun h => ih h.2
  | read _ _ _ _ ih => exact fun h => ih (h _)

/-- No call of the visit waits for a lock that is not in `S`, and locks in `S` are not asked for exclusively. -/
def LProg.Polite (S : Ptr → Prop) (p : LProg) : Prop := ∀ how a, p.Takes how a → (how.blocking = true → S a) ∧ (S a → how.exclusive = false)

/-- What C31 and the comparison of reports need of a visit. -/
def LProg.Fine (S : Ptr → Prop) (p : LProg) : Prop := p.Polite S ∧ p.Closes ∧ p.KeysAre Key.Proper

theorem fate_closes (e : Ending) : e.fate = .exit ∨ e.fate = .drop := by cases e <;> simp [Ending.fate]

variable {S : Ptr → Prop}

theorem Fine.done : LProg.done.Fine S := ⟨fun _ _ h => (by cases h), trivial, trivial⟩
theorem Fine.panic : LProg.panic.Fine S := ⟨fun _ _ h => (by cases h), trivial, trivial⟩
theorem Fine.enter {k n f b r} (hk : k.Proper) (hf : f = .exit ∨ f = .drop) (hb : LProg.Fine S b) (hr : LProg.Fine S r) : (LProg.enter k n f b r).Fine S :=
  ⟨fun how a h => by
    cases h with
    | enterBody _ _ _ _ _ h => exact hb.1 how a h
    | enterRest _ _ _ _ _ h => exact hr.1 how a h, ⟨hf, hb.2.1, hr.2.1⟩, ⟨hk, hb.2.2, hr.2.2⟩⟩
theorem Fine.enterUnique {k n f b r} (hk : k.Proper) (hf : f = .exit ∨ f = .drop) (hb : LProg.Fine S b) (hr : LProg.Fine S r) : (LProg.enterUnique k n f b r).Fine S :=
  ⟨fun how a h => by
    cases h with
    | uniqueBody _ _ _ _ _ h => exact hb.1 how a h
    | uniqueRest _ _ _ _ _ h => exact hr.1 how a h, ⟨hf, hb.2.1, hr.2.1⟩, ⟨hk, hb.2.2, hr.2.2⟩⟩
theorem Fine.enterShared {k n p f b r q} (hk : k.Proper) (hf : f = .exit ∨ f = .drop) (hb : LProg.Fine S b) (hr : LProg.Fine S r) (hq : LProg.Fine S q) :
    (LProg.enterShared k n p f b r q).Fine S :=
  ⟨fun how a h => by
    cases h with
    | sharedBody _ _ _ _ _ _ _ h => exact hb.1 how a h
    | sharedSome _ _ _ _ _ _ _ h => exact hr.1 how a h
    | sharedNone _ _ _ _ _ _ _ h => exact hq.1 how a h, ⟨hf, hb.2.1, hr.2.1, hq.2.1⟩, ⟨hk, hb.2.2, hr.2.2, hq.2.2⟩⟩
theorem Fine.access {how a i r} (hh : (how.blocking = true → S a) ∧ (S a → how.exclusive = false)) (hi : LProg.Fine S i) (hr : LProg.Fine S r) : (LProg.access how a i r).Fine S :=
  ⟨fun how a h => by
    cases h with
    | here _ _ => exact hh
    | inside _ _ _ _ h => exact hi.1 how a h
    | after _ _ _ _ h => exact hr.1 how a h, ⟨hi.2.1, hr.2.1⟩, ⟨hi.2.2, hr.2.2⟩⟩
theorem Fine.upgrade {p i r} (hi : LProg.Fine S i) (hr : LProg.Fine S r) : (LProg.upgrade p i r).Fine S :=
  ⟨fun how a h => by
    cases h with
    | upgraded _ _ _ h => exact hi.1 how a h
    | afterUpgrade _ _ _ h => exact hr.1 how a h, ⟨hi.2.1, hr.2.1⟩, ⟨hi.2.2, hr.2.2⟩⟩
theorem Fine.load {a next} (h : ∀ x, LProg.Fine S (next x)) : (LProg.load a next).Fine S :=
  ⟨fun how a h' => by cases h' with | loaded _ _ x h' => exact (h x).1 how a h', fun x => (h x).2.1, fun x => (h x).2.2⟩

theorem seqL_keysAre {Q : Key → Prop} {p q : LProg} : p.KeysAre Q → q.KeysAre Q → (p.seq q).KeysAre Q := by
  induction p with
  | done => exact fun _ h => h
  | panic => exact fun h _ => h
  | enter k n f b r _ ih => exact fun h h' => ⟨h.1, h.2.1, ih h.2.2 h'⟩
  | enterUnique k n f b r _ ih => exact fun h h' => ⟨h.1, h.2.1, ih h.2.2 h'⟩
  | enterShared k n p f b r q _ ih1 ih2 => exact fun h h' => ⟨h.1, h.2.1, ih1 h.2.2.1 h', ih2 h.2.2.2 h'⟩
  | catchUnwind b r _ ih => exact fun h h' => ⟨h.1, ih h.2 h'⟩
  | access how a i r _ ih => exact fun h h' => ⟨h.1, ih h.2 h'⟩
  | upgrade p i r _ ih => exact fun h h' => ⟨h.1, ih h.2 h'⟩
  | load a next ih => exact fun h h' x => ih x (h x) h'

theorem Fine.seq {p q : LProg} (hp : p.Fine S) (hq : q.Fine S) : (p.seq q).Fine S :=
  ⟨fun how a h => (takes_seq p h).elim (hp.1 how a) (hq.1 how a), seqL_closes hp.2.1 hq.2.1, seqL_keysAre hp.2.2 hq.2.2⟩

theorem Fine.reads {a : Ptr} (h : S a) : (Access.read.blocking = true → S a) ∧ (S a → Access.read.exclusive = false) := ⟨fun _ => h, fun _ => rfl⟩

theorem Fine.sumShards [Target] {num : LImpl.Shard → LImpl.Number} {next : Nat → LProg} (h : ∀ x, (next x).Fine S) {l : List LImpl.Shard} (hl : ∀ x ∈ l, S x.lock) : ∀ acc,
    (LImpl.sumShards num next acc l).Fine S := by
  induction l with
  | nil => exact fun acc => h acc
  | cons x l ih => exact fun acc => Fine.access (Fine.reads (hl x (by simp))) Fine.done (Fine.load fun y => ih (fun x hx => hl x (by simp [hx])) _)

theorem Fine.ahead {l : List LImpl.Shard} (hl : ∀ x ∈ l, S x.lock) : (LImpl.ahead l).Fine S := by
  cases l with
  | nil => exact Fine.done
  | cons x l => exact Fine.access (Fine.reads (hl x (by simp))) Fine.done Fine.done

theorem Fine.shards {rest : LProg} (h : rest.Fine S) {l : List LImpl.Shard} (hl : ∀ x ∈ l, S x.lock ∧ x.entries.Fine S) : (LImpl.shards l rest).Fine S := by
  induction l with
  | nil => exact h
  | cons x l ih =>
    have hl' : ∀ x ∈ l, S x.lock ∧ x.entries.Fine S := fun x hx => hl x (by simp [hx])
    exact Fine.access (Fine.reads (hl x (by simp)).1) (Fine.seq (hl x (by simp)).2 (Fine.ahead fun x hx => (hl' x hx).1)) (ih hl')

theorem dash_proper [Target] : ptrName.Proper ∧ capacityName.Proper ∧ unusedCapacityName.Proper := by
  have h := proper (.dashMap ⟨[], 0, false⟩ ⟨[], 0, false⟩ ⟨[], 0, false⟩ ⟨[], 0, false⟩ 0 [] [] 0 0 0)
  exact ⟨h.2.1.1, h.2.1.2.1.1, h.2.1.2.1.2.1.1⟩

theorem Fine.dashBody [Target] {entrySize : Nat} {l : List LImpl.Shard} (hl : ∀ x ∈ l, S x.lock ∧ x.entries.Fine S) : (LImpl.dashBody entrySize l).Fine S :=
  Fine.sumShards (fun _ => Fine.enter dash_proper.2.1 (.inl rfl) (Fine.shards (Fine.sumShards (fun _ => Fine.sumShards (fun _ =>
    Fine.enter dash_proper.2.2 (.inl rfl) Fine.done Fine.done) (fun x hx => (hl x hx).1) _) (fun x hx => (hl x hx).1) _) hl) Fine.done) (fun x hx => (hl x hx).1) _

theorem visitLive_fine {cont : Ptr → LProg} (hc : ∀ p, (cont p).Fine S) {place : Ptr → Option (LProg → LProg)}
    (hp : ∀ p G, place p = some G → ∀ r, r.Fine S → (G r).Fine S) (o : Obj) (ho : o.KeysAre Key.Proper) : (o.visitLive cont place).Fine S := by
  induction o with
  | nil => exact Fine.done
  | inline k n e i r ih1 ih2 => exact Fine.enter ho.1 (fate_closes e) (ih1 ho.2.1) (ih2 ho.2.2)
  | unique k n e i r ih1 ih2 => exact Fine.enterUnique ho.1 (fate_closes e) (ih1 ho.2.1) (ih2 ho.2.2)
  | shared k n p e r ih =>
    have b := ih ho.2
    simp only [Obj.visitLive]
    cases h : place p with
    | some G => exact hp p G h _ b
    | none => exact Fine.enterShared ho.1 (fate_closes e) (hc p) b b

theorem dataName_proper [Target] : dataName.Proper := by
  have := (proper (.cell ⟨[], 0, false⟩ true (.hollow ⟨[], 0, false⟩ 0)))
  exact this.2.1.1

theorem entries_proper [Target] (d : Datum) : d.entriesVisit.KeysAre Key.Proper := by
  unfold Datum.entriesVisit
  split
  · rename_i self table keys values
    exact (proper (.map self table keys values)).2.1.2.1
  · rename_i self table items
    exact proper_fields (properAll items) dataName_proper
  · trivial

theorem places_fine [Target] {cont : Ptr → LProg} (hc : ∀ p, (cont p).Fine S) (v : LiveDatum) : v.OK S →
    ∀ p G, v.places cont p = some G → ∀ r, r.Fine S → (G r).Fine S := by
  induction v with
  | still d => intro _ p G h; cases h
  | live shape kind addr content ih =>
    intro hok p G hG r hr
    have inner : ∀ p x (o : Obj), o.KeysAre Key.Proper → (o.visitLive cont ((content p x).places cont)).Fine S := fun p x o ho =>
      visitLive_fine hc (ih p x (hok.2.2.2 p x)) o ho
    simp only [LiveDatum.places] at hG
    cases hk : kind p with
    | none => rw [hk] at hG; cases hG
    | some k =>
      rw [hk] at hG
      have hkok := hok.2.2.1 p k hk
      cases k with
      | cell how =>
        simp only [Option.some.injEq] at hG
        subst hG
        exact Fine.access ⟨fun h => (by rw [hkok.1] at h; cases h), hkok.2⟩ (Fine.load fun x => Fine.enter dataName_proper (.inl rfl) (inner p x _ (proper _)) Fine.done) hr
      | once =>
        simp only [Option.some.injEq] at hG
        subst hG
        exact Fine.access ⟨fun h => (by cases h), fun _ => rfl⟩ (Fine.load fun x => inner p x _ (proper _)) hr
      | weak strong ptrSize target =>
        simp only [Option.some.injEq] at hG
        subst hG
        exact Fine.upgrade (visitLive_fine hc (fun _ _ h => by cases h) _ (proper (.arc strong ptrSize target))) hr
      | dashMap K V KV shards capacity len bytes =>
        simp only [Option.some.injEq] at hG
        subst hG
        refine Fine.enterUnique dash_proper.1 (.inl rfl) (Fine.dashBody fun x hx => ?_) hr
        obtain ⟨q, hq, rfl⟩ := List.mem_map.1 hx
        exact ⟨(hkok.2.2.2 q hq).1, Fine.load fun x => inner q x _ (entries_proper _)⟩
      | dashSet T shards capacity len bytes =>
        simp only [Option.some.injEq] at hG
        subst hG
        refine Fine.enterUnique dash_proper.1 (.inr rfl) (Fine.dashBody fun x hx => ?_) hr
        obtain ⟨q, hq, rfl⟩ := List.mem_map.1 hx
        exact ⟨(hkok.2.2 q hq).1, Fine.load fun x => inner q x _ (entries_proper _)⟩

theorem liveCont_fine [Target] {H : Ptr → LiveCell} (hok : ∀ p, (H p).value.OK S) : ∀ f p, (liveCont H f p).Fine S
  | 0, _ => Fine.panic
  | f + 1, p => visitLive_fine (liveCont_fine hok f) (places_fine (liveCont_fine hok f) _ (hok p)) _ (cell_proper _)

theorem liveVisits_fine [Target] {H : Ptr → LiveCell} (hok : ∀ p, (H p).value.OK S) (f : Nat) (roots : List LiveDatum) (hr : ∀ v ∈ roots, v.OK S) :
    ∀ x ∈ liveVisits H f roots, x.1.Fine S ∧ x.2 = .exit := by
  intro x hx
  obtain ⟨v, hv, rfl⟩ := List.mem_map.1 hx
  exact ⟨visitLive_fine (liveCont_fine hok f) (places_fine (liveCont_fine hok f) _ (hr v hv)) _ (proper _), rfl⟩

theorem seqL_noCatch {p q : LProg} : p.NoCatch → q.NoCatch → (p.seq q).NoCatch := by
  induction p with
  | done => exact fun _ h => h
  | panic => exact fun h _ => h
  | enter k n f b r _ ih => exact fun h h' => ⟨h.1, ih h.2 h'⟩
  | enterUnique k n f b r _ ih => exact fun h h' => ⟨h.1, ih h.2 h'⟩
  | enterShared k n p f b r q _ ih1 ih2 => exact fun h h' => ⟨h.1, ih1 h.2.1 h', ih2 h.2.2 h'⟩
  | catchUnwind b r _ ih => exact fun h _ => h.elim
  | access how a i r _ ih => exact fun h h' => ⟨h.1, ih h.2 h'⟩
  | upgrade p i r _ ih => exact fun h h' => ⟨h.1, ih h.2 h'⟩
  | load a next ih => exact fun h h' x => ih x (h x) h'

theorem sumShards_noCatch [Target] {num : LImpl.Shard → LImpl.Number} {next : Nat → LProg} (h : ∀ x, (next x).NoCatch) (l : List LImpl.Shard) : ∀ acc,
    (LImpl.sumShards num next acc l).NoCatch := by
  induction l with
  | nil => exact fun acc => h acc
  | cons x l ih => exact fun acc => ⟨trivial, fun y => ih _⟩

theorem shards_noCatch {rest : LProg} (h : rest.NoCatch) {l : List LImpl.Shard} (hl : ∀ x ∈ l, x.entries.NoCatch) : (LImpl.shards l rest).NoCatch := by
  induction l with
  | nil => exact h
  | cons x l ih =>
    refine ⟨seqL_noCatch (hl x (by simp)) ?_, ih fun x hx => hl x (by simp [hx])⟩
    cases l with
    | nil => trivial
    | cons y l => exact ⟨trivial, trivial⟩

theorem dashBody_noCatch [Target] {entrySize : Nat} {l : List LImpl.Shard} (hl : ∀ x ∈ l, x.entries.NoCatch) : (LImpl.dashBody entrySize l).NoCatch := by
  refine sumShards_noCatch (fun _ => ?_) l _
  exact ⟨shards_noCatch (sumShards_noCatch (fun _ => sumShards_noCatch (fun _ => by exact ⟨trivial, trivial⟩) l _) l _) hl, trivial⟩

theorem visitLive_noCatch {cont : Ptr → LProg} (hc : ∀ p, (cont p).NoCatch) {place : Ptr → Option (LProg → LProg)}
    (hp : ∀ p G, place p = some G → ∀ r, r.NoCatch → (G r).NoCatch) (o : Obj) : (o.visitLive cont place).NoCatch := by
  induction o with
  | nil => trivial
  | inline k n e i r ih1 ih2 => exact ⟨ih1, ih2⟩
  | unique k n e i r ih1 ih2 => exact ⟨ih1, ih2⟩
  | shared k n p e r ih =>
    simp only [Obj.visitLive]
    cases h : place p with
    | some G => exact hp p G h _ ih
    | none => exact ⟨hc p, ih, ih⟩

theorem places_noCatch [Target] {cont : Ptr → LProg} (hc : ∀ p, (cont p).NoCatch) (v : LiveDatum) :
    ∀ p G, v.places cont p = some G → ∀ r, r.NoCatch → (G r).NoCatch := by
  induction v with
  | still d => intro p G h; cases h
  | live shape kind addr content ih =>
    intro p G hG r hr
    have inner : ∀ p x (o : Obj), (o.visitLive cont ((content p x).places cont)).NoCatch := fun p x o => visitLive_noCatch hc (ih p x) o
    simp only [LiveDatum.places] at hG
    cases hk : kind p with
    | none => rw [hk] at hG; cases hG
    | some k =>
      rw [hk] at hG
      cases k with
      | cell how =>
        simp only [Option.some.injEq] at hG
        subst hG
        exact ⟨fun x => ⟨inner p x _, trivial⟩, hr⟩
      | once =>
        simp only [Option.some.injEq] at hG
        subst hG
        exact ⟨fun x => inner p x _, hr⟩
      | weak strong ptrSize target =>
        simp only [Option.some.injEq] at hG
        subst hG
        exact ⟨visitLive_noCatch hc (fun _ _ h => by cases h) _, hr⟩
      | dashMap K V KV shards capacity len bytes =>
        simp only [Option.some.injEq] at hG
        subst hG
        refine ⟨dashBody_noCatch fun x hx => ?_, hr⟩
        obtain ⟨q, hq, rfl⟩ := List.mem_map.1 hx
        exact fun x => inner q x _
      | dashSet T shards capacity len bytes =>
        simp only [Option.some.injEq] at hG
        subst hG
        refine ⟨dashBody_noCatch fun x hx => ?_, hr⟩
        obtain ⟨q, hq, rfl⟩ := List.mem_map.1 hx
        exact fun x => inner q x _

theorem liveCont_noCatch [Target] {H : Ptr → LiveCell} : ∀ f p, (liveCont H f p).NoCatch
  | 0, _ => trivial
  | f + 1, _ => visitLive_noCatch (liveCont_noCatch f) (places_noCatch (liveCont_noCatch f) _) _

theorem live_noCatch [Target] (H : Ptr → LiveCell) (f : Nat) (v : LiveDatum) : (v.visit (liveCont H f)).NoCatch :=
  visitLive_noCatch (liveCont_noCatch f) (places_noCatch (liveCont_noCatch f) _) _

/-- A visit begins with nothing taken. -/
theorem Env.looks_begins (D : Prop) (env : Env) (he : env.Respectful) (st : Store) (n : Nat) (hS : env.LetsGo S st n) : (env.looks D st n).Begins S st where
  moment := ⟨[], n, .start⟩
  asks _ := ⟨[], ⟨n, .start⟩, fun _ _ h => by cases h⟩
  reads how a hg := ⟨_, ⟨[.lock how a], ⟨n, .acquire how a .start hg⟩, by simp⟩, rfl⟩
  waits a ha := by
    obtain ⟨h1, h2⟩ := hS a ha
    obtain ⟨k, hk⟩ := h2 [] n st .start
    have hx : ((env.looksAgain n st k).lock a).heldExclusive = false := by
      have : ∀ k, ((env.looksAgain n st k).lock a).heldExclusive = (st.lock a).heldExclusive := by
        intro k
        induction k with
        | zero => exact ((he _ _).1 a).1
        | succ k ih => exact ((he _ _).1 a).1.trans ih
      rw [this, h1]
    exact ⟨_, [.lock .read a], ⟨_, .acquire .read a (Timeline.again .start k) (by simp only [Access.granted, LockState.readable, hk, hx]; rfl)⟩, by simp⟩

end Allocative
