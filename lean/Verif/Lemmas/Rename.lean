import Verif.Spec.Rename
set_option linter.unusedSimpArgs false
/-
The visit of a moved value is the moved visit of the value (C63).
-/
namespace Allocative

/-- The same value, its visit at other addresses. -/
def Value.move (f : Ptr → Ptr) (v : Value) : Value := { v with visit := v.visit.move f }

@[simp] theorem Value.move_ty (f) (v : Value) : (v.move f).ty = v.ty := rfl
@[simp] theorem Value.move_sizeOfVal (f) (v : Value) : (v.move f).sizeOfVal = v.sizeOfVal := rfl
@[simp] theorem Value.move_visit (f) (v : Value) : (v.move f).visit = v.visit.move f := rfl
@[simp] theorem Obj.move_nil (f) : Obj.nil.move f = .nil := rfl
@[simp] theorem Obj.move_append (f) (a b : Obj) : (a.append b).move f = (a.move f).append (b.move f) := by
  induction a with
  | nil => rfl
  | inline k n e i r _ ih => simp [Obj.append, Obj.move, ih]
  | unique k n e i r _ ih => simp [Obj.append, Obj.move, ih]
  | shared k n p e r ih => simp [Obj.append, Obj.move, ih]
@[simp] theorem Obj.move_concat (f) (l : List Obj) : (Obj.concat l).move f = Obj.concat (l.map (Obj.move f)) := by
  induction l with
  | nil => rfl
  | cons a l ih => simp [Obj.concat, ih]
@[simp] theorem Obj.move_enter (f) (k n e) (o : Obj) : (Visit.enter k n e o).move f = Visit.enter k n e (o.move f) := rfl
@[simp] theorem Obj.move_enterUnique (f) (k n e) (o : Obj) : (Visit.enterUnique k n e o).move f = Visit.enterUnique k n e (o.move f) := rfl
@[simp] theorem Obj.move_simple (f) (k n) : (Visit.simple k n).move f = Visit.simple k n := rfl
@[simp] theorem Obj.move_shared (f) (k n p e) : (Obj.shared k n p e .nil).move f = .shared k n (f p) e .nil := rfl
@[simp] theorem Obj.move_fieldWith (f) (k n) (o : Obj) : (Visit.fieldWith k n o).move f = Visit.fieldWith k n (o.move f) := rfl
@[simp] theorem Obj.move_field (f) (k) (v : Value) : (Visit.field k v).move f = Visit.field k (v.move f) := rfl
@[simp] theorem Obj.move_rawTable [Target] (f) (T n) : (Impl.addRawTableForLen T n).move f = Impl.addRawTableForLen T n := by
  unfold Impl.addRawTableForLen; split <;> simp
@[simp] theorem Obj.move_iter [Target] (f) (T) (items : List Value) : (Visit.iter T items).move f = Visit.iter T (items.map (Value.move f)) := by
  unfold Visit.iter Visit.each; split <;> simp [Function.comp_def]
@[simp] theorem Obj.move_ite (f) (c : Prop) [Decidable c] (a b : Obj) : (if c then a else b).move f = if c then a.move f else b.move f := by split <;> rfl

theorem zip_move (f) (a b : List Value) : (a.map (Value.move f)).zip (b.map (Value.move f)) = (a.zip b).map fun e => (e.1.move f, e.2.move f) := by
  induction a generalizing b with
  | nil => rfl
  | cons x a ih => cases b <;> simp [ih]

theorem tupleLabels_move (f) (i) (l : List Value) : tupleLabels i (l.map (Value.move f)) = (tupleLabels i l).map fun e => (e.1, e.2.move f) := by
  induction l generalizing i with
  | nil => rfl
  | cons x l ih => simp [tupleLabels, ih]

theorem derivedFields_move (f) (labels) (l : List Value) : Visit.derivedFields labels (l.map (Value.move f)) = (Visit.derivedFields labels l).move f := by
  induction l generalizing labels with
  | nil => cases labels <;> rfl
  | cons x l ih =>
    cases labels with
    | nil => rfl
    | cons lb ls => simp [Visit.derivedFields, ih]

/-- Unfolds an implementation. -/
macro "move_simp" "[" ls:Lean.Parser.Tactic.simpLemma,* "]" : tactic =>
  `(tactic| simp [Datum.value, Datum.move, Value.move, Impl.sized, Impl.sliceVisit, Visit.enterSelfSized, Visit.enterSelf, Visit.simpleSized, Visit.slice, Visit.genericMapFields,
      Visit.genericSetFields, Visit.vecLikeBody, zip_move, tupleLabels_move, derivedFields_move, Function.comp_def, $ls,*])

mutual
theorem Datum.value_move [Target] (f : Ptr → Ptr) : (d : Datum) → (d.move f).value = d.value.move f
  | .plain self => by move_simp [Impl.plain]
  | .hollow self owned => by move_simp [Impl.empty]
  | .str self len => by move_simp [Impl.str]
  | .osStr self len => by move_simp [Impl.osStr]
  | .box self ptrSize v => by move_simp [Impl.box, Datum.value_move f v]
  | .ok self v => by move_simp [Impl.result, Datum.value_move f v]
  | .err self v => by move_simp [Impl.result, Datum.value_move f v]
  | .none self => by move_simp [Impl.option]
  | .some self v => by move_simp [Impl.option, Datum.value_move f v]
  | .left self v => by move_simp [Impl.either, Datum.value_move f v]
  | .right self v => by move_simp [Impl.either, Datum.value_move f v]
  | .vec self T items capacity => by move_simp [Impl.vec, Datum.values_move f items]
  | .vecDeque self T front back capacity => by move_simp [Impl.vecDeque, Datum.values_move f front, Datum.values_move f back]
  | .string self len capacity => by move_simp [Impl.string, Impl.plain]
  | .pathBuf self len capacity => by move_simp [Impl.pathBuf]
  | .compactString self heapAllocated len capacity => by move_simp [Impl.compactString]
  | .slice self T items => by move_simp [Impl.slice, Datum.values_move f items]
  | .array self T items => by move_simp [Impl.array, Datum.values_move f items]
  | .tuple self fields => by move_simp [Impl.tuple, Datum.values_move f fields]
  | .manuallyDrop self v => by move_simp [Impl.manuallyDrop, Datum.value_move f v]
  | .cell self accessible v => by cases accessible <;> move_simp [Impl.cell, Datum.value_move f v]
  | .cellEmpty self => by move_simp [Impl.cell]
  | .onceCell self v => by move_simp [Impl.onceCell, Datum.value_move f v]
  | .map self table keys values => by move_simp [Impl.map, Datum.values_move f keys, Datum.values_move f values]
  | .set self table items => by move_simp [Impl.set, Datum.values_move f items]
  | .smallVecInline self T items => by move_simp [Impl.smallVec, Datum.values_move f items]
  | .smallVecSpilled self T items capacity => by move_simp [Impl.smallVec, Datum.values_move f items]
  | .slab self T entry items capacity => by move_simp [Impl.slab, Datum.values_move f items]
  | .arc self ptrSize ptr => by move_simp [Impl.arc]
  | .weakDangling self => by move_simp [Impl.weak]
  | .weak self strong ptrSize ptr => by move_simp [Impl.weak, Impl.arc]
  | .struct self size labels fields => by move_simp [Datum.values_move f fields]
  | .enum self variant labels fields => by move_simp [Datum.values_move f fields]
  | .onceCellEmpty self => by move_simp [Impl.onceCell]
  | .hashTable self T items capacity table => by move_simp [Impl.hashTable, Datum.values_move f items]
  | .indexSet self T items capacity bucket table => by move_simp [Impl.indexSet, Datum.values_move f items]
  | .indexMap self K V KV keys values capacity bucket table => by move_simp [Impl.indexMap, Datum.values_move f keys, Datum.values_move f values]
  | .dashMap self K V KV capacity keys values capacityLater len table => by move_simp [Impl.dashMap, Datum.values_move f keys, Datum.values_move f values]
  | .dashSet self T capacity items capacityLater len table => by move_simp [Impl.dashSet, Datum.values_move f items]
  | .bigInt self digits heap => by move_simp [Impl.bigInt]
  | .bump self allocated chunks heap => by move_simp [Impl.bump]
  | .jsonMap self table keys values => by move_simp [Impl.jsonMap, Datum.values_move f keys, Datum.values_move f values]
  | .jsonLeaf self => by move_simp [Impl.jsonValue]
  | .json self variant v => by move_simp [Impl.jsonValue, Datum.value_move f v]
  | .futuresPending self => by move_simp [Impl.futuresShared]
  | .futuresShared self ptr => by move_simp [Impl.futuresShared]
  | .headerSlice self sizeOfVal header tail => by move_simp [Impl.headerSlice, Datum.value_move f header, Datum.value_move f tail]
  | .headerWithLength self header len => by move_simp [Impl.headerWithLength, Datum.value_move f header, Datum.value_move f len]
  | .unit self size owned => by move_simp []
theorem Datum.values_move [Target] (f : Ptr → Ptr) : (l : List Datum) → Datum.values (Datum.moveEach f l) = (Datum.values l).map (Value.move f)
  | [] => rfl
  | d :: l => by simp only [Datum.moveEach, Datum.values, List.map_cons, Datum.value_move f d, Datum.values_move f l]
end

theorem Cell.visit_move [Target] (f : Ptr → Ptr) (c : Cell) : (c.move f).visit = c.visit.move f := by
  cases c <;> simp [Cell.move, Cell.visit, Impl.arcInner, Impl.rcInner, Impl.triompheInner, Impl.thinArcInner, Datum.value_move]

end Allocative
