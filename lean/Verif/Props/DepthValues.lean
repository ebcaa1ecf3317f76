import Verif.Spec.Nesting
import Verif.Props.DepthOwned
import Verif.Props.Report
import Verif.Props.Reproducible
set_option linter.unusedSimpArgs false
/-
C67 for values: the depth of the recursion is bounded by how deep the values are inside of each other.
-/
namespace Allocative

@[simp] theorem height_append (a b : Obj) : (a.append b).height = max a.height b.height := by
  induction a with
  | nil => simp [Obj.append, Obj.height]
  | inline k n e i r _ ih => simp only [Obj.append, Obj.height, ih]; omega
  | unique k n e i r _ ih => simp only [Obj.append, Obj.height, ih]; omega
  | shared k n p e r ih => simp only [Obj.append, Obj.height, ih]; omega

theorem height_concat {l : List Obj} {h : Nat} (hl : ∀ o ∈ l, o.height ≤ h) : (Obj.concat l).height ≤ h := by
  induction l with
  | nil => exact Nat.zero_le _
  | cons a l ih =>
    have := ih fun o ho => hl o (by simp [ho])
    have := hl a (by simp)
    simp only [Obj.concat, height_append]; omega

@[simp] theorem height_nil : Obj.nil.height = 0 := rfl
@[simp] theorem height_enter (k n e) (o : Obj) : (Visit.enter k n e o).height = 1 + o.height := by simp [Visit.enter, Obj.height]
@[simp] theorem height_enterUnique (k n e) (o : Obj) : (Visit.enterUnique k n e o).height = 1 + o.height := by simp [Visit.enterUnique, Obj.height]
@[simp] theorem height_simple (k n) : (Visit.simple k n).height = 1 := by simp [Visit.simple]
@[simp] theorem height_field (k) (v : Value) : (Visit.field k v).height = 1 + v.visit.height := by simp [Visit.field, Visit.fieldWith]
@[simp] theorem height_fieldWith (k n) (o : Obj) : (Visit.fieldWith k n o).height = 1 + o.height := by simp [Visit.fieldWith]
@[simp] theorem height_shared (k n p e) : (Obj.shared k n p e .nil).height = 1 := by simp [Obj.height]

theorem height_rawTable [Target] (T n) : (Impl.addRawTableForLen T n).height ≤ 2 := by
  unfold Impl.addRawTableForLen; split <;> simp

/-- The values are at most so deep. -/
abbrev Low (l : List Value) (h : Nat) : Prop := ∀ v ∈ l, v.visit.height ≤ h

theorem height_fields (k : Key) {l : List Value} {h : Nat} (hl : Low l h) : (Obj.concat (l.map fun v => Visit.field k v)).height ≤ 1 + h := by
  refine height_concat fun o ho => ?_
  obtain ⟨v, hv, rfl⟩ := List.mem_map.1 ho
  have := hl v hv
  simp only [height_field]; omega

theorem height_pairs (a b : Key) {k v : List Value} {h : Nat} (hk : Low k h) (hv : Low v h) :
    (Obj.concat ((k.zip v).map fun e => (Visit.field a e.1).append (Visit.field b e.2))).height ≤ 1 + h := by
  refine height_concat fun o ho => ?_
  obtain ⟨e, he, rfl⟩ := List.mem_map.1 ho
  have h1 := hk _ (List.of_mem_zip he).1
  have h2 := hv _ (List.of_mem_zip he).2
  simp only [height_append, height_field]; omega

theorem height_iter [Target] (T : Ty) {l : List Value} {h : Nat} (hl : Low l h) : (Visit.iter T l).height ≤ 1 + h := by
  unfold Visit.iter Visit.each
  split
  · simp
  · exact Nat.le_trans (height_concat fun o ho => by obtain ⟨v, hv, rfl⟩ := List.mem_map.1 ho; exact hl v hv) (by omega)

theorem height_tuple (i : Nat) {l : List Value} {h : Nat} (hl : Low l h) : (Obj.concat ((tupleLabels i l).map fun f => Visit.field (Key.new f.1) f.2)).height ≤ 1 + h := by
  induction l generalizing i with
  | nil => exact Nat.zero_le _
  | cons v l ih =>
    have := ih (i + 1) fun v hv => hl v (by simp [hv])
    have := hl v (by simp)
    simp only [tupleLabels, List.map_cons, Obj.concat, height_append, height_field]; omega

theorem height_derived (labels : List (Str × Bool)) {l : List Value} {h : Nat} (hl : Low l h) : (Visit.derivedFields labels l).height ≤ 1 + h := by
  induction l generalizing labels with
  | nil => cases labels <;> exact Nat.zero_le _
  | cons v l ih =>
    cases labels with
    | nil => exact Nat.zero_le _
    | cons lb ls =>
      have := ih ls fun v hv => hl v (by simp [hv])
      have := hl v (by simp)
      obtain ⟨lb, s⟩ := lb
      cases s <;> simp [Visit.derivedFields] <;> omega

macro "height_simp" "[" ls:Lean.Parser.Tactic.simpLemma,* "]" : tactic =>
  `(tactic| (simp [Datum.value, Impl.sized, Impl.sliceVisit, Visit.enterSelfSized, Visit.enterSelf, Visit.simpleSized, Visit.slice, Visit.genericMapFields,
      Visit.genericSetFields, Visit.vecLikeBody, Datum.nesting, $ls,*] <;> omega))

theorem Low.mono {l : List Value} {h h' : Nat} (hl : Low l h) (hh : h ≤ h') : Low l h' := fun v hv => Nat.le_trans (hl v hv) hh

mutual
theorem height_le [Target] : (d : Datum) → d.value.visit.height ≤ 4 * d.nesting
  | .plain self => by height_simp [Impl.plain]
  | .hollow self owned => by height_simp [Impl.empty]
  | .str self len => by height_simp [Impl.str]
  | .osStr self len => by height_simp [Impl.osStr]
  | .box self ptrSize v => by have := height_le v; height_simp [Impl.box]
  | .ok self v => by have := height_le v; height_simp [Impl.result]
  | .err self v => by have := height_le v; height_simp [Impl.result]
  | .none self => by height_simp [Impl.option]
  | .some self v => by have := height_le v; height_simp [Impl.option]
  | .left self v => by have := height_le v; height_simp [Impl.either]
  | .right self v => by have := height_le v; height_simp [Impl.either]
  | .vec self T items capacity => by have := height_iter T (heights_le items); simp only [Datum.value, Impl.vec]; split <;> height_simp []
  | .vecDeque self T front back capacity => by
    have h1 := height_iter T (heights_le front)
    have h2 := height_iter T (heights_le back)
    simp only [Datum.value, Impl.vecDeque]; split <;> height_simp []
  | .string self len capacity => by
    have := height_iter Impl.u8 (l := List.replicate len (Impl.plain Impl.u8)) (h := 1) (by
      intro v hv; rw [(List.mem_replicate.1 hv).2]; height_simp [Impl.plain])
    have : (Visit.iter Impl.u8 (List.replicate len (Impl.plain Impl.u8))).height ≤ 1 := by
      unfold Visit.iter; rw [if_pos (by decide)]; simp
    height_simp [Impl.string]
  | .pathBuf self len capacity => by simp only [Datum.value, Impl.pathBuf]; split <;> height_simp []
  | .compactString self heapAllocated len capacity => by cases heapAllocated <;> height_simp [Impl.compactString]
  | .slice self T items => by have := height_fields dataName (heights_le items); height_simp [Impl.slice]
  | .array self T items => by have := height_fields dataName (heights_le items); height_simp [Impl.array]
  | .tuple self fields => by have := height_tuple 0 (heights_le fields); height_simp [Impl.tuple]
  | .manuallyDrop self v => by have := height_le v; height_simp [Impl.manuallyDrop]
  | .cell self accessible v => by have := height_le v; cases accessible <;> height_simp [Impl.cell]
  | .cellEmpty self => by height_simp [Impl.cell]
  | .onceCell self v => by have := height_le v; height_simp [Impl.onceCell]
  | .onceCellEmpty self => by height_simp [Impl.onceCell]
  | .map self table keys values => by
    have := height_pairs keyName valueName ((heights_le keys).mono (h' := 4 * max (Datum.deepest keys) (Datum.deepest values)) (by omega)) ((heights_le values).mono (by omega))
    height_simp [Impl.map]
  | .set self table items => by have := height_fields keyName (heights_le items); height_simp [Impl.set]
  | .smallVecInline self T items => by have := height_fields dataName (heights_le items); height_simp [Impl.smallVec]
  | .smallVecSpilled self T items capacity => by have := height_fields dataName (heights_le items); height_simp [Impl.smallVec]
  | .slab self T entry items capacity => by have := height_iter T (heights_le items); simp only [Datum.value, Impl.slab]; split <;> height_simp []
  | .arc self ptrSize ptr => by height_simp [Impl.arc]
  | .weakDangling self => by height_simp [Impl.weak]
  | .weak self strong ptrSize ptr => by height_simp [Impl.weak, Impl.arc]
  | .struct self size labels fields => by have := height_derived labels (heights_le fields); height_simp []
  | .enum self variant labels fields => by have := height_derived labels (heights_le fields); height_simp []
  | .hashTable self T items capacity table => by have := height_iter T (heights_le items); height_simp [Impl.hashTable]
  | .indexSet self T items capacity bucket table => by
    have := height_fields (Key.new (ascii "value")) (heights_le items)
    have := height_rawTable Impl.usize items.length
    height_simp [Impl.indexSet]
  | .indexMap self K V KV keys values capacity bucket table => by
    have := height_pairs (Key.new (ascii "key")) (Key.new (ascii "value")) ((heights_le keys).mono (h' := 4 * max (Datum.deepest keys) (Datum.deepest values)) (by omega)) ((heights_le values).mono (by omega))
    have := height_rawTable Impl.usize (min keys.length values.length)
    height_simp [Impl.indexMap]
  | .dashMap self K V KV capacity keys values capacityLater len table => by
    have := height_pairs keyName valueName ((heights_le keys).mono (h' := 4 * max (Datum.deepest keys) (Datum.deepest values)) (by omega)) ((heights_le values).mono (by omega))
    height_simp [Impl.dashMap]
  | .dashSet self T capacity items capacityLater len table => by have := height_fields dataName (heights_le items); height_simp [Impl.dashSet]
  | .bigInt self digits heap => by height_simp [Impl.bigInt]
  | .bump self allocated chunks heap => by height_simp [Impl.bump]
  | .jsonMap self table keys values => by
    have := height_pairs (Key.new (ascii "key")) (Key.new (ascii "value")) ((heights_le keys).mono (h' := 4 * max (Datum.deepest keys) (Datum.deepest values)) (by omega)) ((heights_le values).mono (by omega))
    height_simp [Impl.jsonMap]
  | .jsonLeaf self => by height_simp [Impl.jsonValue]
  | .json self variant v => by have := height_le v; height_simp [Impl.jsonValue]
  | .futuresPending self => by height_simp [Impl.futuresShared]
  | .futuresShared self ptr => by height_simp [Impl.futuresShared]
  | .headerSlice self sizeOfVal header tail => by have := height_le header; have := height_le tail; height_simp [Impl.headerSlice]
  | .headerWithLength self header len => by have := height_le header; have := height_le len; height_simp [Impl.headerWithLength]
  | .unit self size _ => by height_simp []
theorem heights_le [Target] : (l : List Datum) → Low (Datum.values l) (4 * Datum.deepest l)
  | [] => by intro v hv; simp [Datum.values] at hv
  | d :: l => by
    have h1 := height_le d
    have h2 := heights_le l
    intro v hv
    simp only [Datum.values, List.mem_cons] at hv
    simp only [Datum.deepest]
    rcases hv with rfl | hv
    · omega
    · have := h2 v hv; omega
end

theorem cell_height_le [Target] (c : Cell) : c.visit.height ≤ 2 + 4 * c.datum.nesting := by
  cases c <;> rename_i v <;> have := height_le v <;>
    simp [Cell.visit, Cell.datum, Impl.arcInner, Impl.rcInner, Impl.triompheInner, Impl.thinArcInner] <;> omega

/-- C67, for values. While some values and the allocations they share are visited, at most `1 + 4 n + (2 + 4 n1) + (2 + 4 n2) + ...` visitors are alive at the same time, where `n` is how deep one of
the roots is nested and `n1`, `n2`, ... how deep the values in different shared allocations are; no stack has more than `2 + 4 m` names, where `m` is the deepest
nesting of a root or shared allocation on its own. -/
theorem C67_values [Target] (cells : Ptr → Cell) (roots : List Datum) (hw : ∀ d ∈ roots, d.WF) (L : List Ptr) (hn : L.Nodup)
    (hL : ∀ p, p ∈ L ↔ ReachableCell cells roots p) (hwc : ∀ p ∈ L, (cells p).datum.WF) (fuel : Nat) (hf : L.length ≤ fuel) (hne : roots ≠ []) :
    (∃ b log, Builder.default.useRootsLogged [] (visits (fun p => (cells p).visit) fuel (roots.map fun d => d.value.visit)) = .ok (b, log) ∧
      ∃ d ∈ roots, ∃ chain : List Ptr, chain.Nodup ∧ (∀ p ∈ chain, p ∈ L) ∧ peakLive 0 log ≤ 1 + 4 * d.nesting + (chain.map fun p => 2 + 4 * (cells p).datum.nesting).sum) ∧
    ∀ m, (∀ d ∈ roots, d.nesting ≤ m) → (∀ p ∈ L, (cells p).datum.nesting ≤ m) →
      longestStack (records (visits (fun p => (cells p).visit) fuel (roots.map fun d => d.value.visit))) ≤ 2 + 4 * m := by
  have hre : ∀ p, p ∈ L ↔ Reachable (fun p => (cells p).visit) (roots.map fun d => d.value.visit) p := fun p =>
    (hL p).trans (reachable_iff hw (fun p hp => hwc p ((hL p).2 hp)) p).symm
  refine ⟨?_, ?_⟩
  · obtain ⟨b, log, e, -, o, ho, chain, hc, hcn, hp, -⟩ := C67_visit_depth _ _ L hn hre fuel hf (by simpa using hne)
    obtain ⟨d, hd, rfl⟩ := List.mem_map.1 ho
    have hsub : ∀ (c : List Ptr) (o : Obj), (∀ p ∈ o.ptrs, p ∈ L) → Heap.Chain (fun p => (cells p).visit) o c → ∀ p ∈ c, p ∈ L := by
      intro c
      induction c with
      | nil => intro o _ _ p hp; simp at hp
      | cons q c ih =>
        intro o ho hc p hp
        rcases List.mem_cons.1 hp with rfl | hp
        · exact ho _ hc.1
        · exact ih (cells q).visit (fun r hr => (hre r).2 (.step ((hre q).1 (ho q hc.1)) hr)) hc.2 p hp
    refine ⟨b, log, e, d, hd, chain, hcn, hsub chain _ (fun p hp => (hre p).2 (.root ho hp)) hc, Nat.le_trans hp ?_⟩
    have h1 := height_le d
    have h2 : (chain.map fun p => (cells p).visit.height).sum ≤ (chain.map fun p => 2 + 4 * (cells p).datum.nesting).sum := by
      clear hp hc hcn
      induction chain with
      | nil => simp
      | cons q c ih => have := cell_height_le (cells q); simp only [List.map_cons, List.sum_cons]; omega
    omega
  · intro m hm hm'
    rw [C67_stack_length _ _ L hn hre fuel hf]
    have : ∀ l : List Obj, (∀ o ∈ l, o.height ≤ 2 + 4 * m) → l.foldr (fun o n => max o.height n) 0 ≤ 2 + 4 * m := by
      intro l
      induction l with
      | nil => intro _; simp
      | cons o l ih =>
        intro h
        have := ih fun o ho => h o (by simp [ho])
        have := h o (by simp)
        simp only [List.foldr_cons]; omega
    refine this _ fun o ho => ?_
    rcases List.mem_append.1 ho with ho | ho
    · obtain ⟨d, hd, rfl⟩ := List.mem_map.1 ho
      have := height_le d; have := hm d hd; omega
    · obtain ⟨p, hp, rfl⟩ := List.mem_map.1 ho
      have := cell_height_le (cells p); have := hm' p hp
      show (cells p).visit.height ≤ _
      omega

attribute [local instance] Target.x64 in
/-- The map of `ReproducibleExamples`, which holds an `Arc` of a set twice, and another holder of this `Arc`. -/
example := C67_values (ReproducibleExamples.cells false) [ReproducibleExamples.map 7 false, ReproducibleExamples.arc 7] ReproducibleExamples.roots_wf [7] (by decide)
  ReproducibleExamples.reach (fun p _ => ReproducibleExamples.cells_wf p) 1 (by decide) (by simp)
example : (ReproducibleExamples.map 7 false).nesting = 2 ∧ (ReproducibleExamples.set false).nesting = 2 := by decide

end Allocative
