import Verif.Lemmas.Reordered
import Verif.Props.Rename
import Verif.Props.Report
set_option linter.unusedSimpArgs false
/-
C74: profiles are reproducible.
-/
namespace Allocative

theorem Obj.ptrs_move (f : Ptr → Ptr) (o : Obj) : (o.move f).ptrs = o.ptrs.map f := by
  induction o with
  | nil => rfl
  | inline k n e i r ih1 ih2 => simp [Obj.move, Obj.ptrs, ih1, ih2]
  | unique k n e i r ih1 ih2 => simp [Obj.move, Obj.ptrs, ih1, ih2]
  | shared k n p e r ih => simp [Obj.move, Obj.ptrs, ih]

theorem Obj.keysAre_move (Q : Key → Prop) (f : Ptr → Ptr) (o : Obj) : (o.move f).KeysAre Q ↔ o.KeysAre Q := by
  induction o with
  | nil => exact Iff.rfl
  | inline k n e i r ih1 ih2 => simp [Obj.move, Obj.KeysAre, ih1, ih2]
  | unique k n e i r ih1 ih2 => simp [Obj.move, Obj.KeysAre, ih1, ih2]
  | shared k n p e r ih => simp [Obj.move, Obj.KeysAre, ih]

theorem Obj.Shuffle.heap {a b : Obj} (h : a.Shuffle b) : ∀ u, a.heap u = b.heap u := by
  induction h with
  | nil => intro u; rfl
  | inline k n e _ _ ih1 ih2 => intro u; simp only [Obj.heap, ih1, ih2]
  | unique k n e _ _ ih1 ih2 => intro u; simp only [Obj.heap, ih1, ih2]
  | shared k n p e _ ih => intro u; simp only [Obj.heap, ih]
  | swapII => intro u; simp only [Obj.heap]; omega
  | swapIU => intro u; simp only [Obj.heap]; omega
  | swapUU => intro u; simp only [Obj.heap]; omega
  | swapIS => intro u; simp only [Obj.heap]
  | swapUS => intro u; simp only [Obj.heap]
  | swapSS => intro u; simp only [Obj.heap]
  | symm _ ih => intro u; exact (ih u).symm
  | trans _ _ ih1 ih2 => intro u; exact (ih1 u).trans (ih2 u)

theorem Datum.ReorderedEach.shuffle [Target] {l l' : List Datum} : Datum.ReorderedEach l l' → Obj.ShuffleEach (l.map fun d => d.value.visit) (l'.map fun d => d.value.visit)
  | .nil => .nil
  | .cons h hs => .cons h.like.visit hs.shuffle

/-- C74, for object graphs: all cells lie at other addresses, and the roots and the fields of every object are in another order. -/
theorem C74_object_graph (f : Ptr → Ptr) (heap heap' : Heap) (roots mid roots' : List Obj) (hk : ∀ o ∈ roots, o.KeysAre Key.Proper) (hkh : ∀ p, (heap p).KeysAre Key.Proper)
    (hkh' : ∀ p, (heap' p).KeysAre Key.Proper) (hf : ∀ p q, Reachable heap roots p → Reachable heap roots q → f p = f q → p = q)
    (hh : ∀ p, Reachable heap roots p → ((heap p).move f).Shuffle (heap' (f p))) (hr : (roots.map (Obj.move f)).Perm mid) (hr' : Obj.ShuffleEach mid roots')
    (L : List Ptr) (hn : L.Nodup) (hL : ∀ p, p ∈ L ↔ Reachable heap roots p) (fuel fuel' : Nat) (hfuel : L.length ≤ fuel) (hfuel' : L.length ≤ fuel')
    (o1 o2 : HashOrder TreeId) (o1' o2' : HashOrder (List Str)) :
    ∃ obs, observe o1 o1' (visits heap fuel roots) = .ok obs ∧ observe o2 o2' (visits heap' fuel' roots') = .ok obs := by
  classical
  -- the cells at their new addresses, in the old order
  let heapM : Heap := fun q => if h : ∃ p, Reachable heap roots p ∧ f p = q then (heap h.choose).move f else heap' q
  have hM : ∀ p, Reachable heap roots p → heapM (f p) = (heap p).move f := by
    intro p hp
    have h : ∃ p', Reachable heap roots p' ∧ f p' = f p := ⟨p, hp, rfl⟩
    have e : h.choose = p := hf _ _ h.choose_spec.1 hp h.choose_spec.2
    simp only [heapM, dif_pos h, e]
  have hsh : ∀ q, (heapM q).Shuffle (heap' q) := by
    intro q
    by_cases h : ∃ p, Reachable heap roots p ∧ f p = q
    · obtain ⟨p, hp, rfl⟩ := h
      rw [hM p hp]
      exact hh p hp
    · simp only [heapM, dif_neg h]
      exact .refl _
  have hkM : ∀ q, (heapM q).KeysAre Key.Proper := by
    intro q
    by_cases h : ∃ p, Reachable heap roots p ∧ f p = q
    · obtain ⟨p, hp, rfl⟩ := h
      rw [hM p hp]
      exact (Obj.keysAre_move _ _ _).2 (hkh p)
    · simp only [heapM, dif_neg h]
      exact hkh' q
  have hLM : ∀ q, q ∈ L.map f ↔ Reachable heapM (roots.map (Obj.move f)) q := by
    intro q
    rw [List.mem_map]
    constructor
    · rintro ⟨p, hp, rfl⟩
      have := (hL p).1 hp
      clear hp
      induction this with
      | root ho hp => exact .root (List.mem_map_of_mem ho) (by rw [Obj.ptrs_move]; exact List.mem_map_of_mem hp)
      | step hq hp ih => exact .step ih (by rw [hM _ hq, Obj.ptrs_move]; exact List.mem_map_of_mem hp)
    · intro h
      induction h with
      | root ho hp =>
        obtain ⟨o', ho', rfl⟩ := List.mem_map.1 ho
        rw [Obj.ptrs_move] at hp
        obtain ⟨p', hp', rfl⟩ := List.mem_map.1 hp
        exact ⟨p', (hL p').2 (.root ho' hp'), rfl⟩
      | step _ hp ih =>
        obtain ⟨p, hpL, rfl⟩ := ih
        have hpr := (hL p).1 hpL
        rw [hM p hpr, Obj.ptrs_move] at hp
        obtain ⟨p', hp', rfl⟩ := List.mem_map.1 hp
        exact ⟨p', (hL p').2 (.step hpr hp'), rfl⟩
  have hnM : (L.map f).Nodup := by
    refine List.pairwise_map.2 (hn.imp_of_mem ?_)
    intro a b ha hb hab e
    exact hab (hf a b ((hL a).1 ha) ((hL b).1 hb) e)
  obtain ⟨obs, h1, h2⟩ := C10_order_irrelevant heapM heap' (roots.map (Obj.move f)) mid roots' hsh hr hr' (by
      intro o ho
      obtain ⟨o', ho', rfl⟩ := List.mem_map.1 ho
      exact (Obj.keysAre_move _ _ _).2 (hk o' ho')) hkM (L.map f) hnM hLM fuel fuel' (by simpa using hfuel) (by simpa using hfuel') o1 o2 o1' o2'
  exact ⟨obs, by rw [← C63_object_graph f heap heapM roots hf hM fuel o1 o1']; exact h1, h2⟩

/-- C74. The same values in another run of the program: all allocations lie at other addresses (reachable ones kept apart), hash maps, hash sets and hash tables, at any depth, have their
entries in another order, the roots are visited in another order, and the hash maps of the profiler are iterated in another order.  Text, total and warnings are the same. -/
theorem C74_reproducible [Target] (f : Ptr → Ptr) (cells cells' : Ptr → Cell) (roots mid roots' : List Datum) (hw : ∀ d ∈ roots, d.WF) (L : List Ptr) (hn : L.Nodup)
    (hL : ∀ p, p ∈ L ↔ ReachableCell cells roots p) (hwc : ∀ p ∈ L, (cells p).datum.WF) (hf : ∀ p ∈ L, ∀ q ∈ L, f p = f q → p = q)
    (hc : ∀ p ∈ L, ((cells p).move f).Reordered (cells' (f p))) (hr : (roots.map (Datum.move f)).Perm mid) (hr' : Datum.ReorderedEach mid roots')
    (fuel fuel' : Nat) (hfuel : L.length ≤ fuel) (hfuel' : L.length ≤ fuel') (o1 o2 : HashOrder TreeId) (o1' o2' : HashOrder (List Str)) :
    ∃ obs, observe o1 o1' (visits (fun p => (cells p).visit) fuel (roots.map fun d => d.value.visit)) = .ok obs ∧
      observe o2 o2' (visits (fun p => (cells' p).visit) fuel' (roots'.map fun d => d.value.visit)) = .ok obs := by
  have hre : ∀ p, p ∈ L ↔ Reachable (fun p => (cells p).visit) (roots.map fun d => d.value.visit) p := fun p =>
    (hL p).trans (reachable_iff hw (fun p hp => hwc p ((hL p).2 hp)) p).symm
  refine C74_object_graph f (fun p => (cells p).visit) (fun p => (cells' p).visit) (roots.map fun d => d.value.visit) (mid.map fun d => d.value.visit)
    (roots'.map fun d => d.value.visit) ?_ (fun p => cell_proper _) (fun p => cell_proper _) ?_ ?_ ?_ ?_ L hn hre fuel fuel' hfuel hfuel' o1 o2 o1' o2'
  · intro o ho
    obtain ⟨d, -, rfl⟩ := List.mem_map.1 ho
    exact proper d
  · exact fun p q hp hq => hf p ((hre p).2 hp) q ((hre q).2 hq)
  · intro p hp
    have := (hc p ((hre p).2 hp)).shuffle
    rwa [Cell.visit_move] at this
  · have := hr.map fun d => d.value.visit
    simpa only [List.map_map, Function.comp_def, Datum.value_move, Value.move_visit] using this
  · exact hr'.shuffle

/-- C74. `size_of_unique_allocated_data` is the same too, whatever is at the addresses. -/
theorem C74_size_of [Target] (f : Ptr → Ptr) (d d' : Datum) (h : (d.move f).Reordered d') (content content' : Ptr → Prog) :
    SizeOf.sizeOfUniqueAllocatedData (d'.value.visit.visitWith content') = SizeOf.sizeOfUniqueAllocatedData (d.value.visit.visitWith content) := by
  have hv := h.like.visit
  rw [Datum.value_move, Value.move_visit] at hv
  rw [sizeOf_heap, sizeOf_heap, ← hv.heap]
  congr 2
  have : ∀ (o : Obj) u, (o.move f).heap u = o.heap u := by
    intro o
    induction o with
    | nil => intro u; rfl
    | inline k n e i r ih1 ih2 => intro u; simp only [Obj.move, Obj.heap, ih1, ih2]
    | unique k n e i r ih1 ih2 => intro u; simp only [Obj.move, Obj.heap, ih1, ih2]
    | shared k n p e r ih => intro u; simp only [Obj.move, Obj.heap, ih]
  exact this _ _

namespace ReproducibleExamples

attribute [local instance] Target.x64

/-- `HashMap<u8, Arc<HashSet<u8>>>` with two entries, both holding the same `Arc`; the set in the `Arc` has two items.  `p` is the address of the `Arc`, and the flags tell whether the order is turned. -/
def byte (n : Nat) : Datum := .plain ⟨ascii (if n = 0 then "u8" else "i8"), 1, false⟩
def arc (p : Ptr) : Datum := .arc ⟨ascii "Arc<HashSet<u8>>", 8, true⟩ 8 p
def map (p : Ptr) (turned : Bool) : Datum := .map ⟨ascii "HashMap<u8, Arc<HashSet<u8>>>", 48, true⟩ 0
  (if turned then [byte 1, byte 0] else [byte 0, byte 1]) [arc p, arc p]
def set (turned : Bool) : Datum := .set ⟨ascii "HashSet<u8>", 48, true⟩ 0 (if turned then [byte 1, byte 0] else [byte 0, byte 1])
def cells (turned : Bool) : Ptr → Cell := fun _ => .arc 64 (set turned)

theorem set_reordered : (set false).Reordered (set true) := .setOrder _ _ (.swap _ _ _)
theorem map_reordered (p : Ptr) : (map p false).Reordered (map p true) := .mapOrder _ _ (.swap _ _ _)

theorem roots_wf : ∀ d ∈ [map 7 false, arc 7], d.WF := by
  intro d hd; simp only [List.mem_cons, List.not_mem_nil, or_false] at hd; rcases hd with rfl | rfl <;> simp [map, arc, byte, Datum.WF, Datum.WFAll]

theorem reach (p : Ptr) : p ∈ [7] ↔ ReachableCell (cells false) [map 7 false, arc 7] p := by
  constructor
  · intro h
    obtain rfl := List.mem_singleton.1 h
    exact .root (d := arc 7) (by simp) (by decide)
  · intro h
    induction h with
    | root hd hp =>
      simp only [List.mem_cons, List.not_mem_nil, or_false] at hd
      rcases hd with rfl | rfl <;> simpa [map, arc, byte, Datum.pointers, Datum.pointersEach, pointersPairs] using hp
    | step _ hp _ => simp [cells, set, byte, Cell.datum, Datum.pointers, Datum.pointersEach, pointersPairs] at hp

theorem cells_wf (p : Ptr) : (cells false p).datum.WF := by simp [cells, Cell.datum, set, byte, Datum.WF, Datum.WFAll]

/-- The map and another holder of its `Arc`; in the other run the `Arc` lies at 107, the map and the set are in another order, and the map is visited last. -/
example (o1 o2 : HashOrder TreeId) (o1' o2' : HashOrder (List Str)) := C74_reproducible (· + 100) (cells false) (cells true) [map 7 false, arc 7] [arc 107, map 107 false] [arc 107, map 107 true]
  roots_wf [7] (by decide) reach (fun p _ => cells_wf p)
  (fun _ _ _ _ h => Nat.add_right_cancel h) (fun p _ => .arc 64 set_reordered) (.swap _ _ _) (.cons (.refl _) (.cons (map_reordered 107) .nil)) 1 5 (by decide) (by decide) o1 o2 o1' o2'

example := C74_size_of (· + 100) (.box ⟨ascii "Box<HashMap<u8, Arc<HashSet<u8>>>>", 8, true⟩ 48 (map 7 false)) (.box ⟨ascii "Box<HashMap<u8, Arc<HashSet<u8>>>>", 8, true⟩ 48 (map 107 true))
  (.box _ _ (map_reordered 107))

end ReproducibleExamples

end Allocative
