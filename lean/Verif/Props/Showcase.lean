import Verif.Props.Merge
import Verif.Props.Memory
set_option linter.unusedSimpArgs false
/-
The hypotheses of the theorems about values (C48, C52, C59, C60, C62, C70) can be met by values of every kind: one value for each constructor of `Datum` and one allocation for
each of `Alloc`, with the layouts these types have on a 64-bit target, all in one profile.
-/
namespace Allocative
namespace Showcase

attribute [local instance] Target.x64
open NamesExamples

def t (name : String) (size : Nat) (drops : Bool) : Ty := ⟨ascii name, size, drops⟩

def u8 : Datum := .plain (t "u8" 1 false)
def u32 : Datum := .plain (t "u32" 4 false)
def usize : Datum := .plain (t "usize" 8 false)
def tString : Ty := t "alloc::string::String" 24 true
def text : Datum := .string tString 3 5
def tValue : Ty := t "serde_json::value::Value" 32 true

/-- A `HeaderSlice<HeaderWithLength<u32>, [u8]>` with three elements. -/
def thinValue : Datum :=
  .headerSlice (t "triomphe::header::HeaderSlice<triomphe::header::HeaderWithLength<u32>, [u8]>" 0 false) 24
    (.headerWithLength (t "triomphe::header::HeaderWithLength<u32>" 16 false) u32 usize) (.slice (t "[u8]" 0 false) (t "u8" 1 false) [u8, u8, u8])

/-- One of each kind. -/
def values : List Datum := [
  u8,
  .hollow (t "&str" 16 false) 0,
  .box (t "alloc::boxed::Box<str>" 16 true) 16 (.str (t "str" 0 false) 11),
  .box (t "alloc::boxed::Box<std::ffi::os_str::OsStr>" 16 true) 16 (.osStr (t "std::ffi::os_str::OsStr" 0 false) 4),
  .box (t "alloc::boxed::Box<[alloc::string::String]>" 16 true) 16 (.slice (t "[alloc::string::String]" 0 true) tString [text, text]),
  .ok (t "core::result::Result<alloc::string::String, u32>" 24 true) text,
  .err (t "core::result::Result<alloc::string::String, u32>" 24 true) u32,
  .none (t "core::option::Option<alloc::string::String>" 24 true),
  .some (t "core::option::Option<alloc::string::String>" 24 true) text,
  .left (t "either::Either<u8, u32>" 8 false) u8,
  .right (t "either::Either<u8, u32>" 8 false) u32,
  .vec (t "alloc::vec::Vec<alloc::string::String>" 24 true) tString [text, text] 4,
  .vecDeque (t "alloc::collections::vec_deque::VecDeque<u32>" 32 true) (t "u32" 4 false) [u32] [u32, u32] 8,
  text,
  .pathBuf (t "std::path::PathBuf" 24 true) 4 4,
  .compactString (t "compact_str::CompactString" 24 true) true 30 32,
  .array (t "[alloc::string::String; 2]" 48 true) tString [text, text],
  .tuple (t "(u8, alloc::string::String)" 32 true) [u8, text],
  .manuallyDrop (t "core::mem::manually_drop::ManuallyDrop<alloc::string::String>" 24 false) text,
  .cell (t "std::sync::mutex::Mutex<alloc::string::String>" 32 true) true text,
  .cellEmpty (t "std::sync::once_lock::OnceLock<alloc::string::String>" 32 true),
  .onceCell (t "once_cell::sync::OnceCell<alloc::string::String>" 32 true) text,
  .onceCellEmpty (t "once_cell::sync::OnceCell<alloc::string::String>" 32 true),
  .map (t "std::collections::hash::map::HashMap<u8, u8>" 48 true) 36 [u8, u8] [u8, u8],
  .set (t "alloc::collections::btree::set::BTreeSet<u8>" 24 true) 24 [u8, u8, u8],
  .smallVecInline (t "smallvec::SmallVec<[u32; 2]>" 24 true) (t "u32" 4 false) [u32, u32],
  .smallVecSpilled (t "smallvec::SmallVec<[u32; 2]>" 24 true) (t "u32" 4 false) [u32, u32, u32] 4,
  .slab (t "slab::Slab<alloc::string::String>" 48 true) tString 24 [text] 4,
  .arc (t "alloc::sync::Arc<alloc::string::String>" 8 true) 8 1,
  .arc (t "alloc::rc::Rc<u32>" 8 true) 8 2,
  .arc (t "triomphe::arc::Arc<u8>" 8 true) 8 3,
  .arc (t "triomphe::thin_arc::ThinArc<u32, u8>" 8 true) 8 4,
  .weakDangling (t "alloc::sync::Weak<alloc::string::String>" 8 true),
  .weak (t "alloc::sync::Weak<alloc::string::String>" 8 true) (t "alloc::sync::Arc<alloc::string::String>" 8 true) 8 1,
  .struct (t "demo::Padded" 8 false) 8 [(ascii "a", false), (ascii "b", false)] [u8, u32],
  .enum (t "demo::Shape" 32 true) (ascii "Named") [(ascii "0", false), (ascii "1", true)] [text, u32],
  .hashTable (t "hashbrown::table::HashTable<u32>" 32 true) (t "u32" 4 false) [u32, u32] 3 36,
  .indexSet (t "indexmap::set::IndexSet<u32>" 56 true) (t "u32" 4 false) [u32, u32] 4 16 52,
  .indexMap (t "indexmap::map::IndexMap<u32, u8>" 56 true) (t "u32" 4 false) (t "u8" 1 false) (t "(u32, u8)" 8 false) [u32] [u8] 4 16 52,
  .dashMap (t "dashmap::DashMap<u32, u8>" 40 true) (t "u32" 4 false) (t "u8" 1 false) (t "(u32, u8)" 8 false) 3 [u32] [u8] 3 1 100,
  .dashSet (t "dashmap::set::DashSet<u32>" 40 true) (t "u32" 4 false) 3 [u32] 3 1 100,
  .bigInt (t "num_bigint::biguint::BigUint" 24 true) 3 32,
  .bump (t "bumpalo::Bump" 24 true) 448 [100, 200] 512,
  .jsonLeaf tValue,
  .json tValue (ascii "Object") (.jsonMap (t "serde_json::map::Map<alloc::string::String, serde_json::value::Value>" 24 true) 632 [text] [.json tValue (ascii "String") text]),
  .futuresPending (t "futures_util::future::future::shared::Shared<demo::Work>" 16 true),
  .futuresShared (t "futures_util::future::future::shared::Shared<demo::Work>" 16 true) 5,
  thinValue,
  .unit (t "demo::Shape" 32 true) 32 0]

/-- The shared allocations. -/
def allocs (p : Ptr) : Alloc :=
  if p = 1 then .arc 8 text
  else if p = 2 then .rc 4 u32
  else if p = 3 then .triomphe 1 u8
  else if p = 4 then .thin ⟨4, 4⟩ ⟨1, 1⟩ ⟨24, 8⟩ (t "allocative::impls::triomphe::ThinArcInnerRepr<u32>" 24 false) 3 thinValue
  else .future text

/-- Their sizes. -/
def bytes (p : Ptr) : Nat := if p = 1 then 40 else if p = 2 then 24 else if p = 3 then 16 else if p = 4 then 32 else 24

theorem leastPow2_4 : leastPow2 4 = 4 := by
  rw [leastPow2, leastPow2, leastPow2]; decide

theorem values_wf : ∀ d ∈ values, d.WF := by
  simp [values, u8, u32, usize, text, thinValue, tString, tValue, t, Datum.WF, Datum.WFAll, Datum.AllOf, Datum.sizes, Datum.size, Datum.value, Impl.plain, Impl.string, Impl.sized,
    Impl.jsonValue, tableBytes, leastPow2_4, ptrBytes_x64]

theorem values_fit : ∀ d ∈ values, d.Fits := by
  simp [values, u8, u32, usize, text, thinValue, tString, tValue, t, Datum.Fits, Datum.FitsAll, Datum.sizes, Datum.size, Datum.value, Datum.values, Impl.plain, Impl.string,
    Impl.sized, Impl.jsonValue, Impl.jsonMap, Impl.slice, Impl.str, Impl.osStr, Impl.headerWithLength, Usize.mul, Usize.modulus, ptrBytes_x64]

set_option maxRecDepth 100000 in
theorem values_named : ∀ d ∈ values, d.Named roleOfName := by
  simp only [values, u8, u32, usize, text, thinValue, tString, tValue, t, Datum.Named, Datum.NamedAll, Ty.Named, List.forall_mem_cons, and_true]
  repeat' apply And.intro
  all_goals first | decide | simp

theorem lm (a m : Nat) (h : a ∣ m) : LeastMultiple a m m := ⟨h, Nat.le_refl _, fun _ _ hk => hk⟩

set_option maxRecDepth 100000 in
theorem cells_named (p : Ptr) : (allocs p).cell.Named roleOfName := by
  have : allocs p = .arc 8 text ∨ allocs p = .rc 4 u32 ∨ allocs p = .triomphe 1 u8 ∨
      allocs p = .thin ⟨4, 4⟩ ⟨1, 1⟩ ⟨24, 8⟩ (t "allocative::impls::triomphe::ThinArcInnerRepr<u32>" 24 false) 3 thinValue ∨ allocs p = .future text := by
    unfold allocs
    repeat' split
    all_goals simp
  have hth := values_named thinValue (by simp [values])
  have htx := values_named text (by simp [values])
  have h8 := values_named u8 (by simp [values])
  have h32 : u32.Named roleOfName := by
    simp only [u32, t, Datum.Named, Ty.Named]
    decide
  rcases this with h | h | h | h | h <;> rw [h]
  · exact htx
  · exact h32
  · exact h8
  · refine ⟨?_, ?_, hth⟩
    · simp only [t, Ty.Named]; decide
    · decide
  · exact htx

theorem cells_ok : ∀ p ∈ [1, 2, 3, 4, 5], (allocs p).value.WF ∧ (allocs p).value.Fits ∧ (allocs p).cell.Named roleOfName ∧ (allocs p).Exact ∧ (allocs p).Occupies (bytes p) ∧
    bytes p ≤ Layout.isizeMax := by
  have hv : ∀ d ∈ values, d.WF ∧ d.Fits := fun d hd => ⟨values_wf d hd, values_fit d hd⟩
  have hth := hv thinValue (by simp [values])
  have htx := hv text (by simp [values])
  have h8 := hv u8 (by simp [values])
  have h32 : u32.WF ∧ u32.Fits := ⟨trivial, trivial⟩
  have hs : text.size = 24 := rfl
  have hs' : u32.size = 4 := rfl
  have hs8 : u8.size = 1 := rfl
  have hst : thinValue.size = 24 := rfl
  intro p hp
  simp only [List.mem_cons, List.not_mem_nil, or_false] at hp
  rcases hp with rfl | rfl | rfl | rfl | rfl
  · refine ⟨htx.1, htx.2, cells_named 1, ⟨⟨3, by omega, rfl⟩, by rw [hs]; decide⟩, ⟨[0, 8, 16], ⟨40, 8⟩, ?_, rfl⟩, by decide⟩
    rw [hs]
    exact ⟨40, .cons (lm 8 0 ⟨0, rfl⟩) (.cons (lm 8 8 ⟨1, rfl⟩) (.cons (lm 8 16 ⟨2, rfl⟩) (.nil _))), by decide, lm 8 40 ⟨5, rfl⟩⟩
  · refine ⟨h32.1, h32.2, cells_named 2, ⟨⟨2, by omega, rfl⟩, by rw [hs']; decide⟩, ⟨[0, 8, 16], ⟨24, 8⟩, ?_, rfl⟩, by decide⟩
    rw [hs']
    exact ⟨20, .cons (lm 8 0 ⟨0, rfl⟩) (.cons (lm 8 8 ⟨1, rfl⟩) (.cons (lm 4 16 ⟨4, rfl⟩) (.nil _))), by decide, ⟨by decide, by decide, by rintro k ⟨c, rfl⟩ h; simp only at h ⊢; omega⟩⟩
  · refine ⟨h8.1, h8.2, cells_named 3, ⟨⟨0, by omega, rfl⟩, by rw [hs8]; decide⟩, ⟨[0, 8], ⟨16, 8⟩, ?_, rfl⟩, by decide⟩
    rw [hs8]
    exact ⟨9, .cons (lm 8 0 ⟨0, rfl⟩) (.cons (lm 1 8 ⟨8, rfl⟩) (.nil _)), by decide, ⟨by decide, by decide, by rintro k ⟨c, rfl⟩ h; simp only at h ⊢; omega⟩⟩
  · have h2 : ReprC [⟨4, 4⟩, usizeLayout] [0, 8] ⟨16, 8⟩ :=
      ⟨16, .cons (lm 4 0 ⟨0, rfl⟩) (.cons ⟨by decide, by decide, by rintro k ⟨c, rfl⟩ h; simp only [usizeLayout, ptrBytes_x64] at h ⊢; omega⟩ (.nil _)), by decide,
        lm 8 16 (by decide)⟩
    have h3 : ReprC [⟨16, 8⟩, ⟨1 * 3, 1⟩] [0, 16] ⟨24, 8⟩ :=
      ⟨19, .cons (lm 8 0 ⟨0, rfl⟩) (.cons (lm 1 16 ⟨16, rfl⟩) (.nil _)), by decide, ⟨by decide, by decide, by rintro k ⟨c, rfl⟩ h; simp only at h ⊢; omega⟩⟩
    have h4 : ReprC [usizeLayout, ⟨24, 8⟩] [0, 8] ⟨32, 8⟩ :=
      ⟨32, .cons (lm 8 0 ⟨0, rfl⟩) (.cons (lm 8 8 ⟨1, rfl⟩) (.nil _)), by decide, lm 8 32 (by decide)⟩
    have h1 : ReprC [usizeLayout, ⟨4, 4⟩, usizeLayout] [0, 8, 16] ⟨24, 8⟩ :=
      ⟨24, .cons (lm 8 0 ⟨0, rfl⟩) (.cons (lm 4 8 (by decide)) (.cons ⟨by decide, by decide, by rintro k ⟨c, rfl⟩ h; simp only [usizeLayout, ptrBytes_x64] at h ⊢; omega⟩
        (.nil _))), by decide, lm 8 24 (by decide)⟩
    exact ⟨hth.1, hth.2, cells_named 4,
      ⟨⟨⟨2, by omega, rfl⟩, by decide⟩, ⟨⟨0, by omega, rfl⟩, by decide⟩, ⟨1, rfl⟩, ⟨1, rfl⟩, ⟨_, h1⟩, by decide, _, _, _, _, h2, h3, hst⟩,
      ⟨_, _, _, _, _, _, h2, h3, h4, rfl⟩, by decide⟩
  · exact ⟨htx.1, htx.2, cells_named 5, trivial, rfl, by decide⟩

theorem no_pointers (p : Ptr) : (allocs p).cell.datum.pointers = [] := by
  unfold allocs
  repeat' split
  all_goals simp [Alloc.cell, Cell.datum, text, u32, u8, thinValue, Datum.pointers, Datum.pointersEach, usize]

theorem reach (p : Ptr) : p ∈ [1, 2, 3, 4, 5] ↔ ReachableCell (fun p => (allocs p).cell) values p := by
  have hv : (∃ d ∈ values, p ∈ d.pointers) ↔ p ∈ [1, 2, 3, 4, 5] := by
    simp [values, u8, u32, usize, text, thinValue, Datum.pointers, Datum.pointersEach, pointersElements, pointersPairs, pointersDerived, t, tString]
    constructor
    · rintro (h | h | h | h | h | h) <;> simp [h]
    · rintro (h | h | h | h | h) <;> simp [h]
  rw [← hv]
  constructor
  · rintro ⟨d, hd, hp⟩; exact .root hd hp
  · intro h
    cases h with
    | root hd hp => exact ⟨_, hd, hp⟩
    | step _ hp => simp only [no_pointers] at hp; cases hp

theorem profilable : Profilable roleOfName allocs bytes values [1, 2, 3, 4, 5] where
  values := fun d hd => ⟨values_wf d hd, values_fit d hd, values_named d hd⟩
  nodup := by simp
  reachable := reach
  cells := cells_ok

/-- Bytes of these values and allocations that are not in a profile: headers, spare capacity and tables for which the estimates are too small (1023 bytes), of 3491. -/
theorem sums : (values.map Datum.footprint).sum + ([1, 2, 3, 4, 5].map fun p => bytes p + (allocs p).value.heapBytes).sum = 3491 ∧
    (values.map Datum.unseen).sum + ([1, 2, 3, 4, 5].map fun p => (allocs p).unseen).sum = 1023 := by
  constructor
  · decide
  · simp [values, u8, u32, usize, text, thinValue, tString, tValue, t, Datum.unseen, Datum.missed, Datum.missedAll, Datum.missedFields, Datum.hidden, Datum.isOpaque, Datum.sizes,
      Datum.size, Datum.value, Datum.values, Datum.heapBytes, Datum.heapBytesAll, Impl.plain, Impl.string, Impl.sized, Impl.jsonValue, Impl.empty, Impl.str, tableBytes,
      leastPow2_4, ptrBytes_x64, allocs, Alloc.unseen, Alloc.value]

/-- C59 and C48: one profile of all of them has no warnings and the total 3491 - 1023. -/
example (ord : HashOrder TreeId) :
    ∃ out, run ord (visits (fun p => (allocs p).cell.visit) 5 (values.map fun d => d.value.visit)) = .ok out ∧ out.warnings = [] ∧ out.flamegraph.totalSize = 2468 := by
  obtain ⟨out, e, hw, -, -, ht⟩ := profilable.profile reserved 5 (by simp) ord
  refine ⟨out, e, hw, ?_⟩
  have := sums
  omega

/-- C62: all hypotheses hold. -/
example (ord : HashOrder TreeId) (ord' : HashOrder (List Str)) : ∃ (recs : List Rec) (lines : List (Path × Nat)) (total : Nat), Roomy recs ∧
    observe ord ord' (visits (fun p => (allocs p).cell.visit) 5 (values.map fun d => d.value.visit)) = .ok ⟨lines.flatMap renderLine, total, []⟩ ∧
    ∀ p n, (p, n) ∈ lines ↔ n = gapsAt recs p ∧ n ≠ 0 := by
  obtain ⟨recs, lines, total, -, h1, h2, -, h3⟩ := C62_lines reserved allocs values profilable.values [1, 2, 3, 4, 5] profilable.nodup profilable.reachable bytes
    profilable.cells 5 (by simp) ord ord'
  exact ⟨recs, lines, total, h1, h2, h3⟩

theorem values_inMemory : ∀ d ∈ values, d.InMemory := by
  simp [values, u8, u32, usize, text, thinValue, tString, tValue, t, Datum.InMemory, Datum.InMemoryAll, Datum.sizes, Datum.size, Datum.value, Datum.values, Impl.plain, Impl.string,
    Impl.sized, Impl.jsonValue, Impl.jsonMap, Impl.slice, Impl.str, Impl.osStr, Impl.headerWithLength, Usize.mul, Usize.modulus, ptrBytes_x64]

/-- The same for C60. -/
theorem snapshot : Snapshot allocs values [1, 2, 3, 4, 5] bytes where
  values := fun d hd => ⟨values_wf d hd, values_inMemory d hd⟩
  nodup := by simp
  reachable := reach
  cells := by
    intro p hp
    obtain ⟨h1, -, -, h4, h5, h6⟩ := cells_ok p hp
    refine ⟨h1, ?_, h4, h5, h6⟩
    have ht := values_inMemory thinValue (by simp [values])
    have hx := values_inMemory text (by simp [values])
    have h8 := values_inMemory u8 (by simp [values])
    unfold allocs
    repeat' split
    all_goals first | exact hx | exact ht | exact h8 | trivial

/-- C60: no stack is larger than 3491. -/
example (ord : HashOrder TreeId) :
    ∃ out, run ord (visits (fun p => (allocs p).cell.visit) 5 (values.map fun d => d.value.visit)) = .ok out ∧ ∀ p n, out.flamegraph.selfAt p = some n → n ≤ 3491 := by
  have := C60_stack_bound allocs values [1, 2, 3, 4, 5] bytes snapshot 5 (by simp) ord
  rwa [show memory allocs values [1, 2, 3, 4, 5] bytes = 3491 from sums.1] at this

end Showcase
end Allocative
