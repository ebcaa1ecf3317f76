import Verif.Model.Impls
import Verif.Spec.Object
import Verif.Model.SizeOf
/-
Validation of the model against the golden files of the repository (allocative/src/impls/**/*.src) and the
unit tests of flamegraph.rs, size_of.rs, bumpalo.rs, lib.rs and test_derive/with_flamegraph.rs): the flame graph text computed by the model for the value of each test is
the text in the file.  These are tests of the model, not claims.
-/
namespace Allocative.Golden
open Allocative

def ty (name : String) (size : Nat) (needsDrop : Bool := true) : Ty := ⟨ascii name, size, needsDrop⟩

/-- `make_golden`, golden.rs:33-36: one root, then `finish_and_write_flame_graph`. -/
def text (heap : Heap) (fuel : Nat) (v : Value) : Option Str :=
  match observe (HashOrder.id _) (HashOrder.id _) (visits heap fuel [v.visit]) with
  | .ok o => some o.text
  | .error _ => none

def noHeap : Heap := fun _ => .nil

def stringTy : Ty := ty "alloc::string::String" 24
def string [Target] (s : String) : Value := Impl.string stringTy s.length s.length
def u8v : Value := Impl.plain Impl.u8

-- cell_test_default.src
attribute [local instance] Target.x64 in
example : text noHeap 0 (Impl.cell (ty "core::cell::RefCell<alloc::string::String>" 32) (some (string "abc"))) = some (ascii
"core::cell::RefCell<alloc::string::String> 8
core::cell::RefCell<alloc::string::String>;data;alloc::string::String 16
core::cell::RefCell<alloc::string::String>;data;alloc::string::String;ptr 8
core::cell::RefCell<alloc::string::String>;data;alloc::string::String;ptr;capacity;u8 3
") := by decide +kernel

-- cell_test_borrowed.src
example : text noHeap 0 (Impl.cell (ty "core::cell::RefCell<alloc::string::String>" 32) none) = some (ascii
"core::cell::RefCell<alloc::string::String> 32
") := by decide +kernel

-- cell_test_once_cell.src
attribute [local instance] Target.x64 in
example : text noHeap 0 (Impl.cell (ty "core::cell::once::OnceCell<alloc::string::String>" 24) (some (string "abc"))) = some (ascii
"core::cell::once::OnceCell<alloc::string::String>;data;alloc::string::String 16
core::cell::once::OnceCell<alloc::string::String>;data;alloc::string::String;ptr 8
core::cell::once::OnceCell<alloc::string::String>;data;alloc::string::String;ptr;capacity;u8 3
") := by decide +kernel

-- compact_str_test_inline.src
attribute [local instance] Target.x64 in
example : text noHeap 0 (Impl.compactString (ty "compact_str::CompactString" 24) false 3 24) = some (ascii
"compact_str::CompactString 24
") := by decide +kernel

-- compact_str_test_heap.src
attribute [local instance] Target.x64 in
example : text noHeap 0 (Impl.compactString (ty "compact_str::CompactString" 24) true 300 300) = some (ascii
"compact_str::CompactString 16
compact_str::CompactString;ptr 8
compact_str::CompactString;ptr;str 300
") := by decide +kernel

-- either_test_golden.src
example : text noHeap 0 (Impl.either (ty "either::Either<u32, alloc::string::String>" 24) (.inl (Impl.plain (ty "u32" 4 false)))) = some (ascii
"either::Either<u32, alloc::string::String> 20
either::Either<u32, alloc::string::String>;Left;u32 4
") := by decide +kernel

-- hashbrown_test_hash_table.src: capacity 100 gives 128 buckets, and 112 = 7/8 * 128 is the capacity reported
attribute [local instance] Target.x64 in
example : text noHeap 0 (Impl.hashTable (ty "hashbrown::table::HashTable<alloc::string::String>" 32) stringTy
    ((List.range 100).map fun i => string (toString i)) 112) = some (ascii
"hashbrown::table::HashTable<alloc::string::String> 24
hashbrown::table::HashTable<alloc::string::String>;data 8
hashbrown::table::HashTable<alloc::string::String>;data;capacity 800
hashbrown::table::HashTable<alloc::string::String>;data;capacity;alloc::string::String 1600
hashbrown::table::HashTable<alloc::string::String>;data;capacity;alloc::string::String;ptr 800
hashbrown::table::HashTable<alloc::string::String>;data;capacity;alloc::string::String;ptr;capacity;u8 190
") := by decide +kernel

-- triomphe_test_align.src
attribute [local instance] Target.x64 in
example : text (fun _ => Impl.triompheInner (((Impl.triompheLayout ⟨1, 1⟩).getD ⟨0, 1⟩).size) u8v) 1
    (Impl.arc (ty "triomphe::arc::Arc<u8>" 8) 8 1000) = some (ascii
"allocative::impls::triomphe::ArcInnerRepr 15
allocative::impls::triomphe::ArcInnerRepr;data;u8 1
triomphe::arc::Arc<u8>;ptr 8
") := by decide +kernel

def trStringHeap [Target] (n : Nat) : Heap := fun _ =>
  Impl.triompheInner (((Impl.triompheLayout ⟨24, 8⟩).getD ⟨0, 1⟩).size) (Impl.string stringTy n n)
def trArc : Value := Impl.arc (ty "triomphe::arc::Arc<alloc::string::String>" 8) 8 1000

-- triomphe_test_simple.src
attribute [local instance] Target.x64 in
example : text (trStringHeap 3) 1 trArc = some (ascii
"allocative::impls::triomphe::ArcInnerRepr 8
allocative::impls::triomphe::ArcInnerRepr;data;alloc::string::String 16
allocative::impls::triomphe::ArcInnerRepr;data;alloc::string::String;ptr 8
allocative::impls::triomphe::ArcInnerRepr;data;alloc::string::String;ptr;capacity;u8 3
triomphe::arc::Arc<alloc::string::String>;ptr 8
") := by decide +kernel

-- triomphe_test_shared.src
attribute [local instance] Target.x64 in
example : text (trStringHeap 100) 1
    (Impl.vec (ty "alloc::vec::Vec<triomphe::arc::Arc<alloc::string::String>>" 24) trArc.ty [trArc, trArc, trArc] 3) = some (ascii
"alloc::vec::Vec<triomphe::arc::Arc<alloc::string::String>> 16
alloc::vec::Vec<triomphe::arc::Arc<alloc::string::String>>;ptr 8
alloc::vec::Vec<triomphe::arc::Arc<alloc::string::String>>;ptr;triomphe::arc::Arc<alloc::string::String>;ptr 24
allocative::impls::triomphe::ArcInnerRepr 8
allocative::impls::triomphe::ArcInnerRepr;data;alloc::string::String 16
allocative::impls::triomphe::ArcInnerRepr;data;alloc::string::String;ptr 8
allocative::impls::triomphe::ArcInnerRepr;data;alloc::string::String;ptr;capacity;u8 100
") := by decide +kernel

-- sync_test_arc_align.src; `ArcInner` of a value of size and alignment 64
def cacheLine : Value :=
  Impl.sized (ty "allocative::impls::std::sync::tests::CacheLine" 64)
    (Visit.enterSelf (ty "allocative::impls::std::sync::tests::CacheLine" 64) 64 .exit (Visit.field (Key.new (ascii "0")) u8v))

attribute [local instance] Target.x64 in
example : text (fun _ => Impl.arcInner (((Impl.rcBoxLayout ⟨64, 64⟩).getD ⟨0, 1⟩).size) cacheLine) 1
    (Impl.arc (ty "alloc::sync::Arc<allocative::impls::std::sync::tests::CacheLine>" 8) 8 4096) = some (ascii
"ArcInner 64
ArcInner;allocative::impls::std::sync::tests::CacheLine 63
ArcInner;allocative::impls::std::sync::tests::CacheLine;0;u8 1
alloc::sync::Arc<allocative::impls::std::sync::tests::CacheLine>;ptr 8
") := by decide +kernel

-- test_derive/with_flamegraph.rs:17-46
def testDataTy : Ty := ty "allocative::test_derive::with_flamegraph::TestData" 24
def testData [Target] : Value :=
  Impl.sized testDataTy (Visit.enterSelf testDataTy 24 .exit
    (Obj.append
      (Visit.field (Key.new (ascii "data"))
        (Impl.box (ty "alloc::boxed::Box<[u8]>" 16) 16 (Impl.slice (ty "[u8]" 100) Impl.u8 (List.replicate 100 u8v))))
      (Visit.field (Key.new (ascii "b")) u8v)))

attribute [local instance] Target.x64 in
example : text noHeap 0 testData = some (ascii
"allocative::test_derive::with_flamegraph::TestData 7
allocative::test_derive::with_flamegraph::TestData;b;u8 1
allocative::test_derive::with_flamegraph::TestData;data;alloc::boxed::Box<[u8]>;ptr 16
allocative::test_derive::with_flamegraph::TestData;data;alloc::boxed::Box<[u8]>;ptr;u8;data;u8 100
") := by decide +kernel

/-! ### Unit tests of flamegraph.rs:497-637 -/

def key (s : String) : Key := Key.new (ascii s)

/-- The arena after `finish_impl` and the identifier of the root. -/
def arena (p : Prog) : List (List (Key × Nat) × Nat × Int) × Nat :=
  match Builder.default.useRoots [(p, .exit)] with
  | .ok b =>
    match b.finishImpl (HashOrder.id _) with
    | .ok (trees, root) => (trees.map fun d => (d.children, d.size, d.remSize), root)
    | .error _ => ([], 0)
  | .error _ => ([], 0)

def written (p : Prog) : Option Str :=
  match observe (HashOrder.id _) (HashOrder.id _) [(p, .exit)] with
  | .ok o => some o.text
  | .error _ => none

-- test_empty (one tree: the root; no text)
example : arena .done = ([([], 0, 0)], 0) := by
  decide +kernel
example : written .done = some [] := by decide +kernel

-- test_simple
example : arena (.enter (key "a") 10 .exit .done .done) = ([([(key "a", 1)], 0, -10), ([], 10, 10)], 0) := by decide +kernel
example : written (.enter (key "a") 10 .exit .done .done) = some (ascii "a 10\n") := by decide +kernel

-- test_unique
example : written (.enter (key "Struct") 10 .exit
    (.enter (key "a") 3 .exit .done (.enterUnique (key "p") 6 .exit (.enter (key "x") 13 .exit .done .done) .done)) .done)
    = some (ascii "Struct 1\nStruct;a 3\nStruct;p 6\nStruct;p;x 13\n") := by decide +kernel

-- test_shared
def sharedStruct (rest : Prog) : Prog := .enter (key "Struct") 10 .exit
    (.enter (key "a") 3 .exit .done (.enterShared (key "p") 6 1000 .exit (.enter (key "Shared") 13 .exit .done .done) .done .done)) rest

example : written (sharedStruct (sharedStruct .done))
    = some (ascii "Shared 13\nStruct 2\nStruct;a 6\nStruct;p 12\n") := by decide +kernel

-- test_inline_children_too_large
example : (match observe (HashOrder.id _) (HashOrder.id _)
      [(.enter (key "a") 10 .exit (.enter (key "b") 13 .exit .done .done) .done, .exit)] with
    | .ok o => some (o.text, o.warnings)
    | .error _ => none)
    = some (ascii "a;b 13\n",
        ascii "Incorrect size declaration for node `a`, size of self: 10, size of inline children: 13\n") := by decide +kernel

-- test_flamegraph_add
example : (FlameGraph.default.add (FlameGraph.default.addChild (key "x") (FlameGraph.default.addSelf 10))).totalSize = 10 := by
  decide +kernel

/-! ### Unit tests of size_of.rs:115-197 -/

/-- Value of a derived struct. -/
def struct (name : String) (size : Nat) (fields : List (String × Value)) : Value :=
  Impl.sized (ty name size) (Visit.enterSelf (ty name size) size .exit
    (Obj.concat (fields.map fun f => Visit.field (key f.1) f.2)))

def sizes (v : Value) : Option (Option Nat × Option Nat) :=
  match SizeOf.sizeOfUniqueAllocatedData (noHeap.visit 0 v.visit), SizeOf.sizeOfUnique v.ty.size (noHeap.visit 0 v.visit) with
  | .ok a, .ok b => some (a, b)
  | _, _ => none

def u32v : Value := Impl.plain (ty "u32" 4 false)
def boxU32 : Value := Impl.box (ty "alloc::boxed::Box<u32>" 8) 8 u32v

-- test_box
example : sizes (struct "Boxed" 8 [("data", boxU32)]) = some (some 4, some 12) := by decide +kernel
-- test_box_slice
attribute [local instance] Target.x64 in
example : sizes (struct "Boxed" 16 [("data", Impl.box (ty "alloc::boxed::Box<[u32]>" 16) 16 (Impl.slice (ty "[u32]" 12) u32v.ty [u32v, u32v, u32v]))])
    = some (some 12, some 28) := by decide +kernel
-- test_struct_in_box
example : sizes (struct "Boxed" 8 [("data", Impl.box (ty "alloc::boxed::Box<Data>" 8) 8 (struct "Data" 16 [("a", u8v), ("b", boxU32)]))])
    = some (some 20, some 28) := by decide +kernel
-- size_of.rs:92-106 (documentation): `Foo { data: vec![10, 20, 30] }`
attribute [local instance] Target.x64 in
example : sizes (struct "Foo" 24 [("data", Impl.vec (ty "alloc::vec::Vec<u8>" 24) Impl.u8 [u8v, u8v, u8v] 3)])
    = some (some 3, some 27) := by decide +kernel

-- lib.rs:115-118 (`ident_key!` expands to `Key::new(stringify!(foo))`) with two keys of equal text
example : Key.new (ascii "foo") = key "foo" ∧ Key.new (ascii "foo") ≠ key "bar" := by decide +kernel

-- impls/bumpalo.rs:60-90: one chunk with 4 used bytes; unused = allocated - used
attribute [local instance] Target.x64 in
example : text noHeap 0 (Impl.bump (ty "bumpalo::Bump" 24) 448 [4]) = some (ascii
"bumpalo::Bump 16
bumpalo::Bump;ptr 8
bumpalo::Bump;ptr;data 4
bumpalo::Bump;ptr;unused_capacity 444
") := by decide +kernel

end Allocative.Golden
