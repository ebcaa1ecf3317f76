import Verif.Spec.Report
import Verif.Model.Alloc
/-
What the names of types and fields must be like so that no stack is entered both as unique and as inline (C59): facts about `std::any::type_name` and Rust identifiers.
-/
namespace Allocative

/-- Ways in which a type owns memory, as far as labels are concerned. -/
inductive Role where
  /-- a unique pointer below the label `ptr`: `Box`, `Vec`, `VecDeque`, `String`, `PathBuf`, `CompactString`, `SmallVec`, `Slab`, `DashMap`, `DashSet`, `BigUint`, `Bump` -/
  | ptr
  /-- a unique pointer below the label `data` (and `raw_table`): hashbrown's and indexmap's types, serde_json's `Map` -/
  | data
  /-- anything else -/
  | other
deriving DecidableEq

/-- The role of the type of a value. -/
def Datum.role : Datum → Role
  | .box .. | .vec .. | .vecDeque .. | .string .. | .pathBuf .. | .compactString .. | .smallVecInline .. | .smallVecSpilled .. | .slab .. | .dashMap .. | .dashSet .. |
    .bigInt .. | .bump .. => .ptr
  | .hashTable .. | .indexSet .. | .indexMap .. | .jsonMap .. => .data
  | _ => .other

/-- The name of a type is none of the labels for unique pointers.  (All type names other than those of primitives contain `::` or brackets.) -/
def Ty.Named (T : Ty) : Prop := T.name ≠ ascii "ptr" ∧ T.name ≠ ascii "data" ∧ T.name ≠ ascii "raw_table"

/-- Names that are not those of types that own memory: two labels, and the private type in triomphe.rs. -/
def Reserved (ρ : Str → Role) : Prop :=
  ρ (ascii "ptr") = .other ∧ ρ (ascii "capacity") = .other ∧ ρ (ascii "allocative::impls::triomphe::ArcInnerRepr") = .other

mutual
/-- `ρ` says which role the type with a certain name has, and all types in the value have the role that belongs to their names.  Names of enum variants are not names of types
that own memory.  Slices and arrays do not have elements of types with the role `data`: slices are labelled like their elements. -/
def Datum.Named (ρ : Str → Role) : Datum → Prop
  | .plain self => self.Named ∧ ρ self.name = .other
  | .hollow _ _ => True
  | .str _ _ => True
  | .osStr _ _ => True
  | .box self _ v => self.Named ∧ ρ self.name = .ptr ∧ v.Named ρ
  | .ok self v => self.Named ∧ ρ self.name = .other ∧ v.Named ρ
  | .err self v => self.Named ∧ ρ self.name = .other ∧ v.Named ρ
  | .none self => self.Named ∧ ρ self.name = .other
  | .some self v => self.Named ∧ ρ self.name = .other ∧ v.Named ρ
  | .left self v => self.Named ∧ ρ self.name = .other ∧ v.Named ρ
  | .right self v => self.Named ∧ ρ self.name = .other ∧ v.Named ρ
  | .vec self T items _ => self.Named ∧ ρ self.name = .ptr ∧ T.Named ∧ Datum.NamedAll ρ items
  | .vecDeque self T front back _ => self.Named ∧ ρ self.name = .ptr ∧ T.Named ∧ Datum.NamedAll ρ front ∧ Datum.NamedAll ρ back
  | .string self _ _ => self.Named ∧ ρ self.name = .ptr
  | .pathBuf self _ _ => self.Named ∧ ρ self.name = .ptr
  | .compactString self _ _ _ => self.Named ∧ ρ self.name = .ptr
  | .slice _ T items => T.Named ∧ ρ T.name ≠ .data ∧ Datum.NamedAll ρ items
  | .array _ T items => T.Named ∧ ρ T.name ≠ .data ∧ Datum.NamedAll ρ items
  | .tuple self fields => self.Named ∧ ρ self.name = .other ∧ Datum.NamedAll ρ fields
  | .manuallyDrop self v => self.Named ∧ ρ self.name = .other ∧ v.Named ρ
  | .cell self _ v => self.Named ∧ ρ self.name = .other ∧ v.Named ρ
  | .cellEmpty self => self.Named ∧ ρ self.name = .other
  | .onceCell self v => self.Named ∧ ρ self.name = .other ∧ v.Named ρ
  | .onceCellEmpty self => self.Named ∧ ρ self.name = .other
  | .map self _ keys values => self.Named ∧ ρ self.name = .other ∧ Datum.NamedAll ρ keys ∧ Datum.NamedAll ρ values
  | .set self _ items => self.Named ∧ ρ self.name = .other ∧ Datum.NamedAll ρ items
  | .smallVecInline self _ items => self.Named ∧ ρ self.name = .ptr ∧ Datum.NamedAll ρ items
  | .smallVecSpilled self _ items _ => self.Named ∧ ρ self.name = .ptr ∧ Datum.NamedAll ρ items
  | .slab self T _ items _ => self.Named ∧ ρ self.name = .ptr ∧ T.Named ∧ Datum.NamedAll ρ items
  | .arc self _ _ => self.Named ∧ ρ self.name = .other
  | .weakDangling self => self.Named ∧ ρ self.name = .other
  | .weak self strong _ _ => self.Named ∧ ρ self.name = .other ∧ strong.Named ∧ ρ strong.name = .other
  | .hashTable self T items _ _ => self.Named ∧ ρ self.name = .data ∧ T.Named ∧ Datum.NamedAll ρ items
  | .indexSet self _ items _ _ _ => self.Named ∧ ρ self.name = .data ∧ Datum.NamedAll ρ items
  | .indexMap self _ _ _ keys values _ _ _ => self.Named ∧ ρ self.name = .data ∧ Datum.NamedAll ρ keys ∧ Datum.NamedAll ρ values
  | .dashMap self _ _ _ _ keys values _ _ _ => self.Named ∧ ρ self.name = .ptr ∧ Datum.NamedAll ρ keys ∧ Datum.NamedAll ρ values
  | .dashSet self _ _ items _ _ _ => self.Named ∧ ρ self.name = .ptr ∧ Datum.NamedAll ρ items
  | .bigInt self _ _ => self.Named ∧ ρ self.name = .ptr
  | .bump self _ _ _ => self.Named ∧ ρ self.name = .ptr
  | .jsonMap self _ keys values => self.Named ∧ ρ self.name = .data ∧ Datum.NamedAll ρ keys ∧ Datum.NamedAll ρ values
  | .jsonLeaf self => self.Named ∧ ρ self.name = .other
  | .json self _ v => self.Named ∧ ρ self.name = .other ∧ v.Named ρ
  | .futuresPending self => self.Named ∧ ρ self.name = .other
  | .futuresShared self _ => self.Named ∧ ρ self.name = .other
  | .headerSlice self _ header tail => self.Named ∧ ρ self.name = .other ∧ header.Named ρ ∧ tail.Named ρ
  | .headerWithLength self header len => self.Named ∧ ρ self.name = .other ∧ header.Named ρ ∧ len.Named ρ
  | .struct self _ _ fields => self.Named ∧ ρ self.name = .other ∧ Datum.NamedAll ρ fields
  | .enum self variant _ fields => self.Named ∧ ρ self.name = .other ∧ ρ variant = .other ∧ Datum.NamedAll ρ fields
  | .unit self _ _ => self.Named ∧ ρ self.name = .other
/-- Pointwise. -/
def Datum.NamedAll (ρ : Str → Role) : List Datum → Prop
  | [] => True
  | d :: ds => d.Named ρ ∧ Datum.NamedAll ρ ds
end

/-- The same for a shared allocation. -/
def Cell.Named (ρ : Str → Role) : Cell → Prop
  | .arc _ v => v.Named ρ
  | .rc _ v => v.Named ρ
  | .triomphe _ v => v.Named ρ
  | .thin repr _ v => repr.Named ∧ ρ repr.name = .other ∧ v.Named ρ
  | .future v => v.Named ρ

/-- The roles of the types of std and of the supported crates, going by the names that `std::any::type_name` gives them.  (An instance; theorems hold for any `ρ`.) -/
def roleOfName (name : Str) : Role :=
  if ["alloc::boxed::Box<", "alloc::vec::Vec<", "alloc::collections::vec_deque::VecDeque<", "alloc::string::String", "std::path::PathBuf", "compact_str::CompactString",
      "smallvec::SmallVec<", "slab::Slab<", "dashmap::DashMap<", "dashmap::set::DashSet<", "num_bigint::", "bumpalo::Bump"].any fun x => (ascii x).isPrefixOf name then .ptr
  else if ["hashbrown::", "indexmap::", "serde_json::map::Map<"].any fun x => (ascii x).isPrefixOf name then .data
  else .other

end Allocative
