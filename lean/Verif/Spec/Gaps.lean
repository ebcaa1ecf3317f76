import Verif.Spec.Records
import Verif.Model.Datum
import Verif.Spec.Datum
/-
Specification for C62: the bytes of a value that are in none of its parts.
-/
namespace Allocative

/-- Is a stack properly below another? -/
def below (p q : Path) : Prop := p <+: q ∧ q ≠ p

instance (p q : Path) : Decidable (below p q) := by unfold below; infer_instance

/-- `r` is a record and `later` are those made after it: the records made while `r` was entered, that is, up to the first whose stack is not below that of `r`. -/
def madeInside (r : Rec) (later : List Rec) : List Rec := later.takeWhile fun x => below r.path x.path

/-- The bytes of a record that are in none of the records directly inside it.  What is inside of a unique pointer is elsewhere, so it has all its bytes. -/
def gap (r : Rec) (later : List Rec) : Nat :=
  if r.unique then r.size else r.size - childrenAt (madeInside r later) r.path

/-- The sum of these bytes for all records with a certain stack. -/
def gapsAt : List Rec → Path → Nat
  | [], _ => 0
  | r :: later, p => (if r.path = p then gap r later else 0) + gapsAt later p

/-- Each record has room for what is directly inside it (so that nothing is cut off by the subtraction in `gap`). -/
def Roomy : List Rec → Prop
  | [] => True
  | r :: later => (r.unique = false → childrenAt (madeInside r later) r.path ≤ r.size) ∧ Roomy later

/-- Sum of the sizes of the fields that are not marked `skip`. -/
def visibleSize [Target] (labels : List (Str × Bool)) (fields : List Datum) : Nat := ((labels.zip fields).map fun x => if x.1.2 then 0 else x.2.size).sum

/-- `later` are the records that come after something was visited at stack `cur`: the first, if any, is not inside of anything that was entered at `cur`. -/
def Next (cur : Path) (later : List Rec) : Prop := ∀ x ∈ later.head?, ¬ (cur <+: x.path ∧ cur.length + 1 < x.path.length)

/-- Of the bytes of the value itself, how many have a line of their own below the line of the value: the values inside of it, and its pointers to the heap.
The rest are discriminants, padding, lengths, hashers, skipped fields and whatever else has no part of its own. -/
def Datum.subdivided [Target] : Datum → Nat
  -- a pointer to what it owns (or shares)
  | .box _ ptrSize _ | .arc _ ptrSize _ => ptrSize
  | .vec _ T _ capacity | .vecDeque _ T _ _ capacity | .slab _ T _ _ capacity => if capacity = 0 ∨ T.size = 0 then 0 else ptrBytes
  | .pathBuf _ _ capacity => if capacity = 0 then 0 else ptrBytes
  | .compactString _ heapAllocated _ _ => if heapAllocated then ptrBytes else 0
  | .string _ _ _ | .map _ _ _ _ | .set _ _ _ | .smallVecSpilled _ _ _ _ | .hashTable _ _ _ _ _ | .dashMap _ _ _ _ _ _ _ _ _ _ | .dashSet _ _ _ _ _ _ _ | .bigInt _ _ _
  | .bump _ _ _ _ | .jsonMap _ _ _ _ | .futuresShared _ _ => ptrBytes
  -- the entries, and the table of indices if there are any
  | .indexSet _ _ items _ _ _ => if items = [] then ptrBytes else 2 * ptrBytes
  | .indexMap _ _ _ _ keys _ _ _ _ => if keys = [] then ptrBytes else 2 * ptrBytes
  -- the pointer that `upgrade` returns
  | .weak _ strong _ _ => strong.size
  -- values inside of the value
  | .ok _ v | .err _ v | .some _ v | .left _ v | .right _ v | .manuallyDrop _ v | .json _ _ v => v.size
  | .cell _ accessible v => if accessible then v.size else 0
  | .onceCell _ v => if v.isOpaque then 0 else v.size
  | .slice _ _ items | .array _ _ items | .tuple _ items | .smallVecInline _ _ items => Datum.sizes items
  | .headerSlice _ _ header tail => header.size + tail.size
  | .headerWithLength _ header len => header.size + len.size
  | .struct _ _ labels fields => visibleSize labels fields
  -- the line of the variant, which has all the bytes
  | .enum self _ _ _ => self.size
  | .plain _ | .hollow _ _ | .str _ _ | .osStr _ _ | .none _ | .cellEmpty _ | .onceCellEmpty _ | .weakDangling _ | .jsonLeaf _ | .futuresPending _ | .unit _ _ _ => 0

end Allocative
