import Verif.Model.Datum
/-
How deep values are inside of each other (C67).
-/
namespace Allocative

mutual
/-- The number of values on the longest way from a value to something inside of it or in memory it owns, itself included; shared pointers are not followed. -/
def Datum.nesting : Datum → Nat
  | .box _ _ v | .ok _ v | .err _ v | .some _ v | .left _ v | .right _ v | .manuallyDrop _ v | .cell _ _ v | .onceCell _ v | .json _ _ v => 1 + v.nesting
  | .vec _ _ items _ | .slice _ _ items | .array _ _ items | .tuple _ items | .set _ _ items | .smallVecInline _ _ items | .smallVecSpilled _ _ items _ | .slab _ _ _ items _
  | .struct _ _ _ items | .enum _ _ _ items | .hashTable _ _ items _ _ | .indexSet _ _ items _ _ _ | .dashSet _ _ _ items _ _ _ => 1 + Datum.deepest items
  | .vecDeque _ _ a b _ | .map _ _ a b | .indexMap _ _ _ _ a b _ _ _ | .dashMap _ _ _ _ _ a b _ _ _ | .jsonMap _ _ a b => 1 + max (Datum.deepest a) (Datum.deepest b)
  | .headerSlice _ _ a b | .headerWithLength _ a b => 1 + max a.nesting b.nesting
  | .plain _ | .hollow _ _ | .str _ _ | .osStr _ _ | .none _ | .string _ _ _ | .pathBuf _ _ _ | .compactString _ _ _ _ | .cellEmpty _ | .arc _ _ _ | .weakDangling _ | .weak _ _ _ _
  | .onceCellEmpty _ | .bigInt _ _ _ | .bump _ _ _ _ | .jsonLeaf _ | .futuresPending _ | .futuresShared _ _ | .unit _ _ _ => 1
/-- The nesting of the deepest of some values. -/
def Datum.deepest : List Datum → Nat
  | [] => 0
  | d :: ds => max d.nesting (Datum.deepest ds)
end

end Allocative
