import Verif.Model.Datum
/-
Shared allocations and the sizes that are computed for them (impls/std/sync.rs:46-64, impls/triomphe.rs:41-110).  In Model/Datum.lean the size of a `Cell` is a
parameter; here it is computed as the code does, from the layout of the value.
-/
namespace Allocative

/-- An allocation behind a shared pointer, with what `Layout::for_value` says about the value in it.
Models impls/std/sync.rs:46-64, impls/triomphe.rs:45-50, 61-66, 82-84, 95-100, impls/futures.rs:29-34. -/
inductive Alloc where
  /-- behind `std::sync::Arc`; `align` is `align_of_val` of the value -/
  | arc (align : Nat) (v : Datum)
  /-- behind `std::rc::Rc` -/
  | rc (align : Nat) (v : Datum)
  /-- behind `triomphe::Arc` -/
  | triomphe (align : Nat) (v : Datum)
  /-- behind `triomphe::ThinArc<H, T>`: layouts of `H`, of `T`, of `ThinArcInnerRepr<H>`, which is named `repr`, the length of the slice; the value is a
  `HeaderSlice<HeaderWithLength<H>, [T]>` -/
  | thin (header elem reprLayout : Layout) (repr : Ty) (len : Nat) (v : Datum)
  /-- the result of a `futures::future::Shared` (no allocation of its own is reported) -/
  | future (v : Datum)

/-- The value.
Models the `val`, `self` or `result` visited at impls/std/sync.rs:83, 121, impls/triomphe.rs:70-73, 103, impls/futures.rs:35. -/
def Alloc.value : Alloc → Datum
  | .arc _ v => v
  | .rc _ v => v
  | .triomphe _ v => v
  | .thin _ _ _ _ _ v => v
  | .future v => v

/-- The layout computed for the allocation: `RcBox::layout(val)` (sync.rs:54-64, used in 80-82 and 120), `Layout::new::<ArcInnerRepr>().extend(..)`
(triomphe.rs:95-100), `Layout::new::<ThinArcInnerRepr<H>>().extend(..)` (triomphe.rs:61-66).  `none` is a panic in `unwrap`. -/
def Alloc.layout [Target] : Alloc → Option Layout
  | .arc align v => Impl.rcBoxLayout ⟨v.value.sizeOfVal, align⟩
  | .rc align v => Impl.rcBoxLayout ⟨v.value.sizeOfVal, align⟩
  | .triomphe align v => Impl.triompheLayout ⟨v.value.sizeOfVal, align⟩
  | .thin _ elem reprLayout _ len _ => Impl.thinArcLayout reprLayout elem len
  | .future v => some ⟨v.value.sizeOfVal, 1⟩

/-- The cell that is visited, with the size of the computed layout.  (Where the layout is `none` the code panics; `C59_footprint` includes that this does not happen
for allocations that exist.) Models impls/std/sync.rs:79-85, 118-123, impls/triomphe.rs:61-74, 95-105, impls/futures.rs:35. -/
def Alloc.cell [Target] (a : Alloc) : Cell :=
  let size := match a.layout with
    | some l => l.size
    | none => 0
  match a with
  | .arc _ v => .arc size v
  | .rc _ v => .rc size v
  | .triomphe _ v => .triomphe size v
  | .thin _ _ _ repr _ v => .thin repr size v
  | .future v => .future v

end Allocative
