import Verif.Model.Alloc
import Verif.Spec.Report
import Verif.Spec.Layout
/-
Specification for C59: how many bytes a shared allocation really has.
-/
namespace Allocative

/-- `n` is the number of bytes of an allocation, according to the `#[repr(C)]` definitions of std's `ArcInner` and `RcInner` (two counters, value), triomphe's
`ArcInner` (counter, data) and, for `ThinArc`, `ArcInner<HeaderSlice<HeaderWithLength<H>, [T]>>`.  Of a `futures::future::Shared` only the result is meant. -/
def Alloc.Occupies [Target] : Alloc → Nat → Prop
  | .arc align v, n => ∃ offs l, ReprC [usizeLayout, usizeLayout, ⟨v.size, align⟩] offs l ∧ n = l.size
  | .rc align v, n => ∃ offs l, ReprC [usizeLayout, usizeLayout, ⟨v.size, align⟩] offs l ∧ n = l.size
  | .triomphe align v, n => ∃ offs l, ReprC [usizeLayout, ⟨v.size, align⟩] offs l ∧ n = l.size
  | .thin header elem _ _ len _, n => ∃ hwl hs inner o2 o3 o4, ReprC [header, usizeLayout] o2 hwl ∧ ReprC [hwl, ⟨elem.size * len, elem.align⟩] o3 hs ∧
      ReprC [usizeLayout, hs] o4 inner ∧ n = inner.size
  | .future v, n => n = v.size

/-- What Rust guarantees about the layouts, and, for `ThinArc`, that the elements are not aligned more strictly than the counter and the header (otherwise the computed
size is too small, C50), and that the value is the `HeaderSlice` of these layouts. -/
def Alloc.Exact [Target] : Alloc → Prop
  | .arc align v => (Layout.mk v.size align).Valid
  | .rc align v => (Layout.mk v.size align).Valid
  | .triomphe align v => (Layout.mk v.size align).Valid
  | .thin header elem reprLayout _ len v => header.Valid ∧ elem.Valid ∧ header.align ∣ header.size ∧ elem.align ∣ elem.size ∧
      (∃ o, ReprC [usizeLayout, header, usizeLayout] o reprLayout) ∧ elem.align ≤ max ptrBytes header.align ∧
      ∃ hwl hs o2 o3, ReprC [header, usizeLayout] o2 hwl ∧ ReprC [hwl, ⟨elem.size * len, elem.align⟩] o3 hs ∧ v.size = hs.size
  | .future _ => True

/-- Bytes of memory of a value: the value itself and the heap memory it owns through unique pointers. -/
def Datum.footprint [Target] (d : Datum) : Nat := d.size + d.heapBytes

/-- Bytes of the footprint of a root that a profile does not contain: those of `Datum.missed`, and the value itself if its visit is empty. -/
def Datum.unseen [Target] (d : Datum) : Nat := d.missed + d.hidden

/-- The same for a shared allocation. -/
def Alloc.unseen [Target] : Alloc → Nat
  | .future v => v.missed + v.hidden
  | a => a.value.missed

end Allocative
