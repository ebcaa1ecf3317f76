import Verif.Model.Pointers
import Verif.Spec.Layout
/-
Where allocations are in memory (C53).
-/
namespace Allocative

/-- The allocation occupies the addresses from `lo` up to but not including `hi`, and is a possible one: laid out as a `repr(C)` struct of two `usize` and the value (std);
at least one `usize` (triomphe); at least two `usize` and then the result somewhere (futures). -/
inductive SharedAlloc.Occupies [Target] : SharedAlloc → Nat → Nat → Prop
  | std {base : Nat} {val l o} : val.Valid → ReprC [usizeLayout, usizeLayout, val] [0, ptrBytes, o] l → l.size ≤ Layout.isizeMax →
      Occupies (.std base val) base (base + l.size)
  | triomphe {base size : Nat} : ptrBytes ≤ size → Occupies (.triomphe base size) base (base + size)
  | future {base size offset len : Nat} : 2 * ptrBytes ≤ offset → offset + len ≤ size → Occupies (.future base size offset len) base (base + size)

/-- What the allocator guarantees: live allocations do not overlap. -/
def SharedAlloc.Disjoint [Target] (a b : SharedAlloc) : Prop :=
  ∀ lo hi lo' hi', a.Occupies lo hi → b.Occupies lo' hi' → hi ≤ lo' ∨ hi' ≤ lo

/-- The allocation ends with a value (result) of size zero. -/
def SharedAlloc.EndsEmpty : SharedAlloc → Prop
  | .std _ val => val.size = 0
  | .triomphe _ _ => False
  | .future _ size offset len => len = 0 ∧ offset = size

/-- It is one of triomphe's. -/
def SharedAlloc.IsTriomphe : SharedAlloc → Prop
  | .triomphe _ _ => True
  | _ => False

/-- `a` ends with a value of size zero where `b`, one of triomphe's, begins. -/
def SharedAlloc.Abuts [Target] (a b : SharedAlloc) : Prop :=
  a.EndsEmpty ∧ b.IsTriomphe ∧ ∃ lo m hi, a.Occupies lo m ∧ b.Occupies m hi

end Allocative
