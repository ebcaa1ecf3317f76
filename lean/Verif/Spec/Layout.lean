import Verif.Model.Usize
/-
Specification of `#[repr(C)]` struct layouts (the Rust reference), for C36 and C50.
-/
namespace Allocative

/-- `m` is the smallest multiple of `a` that is at least `n`. -/
def LeastMultiple (a n m : Nat) : Prop := a ∣ m ∧ n ≤ m ∧ ∀ k, a ∣ k → n ≤ k → m ≤ k

/-- Placing fields one after another, each at the least multiple of its alignment: offsets and the end of the last one. -/
inductive PlaceFields : Nat → List Layout → List Nat → Nat → Prop
  | nil (s) : PlaceFields s [] [] s
  | cons {s off e} {f : Layout} {fs offs} : LeastMultiple f.align s off → PlaceFields (off + f.size) fs offs e →
      PlaceFields s (f :: fs) (off :: offs) e

/-- The greatest alignment of some fields (1 if there are none). -/
def maxAlign : List Layout → Nat
  | [] => 1
  | f :: fs => max f.align (maxAlign fs)

/-- Layout and field offsets of a `#[repr(C)]` struct. -/
def ReprC (fields : List Layout) (offsets : List Nat) (l : Layout) : Prop :=
  ∃ e, PlaceFields 0 fields offsets e ∧ l.align = maxAlign fields ∧ LeastMultiple l.align e l.size

/-- The smallest power of two that is at least `n`. -/
def IsLeastPow2 (n m : Nat) : Prop := (∃ k, m = 2 ^ k) ∧ n ≤ m ∧ ∀ j, n ≤ 2 ^ j → m ≤ 2 ^ j

/-- Layout of `usize` and `AtomicUsize`. -/
def usizeLayout [Target] : Layout := ⟨ptrBytes, ptrBytes⟩

/-- Layouts of Rust types and values: the alignment is a power of two (at most 2^29), the size at most `isize::MAX`. -/
def Layout.Valid [Target] (l : Layout) : Prop := (∃ k, k ≤ 29 ∧ l.align = 2 ^ k) ∧ l.size ≤ Layout.isizeMax

end Allocative
