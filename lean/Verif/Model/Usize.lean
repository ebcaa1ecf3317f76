/-
The targets, machine arithmetic and `std::alloc::Layout`, as used by the `Allocative` implementations.
-/
namespace Allocative

/-- The width of `usize` and of thin pointers (targets with std). Models the `usize` of flamegraph.rs, size_of.rs, visitor.rs. -/
inductive Word where
  | bits32 | bits64
deriving DecidableEq

/-- The target that the program is compiled for.  Definitions and theorems with `[Target]` are about every target.
Models what `size_of::<usize>()` of visitor.rs:223, 237 depends on. -/
class Target where
  word : Word

/-- 64-bit targets, for concrete cases. Models the same. -/
@[reducible] def Target.x64 : Target := ⟨.bits64⟩

/-- 32-bit targets, for concrete cases. Models the same. -/
@[reducible] def Target.x32 : Target := ⟨.bits32⟩

/-- `size_of::<usize>()`, `size_of::<*const ()>()`. Models visitor.rs:223, 237, impls/dashmap.rs:34. -/
def ptrBytes [Target] : Nat :=
  match Target.word with
  | .bits32 => 4
  | .bits64 => 8

/-- `usize::MAX + 1`. Models the `usize` of flamegraph.rs, size_of.rs, visitor.rs. -/
def Usize.modulus [Target] : Nat := 2 ^ (8 * ptrBytes)

/-- `isize::MAX + 1`. Models the `isize` of flamegraph.rs:132, 149, 416. -/
def Usize.half [Target] : Nat := 2 ^ (8 * ptrBytes - 1)

theorem Usize.cases [Target] : (ptrBytes = 4 ∧ Usize.modulus = 2 ^ 32 ∧ Usize.half = 2 ^ 31) ∨ (ptrBytes = 8 ∧ Usize.modulus = 2 ^ 64 ∧ Usize.half = 2 ^ 63) := by
  unfold Usize.modulus Usize.half ptrBytes
  cases Target.word <;> simp

theorem ptrBytes_pow [Target] : ∃ k, k ≤ 29 ∧ ptrBytes = 2 ^ k := by
  rcases Usize.cases with ⟨h, -⟩ | ⟨h, -⟩ <;> rw [h]
  · exact ⟨2, by omega, rfl⟩
  · exact ⟨3, by omega, rfl⟩

theorem ptrBytes_pos [Target] : 0 < ptrBytes := by rcases Usize.cases with ⟨h, -⟩ | ⟨h, -⟩ <;> omega

theorem Usize.modulus_eq [Target] : Usize.modulus = 2 * Usize.half := by rcases Usize.cases with ⟨-, h1, h2⟩ | ⟨-, h1, h2⟩ <;> rw [h1, h2] <;> rfl

theorem Usize.modulus_pos [Target] : 0 < Usize.modulus := by rcases Usize.cases with ⟨-, h1, h2⟩ | ⟨-, h1, h2⟩ <;> rw [h1] <;> decide

theorem Usize.half_pos [Target] : 0 < Usize.half := by rcases Usize.cases with ⟨-, h1, h2⟩ | ⟨-, h1, h2⟩ <;> rw [h2] <;> decide

@[simp] theorem ptrBytes_x64 : @ptrBytes Target.x64 = 8 := rfl
@[simp] theorem Usize.modulus_x64 : @Usize.modulus Target.x64 = 2 ^ 64 := rfl
@[simp] theorem Usize.half_x64 : @Usize.half Target.x64 = 2 ^ 63 := rfl
@[simp] theorem ptrBytes_x32 : @ptrBytes Target.x32 = 4 := rfl
@[simp] theorem Usize.modulus_x32 : @Usize.modulus Target.x32 = 2 ^ 32 := rfl
@[simp] theorem Usize.half_x32 : @Usize.half Target.x32 = 2 ^ 31 := rfl

/-- `omega` for each of the targets. -/
macro "word_omega" : tactic => `(tactic|
  (rcases Usize.cases with ⟨hw0, hw1, hw2⟩ | ⟨hw0, hw1, hw2⟩ <;>
    (generalize Usize.modulus = M at *; generalize Usize.half = H at *; generalize ptrBytes = B at *; subst hw0 hw1 hw2; omega)))

/-- `a + b` on `usize`, release build (wraps). Models flamegraph.rs:40, 45, 53, 66, 444, size_of.rs:49. -/
def Usize.add [Target] (a b : Nat) : Nat := (a + b) % Usize.modulus

/-- `a - b` on `usize`, release build (wraps), and `a.wrapping_sub(b)`. Models visitor.rs:214, impls/std/unsorted.rs:91, 107. -/
def Usize.sub [Target] (a b : Nat) : Nat := (a + Usize.modulus - b) % Usize.modulus

/-- `a * b` on `usize`, release build (wraps). Models visitor.rs:196, 210, 214. -/
def Usize.mul [Target] (a b : Nat) : Nat := a * b % Usize.modulus

/-- `a.saturating_sub(b)`. Models impls/dashmap.rs:44, 65. -/
def Usize.saturatingSub (a b : Nat) : Nat := if a < b then 0 else a - b

/-- `usize::next_power_of_two`, for arguments up to `isize::MAX + 1` (std, core/src/num/uint_macros.rs: `1 +` all ones below the
leading one of `n - 1`). -/
def Usize.nextPowerOfTwo (n : Nat) : Nat := if n ≤ 1 then 1 else 2 ^ (Nat.log2 (n - 1) + 1)

/-- `std::alloc::Layout`. Models impls/std/sync.rs:55-63, impls/triomphe.rs:61-66, 95-100. -/
structure Layout where
  size : Nat
  align : Nat
deriving DecidableEq

/-- `isize::MAX`. Models the limit of `extend` at impls/std/sync.rs:59, impls/triomphe.rs:62, 96. -/
def Layout.isizeMax [Target] : Nat := Usize.half - 1

/-- `size` rounded up to a multiple of `align`: `Layout::size_rounded_up_to_custom_align` of std,
`(size + align - 1) & !(align - 1)`; for powers of two this is rounding up (simplification: stated with division).
Models `pad_to_align` at impls/std/sync.rs:62, impls/triomphe.rs:65, 99. -/
def Layout.roundUp (size align : Nat) : Nat := (size + align - 1) / align * align

/-- `Layout::from_size_align`: fails if the size, rounded up to `align`, exceeds `isize::MAX`.
Models inside of `extend`, `array`: impls/std/sync.rs:59, impls/triomphe.rs:62, 96. -/
def Layout.fromSizeAlign [Target] (size align : Nat) : Option Layout :=
  if size + (align - 1) ≤ Layout.isizeMax then some ⟨size, align⟩ else none

/-- `Layout::extend`: the layout of `self` followed by `next`, and the offset of `next`.
Models impls/std/sync.rs:59-60, impls/triomphe.rs:62-63, 96-97. -/
def Layout.extend [Target] (self next : Layout) : Option (Layout × Nat) :=
  let newAlign := max self.align next.align
  let offset := Layout.roundUp self.size next.align
  (Layout.fromSizeAlign (offset + next.size) newAlign).map fun l => (l, offset)

/-- `Layout::pad_to_align`. Models impls/std/sync.rs:62, impls/triomphe.rs:65, 99. -/
def Layout.padToAlign (self : Layout) : Layout := ⟨Layout.roundUp self.size self.align, self.align⟩

/-- `Layout::array::<T>(n)` for an element layout. Models impls/triomphe.rs:62. -/
def Layout.array [Target] (elem : Layout) (n : Nat) : Option Layout := Layout.fromSizeAlign (elem.size * n) elem.align

end Allocative
