import Verif.Props.Data
import Verif.Props.Machine
import Verif.Props.Pointers
set_option linter.unusedSimpArgs false
/-
The theorems about layouts and machine arithmetic on a 32-bit target: concrete cases that meet their hypotheses.  (The other files use 64-bit targets.)
-/
namespace Allocative
namespace Word32
attribute [local instance] Target.x32

theorem valid : (⟨1, 64⟩ : Layout).Valid ∧ (⟨5, 1⟩ : Layout).Valid := ⟨⟨⟨6, by omega, rfl⟩, by decide⟩, ⟨⟨0, by omega, rfl⟩, by decide⟩⟩

/-- The allocation of an `Arc<[u8; 5]>`: 4 + 4 + 5 bytes, rounded up to 16 (on a 64-bit target 24). -/
example : Impl.rcBoxLayout ⟨5, 1⟩ = some ⟨16, 4⟩ ∧ @Impl.rcBoxLayout Target.x64 ⟨5, 1⟩ = some ⟨24, 8⟩ := by decide
example := C36_rc_box ⟨5, 1⟩ valid.2
example := C36_bounds ⟨1, 64⟩ valid.1 ⟨128, 64⟩ (by decide)
example := C50_triomphe_arc ⟨5, 1⟩ valid.2
/-- `isize::MAX` is the limit. -/
example : Impl.rcBoxLayout ⟨2 ^ 31 - 13, 1⟩ = some ⟨2 ^ 31 - 4, 4⟩ ∧ Impl.rcBoxLayout ⟨2 ^ 31 - 11, 1⟩ = none := by decide

/-- Two of these `Arc`s next to each other are told apart. -/
theorem arc_at (base : Nat) : SharedAlloc.Occupies (.std base ⟨5, 1⟩) base (base + 16) :=
  .std (l := ⟨16, 4⟩) (o := 8) valid.2
    ⟨13, .cons (.zero 4) (.cons (.self ⟨1, rfl⟩) (.cons (.self ⟨8, rfl⟩) (.nil _))), rfl, ⟨by decide, by decide, by rintro k ⟨c, rfl⟩ h; simp only at h ⊢; omega⟩⟩ (by decide)
example : SharedAlloc.key (.std 0 ⟨5, 1⟩) = some 8 ∧ SharedAlloc.key (.std 16 ⟨5, 1⟩) = some 24 := by decide

/-- Three 32-bit digits without a spare one are reported as 16 bytes but occupy 12; with a spare one there is room for them. -/
example (self : Ty) (content : Ptr → Prog) :
    ∃ n, SizeOf.sizeOfUniqueAllocatedData ((Impl.bigInt self 2).visit.visitWith content) = .ok (some n) ∧ ¬ n ≤ 12 ∧ n ≤ 16 := by
  obtain ⟨n, e, h1, h2⟩ := C49_bigint self 3 3 (by omega) (by decide) content
  obtain ⟨n', e', h1', h2'⟩ := C49_bigint self 3 4 (by omega) (by decide) content
  obtain rfl : n = n' := by rw [e'] at e; cases e; rfl
  exact ⟨n, e, fun h => by have := h2.1 h; revert this; decide, h2'.2 (by decide)⟩

/-- The hypotheses of the theorems on overflow are met: .. -/
example : Machine.run .on (HashOrder.id _) Ex.hist1 = run (HashOrder.id _) Ex.hist1 := C42_exact Ex.hist1 (by decide) (by decide) .on _
/-- .. two leaves of 2 GiB at the same stack are too much for a debug build; -/
def twoHalves : List (Prog × Fate) := [(Ex.leaf "a" (2 ^ 31) (Ex.leaf "a" (2 ^ 31)), .exit)]
example : sizeAt (records twoHalves) [Ex.k "a"] = 2 ^ 32 := by decide
example := C46_fail_stop twoHalves [Ex.k "a"] (by decide)
/-- in a release build `size_of_unique_allocated_data` is the value modulo 2^32. -/
example : Machine.sizeOfUniqueAllocatedData .off (.enterUnique (Ex.k "p") 4 .exit (Ex.leaf "a" (2 ^ 31) (Ex.leaf "b" (2 ^ 31 + 7))) .done) = some 7 ∧
    Machine.sizeOfUniqueAllocatedData .on (.enterUnique (Ex.k "p") 4 .exit (Ex.leaf "a" (2 ^ 31) (Ex.leaf "b" (2 ^ 31 + 7))) .done) = none := by decide

end Word32
end Allocative
