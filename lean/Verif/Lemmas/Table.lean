import Verif.Spec.Datum
import Verif.Spec.Layout
/-
Sizes of hash tables.
-/
namespace Allocative

theorem nextPowerOfTwo_spec (n : Nat) : IsLeastPow2 n (Usize.nextPowerOfTwo n) := by
  unfold Usize.nextPowerOfTwo
  split
  · rename_i h
    exact ⟨⟨0, rfl⟩, h, fun j _ => Nat.one_le_two_pow⟩
  · rename_i h
    refine ⟨⟨_, rfl⟩, ?_, fun j hj => ?_⟩
    · have := @Nat.lt_log2_self (n - 1)
      omega
    · have h1 : Nat.log2 (n - 1) < j := (Nat.log2_lt (by omega)).2 (by omega)
      exact Nat.pow_le_pow_right (by omega) h1

theorem IsLeastPow2.mono {n n' m m'} (h : IsLeastPow2 n m) (h' : IsLeastPow2 n' m') (hn : n ≤ n') : m ≤ m' := by
  obtain ⟨k, rfl⟩ := h'.1
  exact h.2.2 k (Nat.le_trans hn h'.2.1)

theorem IsLeastPow2.unique {n m m'} (h : IsLeastPow2 n m) (h' : IsLeastPow2 n m') : m = m' :=
  Nat.le_antisymm (h.mono h' (Nat.le_refl _)) (h'.mono h (Nat.le_refl _))

theorem IsLeastPow2.lt {n m} (h : IsLeastPow2 n m) (hn : 0 < n) : m < 2 * n := by
  obtain ⟨⟨k, rfl⟩, _, h3⟩ := h
  rcases k with _ | k
  · omega
  · rcases Nat.lt_or_ge (2 ^ k) n with h | h
    · rw [Nat.pow_succ]; omega
    · have hp := Nat.two_pow_pos k
      have := h3 k h
      rw [Nat.pow_succ] at this
      omega

theorem leastPow2_spec (n : Nat) : IsLeastPow2 n (leastPow2 n) := by
  induction n using Nat.strongRecOn with
  | ind n ih =>
    unfold leastPow2
    split
    · rename_i h
      exact ⟨⟨0, rfl⟩, h, fun j _ => Nat.one_le_two_pow⟩
    · rename_i h
      obtain ⟨⟨k, hk⟩, h1, h2⟩ := ih ((n + 1) / 2) (by omega)
      refine ⟨⟨k + 1, by rw [hk, Nat.pow_succ]; omega⟩, by omega, fun j hj => ?_⟩
      cases j with
      | zero => simp at hj; omega
      | succ j =>
        rw [Nat.pow_succ] at *
        have := h2 j (by omega)
        omega

/-- The estimate of the code is `tableBytes`, unless it overflows. -/
theorem rawTable_eq [Target] (T : Ty) (len : Nat) (h : tableBytes T.size len < Usize.modulus) :
    Impl.rawTableAllocSizeForLen T len = tableBytes T.size len := by
  unfold Impl.rawTableAllocSizeForLen tableBytes at *
  by_cases h0 : len = 0
  · simp [h0, Usize.mul]
  · have hb : (len == 0) = false := by simp [h0]
    have he : (if len < 4 then 4 else Usize.nextPowerOfTwo len) = leastPow2 (max len 4) := by
      split
      · rw [Nat.max_eq_right (by omega)]; simp [leastPow2]
      · rw [Nat.max_eq_left (by omega)]; exact (nextPowerOfTwo_spec len).unique (leastPow2_spec len)
    simp only [hb, Bool.false_eq_true, if_false, if_neg h0, he] at *
    exact Nat.mod_eq_of_lt h

theorem tableBytes_ge {size len n : Nat} (h : n ≤ len) : size * n ≤ tableBytes size len := by
  unfold tableBytes
  split
  · have : n = 0 := by omega
    simp [this]
  · have := (leastPow2_spec (max len 4)).2.1
    exact Nat.mul_le_mul (by omega) (by omega)

end Allocative
