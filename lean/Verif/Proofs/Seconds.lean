import Verif.Model.Seconds
import Verif.Proofs.Float
/-! # Integers and dyadic rationals are exact in binary64 -/
namespace GoMetrics
namespace Rounding

theorem roundPos_dyadic {n : Int} {k : Int} (hn : 0 < n) (hn' : n < 2 ^ 53) (hk : -1074 ≤ k) :
    roundPos (n * 2 ^ k) = n * 2 ^ k := by
  have hr : (0 : ℚ) < n * 2 ^ k := by
    have : (0 : ℚ) < n := by exact_mod_cast hn
    positivity
  have hlog : Int.log 2 ((n : ℚ) * 2 ^ k) ≤ k + 52 := by
    have h1 := pow_log_le hr
    have h2 : (n : ℚ) * 2 ^ k < 2 ^ (k + 53) := by
      rw [zpow_add₀ (by norm_num), mul_comm]
      apply mul_lt_mul_of_pos_left _ (two_zpow_pos k)
      have : (n : ℚ) < ((2 ^ 53 : Int) : ℚ) := by exact_mod_cast hn'
      calc (n : ℚ) < ((2 ^ 53 : Int) : ℚ) := this
        _ = 2 ^ (53 : Int) := by norm_num
    have h3 := lt_of_le_of_lt h1 h2
    have := (zpow_lt_zpow_iff_right₀ (by norm_num : (1 : ℚ) < 2)).1 h3
    omega
  have hu : ulpExp ((n : ℚ) * 2 ^ k) ≤ k := by unfold ulpExp; omega
  obtain ⟨m, hm⟩ : ∃ m : Nat, k - ulpExp ((n : ℚ) * 2 ^ k) = m := ⟨_, (Int.toNat_of_nonneg (by omega)).symm⟩
  apply roundPos_of_int (n := n * 2 ^ m)
  have hk' : k = (m : Int) + ulpExp ((n : ℚ) * 2 ^ k) := by omega
  push_cast
  rw [mul_assoc]
  congr 1
  rw [← zpow_natCast, ← zpow_add₀ (by norm_num), ← hk']

/-- Every `n * 2^k` with `|n| < 2^53` in the normal range is a binary64 number. -/
theorem binary64_dyadic {n k : Int} (hn : |n| < 2 ^ 53) (hk : -1074 ≤ k) (hk' : k ≤ 970) :
    binary64.rnd (n * 2 ^ k) = .fin (n * 2 ^ k) := by
  have hlt : ∀ m : Int, 0 < m → m < 2 ^ 53 → ¬ ((2 : ℚ) ^ (1024 : Int) ≤ m * 2 ^ k) := by
    intro m hm hm'
    push Not
    have h1 : (m : ℚ) < 2 ^ (53 : Int) := by
      have : (m : ℚ) < ((2 ^ 53 : Int) : ℚ) := by exact_mod_cast hm'
      calc (m : ℚ) < ((2 ^ 53 : Int) : ℚ) := this
        _ = 2 ^ (53 : Int) := by norm_num
    calc (m : ℚ) * 2 ^ k < 2 ^ (53 : Int) * 2 ^ k := mul_lt_mul_of_pos_right h1 (two_zpow_pos k)
      _ = 2 ^ (53 + k) := by rw [zpow_add₀ (by norm_num)]
      _ ≤ 2 ^ (1024 : Int) := zpow_le_zpow_right₀ (by norm_num) (by omega)
  have hab := abs_lt.1 hn
  rcases lt_trichotomy n 0 with h | h | h
  · have hneg : (n : ℚ) * 2 ^ k < 0 := by
      have : (n : ℚ) < 0 := by exact_mod_cast h
      exact mul_neg_of_neg_of_pos this (two_zpow_pos k)
    rw [binary64_neg hneg]
    have e : -((n : ℚ) * 2 ^ k) = ((-n : Int) : ℚ) * 2 ^ k := by push_cast; ring
    rw [e, roundPos_dyadic (by omega) (by omega) hk, if_neg (hlt (-n) (by omega) (by omega))]
    congr 1; push_cast; ring
  · subst h; simp [binary64]
  · have hpos : 0 < (n : ℚ) * 2 ^ k := by
      have : (0 : ℚ) < n := by exact_mod_cast h
      exact mul_pos this (two_zpow_pos k)
    rw [binary64_pos hpos, roundPos_dyadic h hab.2 hk, if_neg (hlt n h hab.2)]

theorem binary64_int {n : Int} (hn : |n| < 2 ^ 53) : binary64.rnd n = .fin n := by
  have := binary64_dyadic (n := n) (k := 0) hn (by norm_num) (by norm_num)
  simpa using this

end Rounding
end GoMetrics
