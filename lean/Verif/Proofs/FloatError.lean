import Verif.Proofs.Float
/-! # The rounding error of binary64 -/
namespace GoMetrics

theorem roundEven_err (x : ℚ) : |(roundEven x : ℚ) - x| ≤ 1 / 2 := by
  have h1 := Int.floor_le x
  have h2 := Int.lt_floor_add_one x
  unfold roundEven
  simp only
  split
  · rw [abs_le]; constructor <;> linarith
  · split
    · push_cast; rw [abs_le]; constructor <;> linarith
    · have : x - (⌊x⌋ : ℚ) = 1 / 2 := by linarith
      split
      · rw [abs_le]; constructor <;> linarith
      · push_cast; rw [abs_le]; constructor <;> linarith

theorem roundPos_err {x : ℚ} (hx : 0 < x) : |roundPos x - x| ≤ max (2 ^ (-53 : Int) * x) (2 ^ (-1075 : Int)) := by
  have hp := two_zpow_pos (ulpExp x)
  have e : roundPos x - x = ((roundEven (x / 2 ^ ulpExp x) : ℚ) - x / 2 ^ ulpExp x) * 2 ^ ulpExp x := by
    unfold roundPos; field_simp
  rw [e, abs_mul, abs_of_pos hp]
  have h1 := mul_le_mul_of_nonneg_right (roundEven_err (x / 2 ^ ulpExp x)) hp.le
  refine h1.trans ?_
  have h2 : (1 / 2 : ℚ) * 2 ^ ulpExp x = 2 ^ (ulpExp x - 1) := by
    rw [zpow_sub₀ (by norm_num)]; ring
  rw [h2]
  rcases le_total (Int.log 2 x - 52) (-1074) with h | h
  · have : ulpExp x = -1074 := by unfold ulpExp; exact max_eq_right h
    rw [this]; exact le_max_right _ _
  · have : ulpExp x = Int.log 2 x - 52 := by unfold ulpExp; exact max_eq_left h
    rw [this]
    refine le_trans ?_ (le_max_left _ _)
    rw [show Int.log 2 x - 52 - 1 = -53 + Int.log 2 x by ring, zpow_add₀ (by norm_num)]
    exact mul_le_mul_of_nonneg_left (pow_log_le hx) (by positivity)

/-- Rounding a number of magnitude at most `B` - not too large, not too small - gives a finite number that is off by at most `2⁻⁵³ B`. -/
theorem rnd_err {q B : ℚ} (hq : |q| ≤ B) (h1 : 2 ^ (-1000 : Int) ≤ B) (h2 : B ≤ 2 ^ (1000 : Int)) :
    ∃ r, Rounding.binary64.rnd q = .fin r ∧ |r - q| ≤ 2 ^ (-53 : Int) * B := by
  have hB : (2 : ℚ) ^ (-1075 : Int) ≤ 2 ^ (-53 : Int) * B := by
    calc (2 : ℚ) ^ (-1075 : Int) ≤ 2 ^ (-53 : Int) * 2 ^ (-1000 : Int) := by
          rw [← zpow_add₀ (by norm_num)]; exact zpow_le_zpow_right₀ (by norm_num) (by norm_num)
      _ ≤ _ := mul_le_mul_of_nonneg_left h1 (by positivity)
  by_cases h0 : q = 0
  · subst h0
    refine ⟨0, by simp [Rounding.binary64], ?_⟩
    simp only [sub_zero, abs_zero]
    exact le_trans (by positivity) hB
  have hpos : 0 < |q| := abs_pos.2 h0
  have herr : abs (roundPos |q| - |q|) ≤ 2 ^ (-53 : Int) * B :=
    (roundPos_err hpos).trans (max_le (mul_le_mul_of_nonneg_left hq (by positivity)) hB)
  have hlt : ¬ (2 : ℚ) ^ (1024 : Int) ≤ roundPos |q| := by
    rw [not_le]
    have h3 : roundPos |q| ≤ B + 2 ^ (-53 : Int) * B := by
      have := (abs_le.1 herr).2; linarith
    have h4 : (2 : ℚ) ^ (-53 : Int) ≤ 1 := zpow_le_one_of_nonpos₀ (by norm_num) (by norm_num)
    have h5 : B + 2 ^ (-53 : Int) * B ≤ 2 * 2 ^ (1000 : Int) := by
      have : (0 : ℚ) ≤ B := le_trans (abs_nonneg q) hq
      nlinarith
    calc roundPos |q| ≤ 2 * 2 ^ (1000 : Int) := h3.trans h5
      _ = 2 ^ (1001 : Int) := by rw [show (1001 : Int) = 1 + 1000 by norm_num, zpow_add₀ (by norm_num), zpow_one]
      _ < 2 ^ (1024 : Int) := zpow_lt_zpow_right₀ (by norm_num) (by norm_num)
  refine ⟨if q < 0 then -roundPos |q| else roundPos |q|, ?_, ?_⟩
  · simp only [Rounding.binary64, if_neg h0, if_neg hlt]
  · split
    · rename_i hn
      rw [abs_of_neg hn] at herr ⊢
      rw [← abs_neg]
      convert herr using 2
      ring
    · rename_i hn
      rw [abs_of_nonneg (not_lt.1 hn)] at herr ⊢
      exact herr

theorem rnd_err' {q B : ℚ} (hq : |q| ≤ B) (h1 : 2 ^ (-200 : Int) ≤ B) (h2 : B ≤ 2 ^ (200 : Int)) :
    ∃ r, Rounding.binary64.rnd q = .fin r ∧ |r - q| ≤ 2 ^ (-53 : Int) * B :=
  rnd_err hq ((zpow_le_zpow_right₀ (by norm_num) (by norm_num)).trans h1) (h2.trans (zpow_le_zpow_right₀ (by norm_num) (by norm_num)))

end GoMetrics
