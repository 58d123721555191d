import Verif.Proofs.StatError
/-! # Rounding errors of variances -/
namespace GoMetrics
open Rounding

/-- `float64(v) - mean`. -/
theorem diff_err {M m m' E : ℚ} (hM : 1 ≤ M) (hM' : M ≤ 2 ^ 63) (hm : |m| ≤ M) (hE : |m' - m| ≤ E) (hE' : E ≤ M / 1000) {v : Int} (hv : |(v : ℚ)| ≤ M) :
    ∃ d, F64.sub binary64 (F64.ofInt binary64 v) (.fin m') = .fin d ∧ |d - (v - m)| ≤ E + 4 * (hulp * M) ∧ |d| ≤ 2.01 * M ∧ |(v : ℚ) - m| ≤ 2 * M := by
  have hu0 := hulp_pos
  have hus := hulp_small
  obtain ⟨a, ha, ea⟩ := ofInt_rel (n := v) (by
    have : |(v : ℚ)| ≤ 2 ^ 64 := hv.trans (hM'.trans (by norm_num))
    exact_mod_cast this)
  have huM : hulp * M ≤ M / 1000000 := by
    rw [div_eq_inv_mul]
    exact mul_le_mul_of_nonneg_right (hus.trans (by norm_num)) (by linarith)
  have huM0 : 0 ≤ hulp * M := by positivity
  have hva : |(v : ℚ) * (1 + a) - v| ≤ hulp * M := by
    have e : (v : ℚ) * (1 + a) - v = a * v := by ring
    rw [e, abs_mul]
    exact mul_le_mul ha hv (abs_nonneg _) hu0.le
  have hvm : |(v : ℚ) - m| ≤ 2 * M := (abs_sub _ _).trans (by linarith)
  have h1 : |((v : ℚ) * (1 + a) + -m') - (v - m)| ≤ E + hulp * M := by
    have e : ((v : ℚ) * (1 + a) + -m') - (v - m) = (v * (1 + a) - v) - (m' - m) := by ring
    rw [e]
    exact (abs_sub _ _).trans (by linarith)
  have h2 : |(v : ℚ) * (1 + a) + -m'| ≤ 2.005 * M := by
    have e : (v : ℚ) * (1 + a) + -m' = (((v : ℚ) * (1 + a) + -m') - (v - m)) + (v - m) := by ring
    rw [e]
    exact (abs_add_le _ _).trans (by linarith)
  obtain ⟨d, e1, e2⟩ := rnd_err' h2 (le_trans (by norm_num) (by linarith : (1 : ℚ) ≤ 2.005 * M)) (by
    calc 2.005 * M ≤ 3 * 2 ^ 63 := by linarith
      _ ≤ 2 ^ (200 : Int) := by norm_num)
  have e2' : |d - ((v : ℚ) * (1 + a) + -m')| ≤ hulp * (2.005 * M) := e2
  refine ⟨d, by rw [ea]; exact e1, ?_, ?_, hvm⟩
  · have e : d - (v - m) = (d - ((v : ℚ) * (1 + a) + -m')) + (((v : ℚ) * (1 + a) + -m') - (v - m)) := by ring
    rw [e]
    refine (abs_add_le _ _).trans ?_
    linarith
  · have e : d = (d - ((v : ℚ) * (1 + a) + -m')) + ((v : ℚ) * (1 + a) + -m') := by ring
    rw [e]
    refine (abs_add_le _ _).trans ?_
    linarith

theorem sq_diff {M d x e : ℚ} (hd : |d| ≤ 2.01 * M) (hx : |x| ≤ 2 * M) (h : |d - x| ≤ e) : |d * d - x ^ 2| ≤ 4.01 * M * e := by
  have e1 : d * d - x ^ 2 = (d + x) * (d - x) := by ring
  rw [e1, abs_mul]
  exact mul_le_mul ((abs_add_le _ _).trans (by linarith)) h (abs_nonneg _) (by have := abs_nonneg d; linarith)

/-- `(float64(v) - mean) * (float64(v) - mean)`. -/
theorem square_err {M m m' E : ℚ} (hM : 1 ≤ M) (hM' : M ≤ 2 ^ 63) (hm : |m| ≤ M) (hE : |m' - m| ≤ E) (hE' : E ≤ M / 1000) {v : Int} (hv : |(v : ℚ)| ≤ M) :
    ∃ t, F64.mul binary64 (F64.sub binary64 (F64.ofInt binary64 v) (.fin m')) (F64.sub binary64 (F64.ofInt binary64 v) (.fin m')) = .fin t ∧
      |t - ((v : ℚ) - m) ^ 2| ≤ 4.01 * M * (E + 4 * (hulp * M)) + 4.05 * (hulp * M ^ 2) ∧ |t| ≤ 4.06 * M ^ 2 := by
  obtain ⟨d, e1, e2, e3, e4⟩ := diff_err hM hM' hm hE hE' hv
  have hu0 := hulp_pos
  have hus := hulp_small
  have hdd : |d * d| ≤ 4.05 * M ^ 2 := by
    rw [abs_mul]
    calc |d| * |d| ≤ (2.01 * M) * (2.01 * M) := mul_le_mul e3 e3 (abs_nonneg _) (by linarith)
      _ ≤ 4.05 * M ^ 2 := by nlinarith
  have hM2 : 1 ≤ M ^ 2 := one_le_pow₀ hM
  have hM2' : M ^ 2 ≤ 2 ^ 126 := by
    calc M ^ 2 ≤ (2 ^ 63) ^ 2 := pow_le_pow_left₀ (by linarith) hM' 2
      _ = 2 ^ 126 := by norm_num
  obtain ⟨t, f1, f2⟩ := rnd_err' hdd (le_trans (by norm_num) (by linarith : (1 : ℚ) ≤ 4.05 * M ^ 2)) (by
    calc 4.05 * M ^ 2 ≤ 5 * 2 ^ 126 := by linarith
      _ ≤ 2 ^ (200 : Int) := by norm_num)
  have f2' : |t - d * d| ≤ hulp * (4.05 * M ^ 2) := f2
  refine ⟨t, by rw [e1]; exact f1, ?_, ?_⟩
  · have e : t - ((v : ℚ) - m) ^ 2 = (t - d * d) + (d * d - ((v : ℚ) - m) ^ 2) := by ring
    rw [e]
    refine (abs_add_le _ _).trans ?_
    have := sq_diff e3 e4 e2
    linarith
  · have e : t = (t - d * d) + d * d := by ring
    rw [e]
    refine (abs_add_le _ _).trans ?_
    have : hulp * (4.05 * M ^ 2) ≤ 1 / 1000 * (4.05 * M ^ 2) := mul_le_mul_of_nonneg_right (hus.trans (by norm_num)) (by linarith)
    linarith

end GoMetrics
