import Verif.Model.Sqrt
import Verif.Proofs.FloatError
import Mathlib.Analysis.SpecialFunctions.Pow.Real
/-! # binary64 rounds to nearest; the square root -/
namespace GoMetrics
open Rounding

theorem roundEven_nearest (a : ℚ) (j : Int) : |(roundEven a : ℚ) - a| ≤ |(j : ℚ) - a| := by
  by_cases h : j = roundEven a
  · rw [h]
  · have h1 := roundEven_err a
    have h2 : (1 : ℚ) ≤ |(j : ℚ) - roundEven a| := by
      have : (1 : Int) ≤ |j - roundEven a| := Int.one_le_abs (by omega)
      exact_mod_cast this
    have h3 := abs_sub_le (j : ℚ) a (roundEven a)
    rw [abs_sub_comm a] at h3
    linarith

theorem roundPos_nearest_mul (t : ℚ) (j : Int) : |roundPos t - t| ≤ |(j : ℚ) * 2 ^ ulpExp t - t| := by
  have hp := two_zpow_pos (ulpExp t)
  unfold roundPos
  generalize (2 : ℚ) ^ ulpExp t = u at *
  have h := roundEven_nearest (t / u) j
  have e : ∀ i : Int, |(i : ℚ) * u - t| = |(i : ℚ) - t / u| * u := by
    intro i
    rw [show (i : ℚ) * u - t = ((i : ℚ) - t / u) * u by field_simp, abs_mul, abs_of_pos hp]
  rw [e, e]
  exact mul_le_mul_of_nonneg_right h hp.le

theorem rep_pos {z : ℚ} (hz : 0 < z) (h : binary64.rnd z = .fin z) : roundPos z = z := by
  rw [binary64_pos hz] at h
  split at h
  · simp at h
  · injection h

/-- A positive number that binary64 represents is a multiple of the last place of every power of two below it. -/
theorem rep_mul {z : ℚ} (hz : 0 < z) (h : roundPos z = z) {m : Int} (hm : m ≤ ulpExp z) : ∃ i : Int, z = i * 2 ^ m := by
  refine ⟨roundEven (z / 2 ^ ulpExp z) * 2 ^ (ulpExp z - m).toNat, ?_⟩
  have h' : z = roundEven (z / 2 ^ ulpExp z) * 2 ^ ulpExp z := by conv_lhs => rw [← h]; unfold roundPos
  push_cast
  conv_lhs => rw [h']
  rw [mul_assoc, ← zpow_natCast (2 : ℚ), ← zpow_add₀ (by norm_num), Int.toNat_of_nonneg (by omega)]
  congr 2
  omega

/-- `roundPos` is nearest among the positive numbers that binary64 represents. -/
theorem roundPos_nearest {t z : ℚ} (ht : 0 < t) (hz : 0 < z) (h : roundPos z = z) : |roundPos t - t| ≤ |z - t| := by
  by_cases hu : ulpExp t ≤ ulpExp z
  · obtain ⟨i, hi⟩ := rep_mul hz h hu
    have := roundPos_nearest_mul t i
    rw [← hi] at this; exact this
  · have hlt : z < t := by
      by_contra hc
      have := log_mono ht (not_lt.1 hc)
      unfold ulpExp at hu; omega
    have hlog : Int.log 2 z < Int.log 2 t := by unfold ulpExp at hu; omega
    have hue : ulpExp t = Int.log 2 t - 52 := by unfold ulpExp at hu ⊢; omega
    have h1 := pow_log_le ht
    have h2 : z ≤ 2 ^ Int.log 2 t := (lt_pow_log (x := z)).le.trans (zpow_le_zpow_right₀ (by norm_num) (by omega))
    have h3 := roundPos_nearest_mul t (2 ^ 52)
    have h4 : ((2 ^ 52 : Int) : ℚ) * 2 ^ ulpExp t = 2 ^ Int.log 2 t := by
      rw [hue]
      generalize Int.log 2 t = l
      push_cast
      rw [zpow_sub₀ (by norm_num : (2 : ℚ) ≠ 0), show (2 : ℚ) ^ (52 : Int) = 4503599627370496 by norm_num]
      field_simp
    rw [h4] at h3
    refine h3.trans ?_
    generalize (2 : ℚ) ^ Int.log 2 t = p at *
    rw [abs_of_nonpos (by linarith), abs_of_nonpos (by linarith)]
    linarith

/-- binary64 rounds to nearest: no other number that it represents is closer. -/
theorem binary64_nearest {t y z : ℚ} (hy : binary64.rnd t = .fin y) (hz : binary64.rnd z = .fin z) : |y - t| ≤ |z - t| := by
  have main : ∀ {t y z : ℚ}, 0 < t → binary64.rnd t = .fin y → binary64.rnd z = .fin z → |y - t| ≤ |z - t| := by
    intro t y z ht hy hz
    have hy' : y = roundPos t := by
      rw [binary64_pos ht] at hy
      split at hy
      · simp at hy
      · injection hy with hy; exact hy.symm
    subst hy'
    rcases lt_or_ge 0 z with h | h
    · exact roundPos_nearest ht h (rep_pos h hz)
    · have := roundPos_nearest_mul t 0
      refine this.trans ?_
      rw [abs_of_nonpos (by push_cast; linarith), abs_of_nonpos (by linarith)]
      push_cast; linarith
  rcases lt_trichotomy 0 t with h | h | h
  · exact main h hy hz
  · subst h
    rw [binary64_lawful.zero] at hy
    injection hy with hy; subst hy
    simp
  · have e1 : binary64.rnd (-t) = .fin (-y) := by rw [binary64_lawful.odd, hy]; rfl
    have e2 : binary64.rnd (-z) = .fin (-z) := by rw [binary64_lawful.odd, hz]; rfl
    have := main (by linarith : 0 < -t) e1 e2
    rw [show -y - -t = -(y - t) by ring, show -z - -t = -(z - t) by ring, abs_neg, abs_neg] at this
    exact this

theorem rootDigits_spec : ∀ (k n : Nat), n < 4 ^ k → rootDigits k n * rootDigits k n ≤ n ∧ n < (rootDigits k n + 1) * (rootDigits k n + 1)
  | 0, n, h => by simp at h; subst h; simp [rootDigits]
  | k + 1, n, h => by
    have ih := rootDigits_spec k (n / 4) (by rw [pow_succ] at h; omega)
    simp only [rootDigits]
    generalize rootDigits k (n / 4) = s at *
    have h1 : 4 * (s * s) ≤ n := by omega
    have h2 : n < 4 * ((s + 1) * (s + 1)) := by omega
    split
    · rename_i hc
      exact ⟨hc, by nlinarith⟩
    · rename_i hc
      exact ⟨by nlinarith, by omega⟩

section
variable {x : ℚ}

theorem rootPlaces_range (hx : 0 < x) : 2 ^ (120 : Int) ≤ x * 2 ^ (2 * rootPlaces x) ∧ x * 2 ^ (2 * rootPlaces x) < 2 ^ (122 : Int) := by
  have h1 := pow_log_le hx
  have h2 := lt_pow_log (x := x)
  have hp := two_zpow_pos (2 * rootPlaces x)
  constructor
  · calc (2 : ℚ) ^ (120 : Int) ≤ 2 ^ (Int.log 2 x + 2 * rootPlaces x) := zpow_le_zpow_right₀ (by norm_num) (by unfold rootPlaces; omega)
      _ = 2 ^ Int.log 2 x * 2 ^ (2 * rootPlaces x) := zpow_add₀ (by norm_num) _ _
      _ ≤ _ := mul_le_mul_of_nonneg_right h1 hp.le
  · calc x * 2 ^ (2 * rootPlaces x) < 2 ^ (Int.log 2 x + 1) * 2 ^ (2 * rootPlaces x) := mul_lt_mul_of_pos_right h2 hp
      _ = 2 ^ (Int.log 2 x + 1 + 2 * rootPlaces x) := (zpow_add₀ (by norm_num) _ _).symm
      _ ≤ _ := zpow_le_zpow_right₀ (by norm_num) (by unfold rootPlaces; omega)

/-- The digits computed are those of the root. -/
theorem root_digits (hx : 0 < x) : ∃ s : Nat, s = rootDigits 61 ⌊x * 2 ^ (2 * rootPlaces x)⌋.toNat ∧ (s : ℚ) * s ≤ x * 2 ^ (2 * rootPlaces x) ∧
    x * 2 ^ (2 * rootPlaces x) < (s + 1) * (s + 1) ∧ 2 ^ 60 ≤ s := by
  obtain ⟨h1, h2⟩ := rootPlaces_range hx
  generalize x * 2 ^ (2 * rootPlaces x) = X at *
  have hX0 : 0 ≤ X := le_trans (by positivity) h1
  have hf0 : 0 ≤ ⌊X⌋ := Int.floor_nonneg.2 hX0
  have hf1 : ⌊X⌋ < 4 ^ 61 := by
    rw [Int.floor_lt]; refine h2.trans_le (by norm_num)
  have hf2 : 4 ^ 60 ≤ ⌊X⌋ := by
    rw [Int.le_floor]; refine le_trans (by norm_num) h1
  obtain ⟨g1, g2⟩ := rootDigits_spec 61 ⌊X⌋.toNat (by omega)
  refine ⟨_, rfl, ?_, ?_, ?_⟩
  · have : ((rootDigits 61 ⌊X⌋.toNat * rootDigits 61 ⌊X⌋.toNat : Nat) : Int) ≤ ⌊X⌋ := by omega
    have h3 : ((rootDigits 61 ⌊X⌋.toNat * rootDigits 61 ⌊X⌋.toNat : Nat) : ℚ) ≤ (⌊X⌋ : ℚ) := by exact_mod_cast this
    push_cast at h3
    exact h3.trans (Int.floor_le X)
  · have : ⌊X⌋ + 1 ≤ (((rootDigits 61 ⌊X⌋.toNat + 1) * (rootDigits 61 ⌊X⌋.toNat + 1) : Nat) : Int) := by omega
    have h3 : ((⌊X⌋ : ℚ) + 1) ≤ (((rootDigits 61 ⌊X⌋.toNat + 1) * (rootDigits 61 ⌊X⌋.toNat + 1) : Nat) : ℚ) := by exact_mod_cast this
    push_cast at h3
    exact (Int.lt_floor_add_one X).trans_le h3
  · by_contra hc
    have h5 : rootDigits 61 ⌊X⌋.toNat + 1 ≤ 2 ^ 60 := by omega
    have h6 := Nat.mul_le_mul h5 h5
    have : ⌊X⌋.toNat < 4 ^ 60 := lt_of_lt_of_le g2 (h6.trans (by norm_num))
    omega

/-- The root is on the same side as the number rounded, of every number with the number of binary places that are computed. -/
theorem root_sides (hx : 0 < x) : (2 : ℝ) ^ (60 - rootPlaces x) ≤ Real.sqrt x ∧ 2 ^ (60 - rootPlaces x) ≤ rootSticky x ∧
    |(rootSticky x : ℝ) - Real.sqrt x| ≤ 2 ^ (-rootPlaces x) ∧
    ∀ j : Int, (rootSticky x ≤ j * 2 ^ (-rootPlaces x) → Real.sqrt x ≤ (j : ℝ) * 2 ^ (-rootPlaces x)) ∧
      ((j : ℚ) * 2 ^ (-rootPlaces x) ≤ rootSticky x → (j : ℝ) * 2 ^ (-rootPlaces x) ≤ Real.sqrt x) := by
  obtain ⟨s, hs, h1, h2, h3⟩ := root_digits hx
  have hdef : rootSticky x = (if (s : ℚ) * s = x * 2 ^ (2 * rootPlaces x) then (s : ℚ) else s + 1 / 2) * 2 ^ (-rootPlaces x) := by
    unfold rootSticky
    simp only
    rw [← hs, zpow_neg, div_eq_mul_inv]
  rw [hdef]
  have hxr : (0 : ℝ) < x := by exact_mod_cast hx
  have hkr : (0 : ℝ) < 2 ^ (-rootPlaces x) := by positivity
  have hkq : (0 : ℚ) < 2 ^ (-rootPlaces x) := by positivity
  -- the root, scaled
  have hroot : Real.sqrt x = Real.sqrt (x * 2 ^ (2 * rootPlaces x)) * 2 ^ (-rootPlaces x) := by
    rw [Real.sqrt_mul hxr.le, show (2 : ℝ) ^ (2 * rootPlaces x) = (2 ^ rootPlaces x) ^ 2 by rw [← zpow_natCast, ← zpow_mul, mul_comm]; norm_num,
      Real.sqrt_sq (by positivity), mul_assoc, ← zpow_add₀ (by norm_num)]
    simp
  have h1r : (s : ℝ) * s ≤ x * 2 ^ (2 * rootPlaces x) := by
    have := (Rat.cast_le (K := ℝ)).2 h1
    simpa only [Rat.cast_mul, Rat.cast_natCast, Rat.cast_zpow, Rat.cast_ofNat] using this
  have h2r : (x : ℝ) * 2 ^ (2 * rootPlaces x) < (s + 1) * (s + 1) := by
    have := (Rat.cast_lt (K := ℝ)).2 h2
    simpa only [Rat.cast_mul, Rat.cast_natCast, Rat.cast_zpow, Rat.cast_ofNat, Rat.cast_add, Rat.cast_one] using this
  have heq : ((s : ℚ) * s = x * 2 ^ (2 * rootPlaces x)) ↔ ((s : ℝ) * s = x * 2 ^ (2 * rootPlaces x)) := by
    rw [← (Rat.cast_inj (α := ℝ))]
    simp only [Rat.cast_mul, Rat.cast_natCast, Rat.cast_zpow, Rat.cast_ofNat]
  rw [hroot]
  have hs0 : (0 : ℝ) ≤ s := Nat.cast_nonneg s
  have hsR : (2 : ℝ) ^ (60 : Int) ≤ s := by
    have : ((2 ^ 60 : ℕ) : ℝ) ≤ s := by exact_mod_cast h3
    refine le_trans (le_of_eq ?_) this
    norm_num
  have hsQ : (2 : ℚ) ^ (60 : Int) ≤ s := by
    have : ((2 ^ 60 : ℕ) : ℚ) ≤ s := by exact_mod_cast h3
    refine le_trans (le_of_eq ?_) this
    norm_num
  have hX1 : (s : ℝ) ≤ Real.sqrt (x * 2 ^ (2 * rootPlaces x)) := by
    have := Real.sqrt_le_sqrt h1r
    rwa [Real.sqrt_mul_self hs0] at this
  have hX2 : Real.sqrt (x * 2 ^ (2 * rootPlaces x)) < s + 1 := by
    rw [Real.sqrt_lt' (by linarith), sq]; exact h2r
  have hX3 : (s : ℝ) * s = x * 2 ^ (2 * rootPlaces x) → Real.sqrt (x * 2 ^ (2 * rootPlaces x)) = s := by
    intro h; rw [← h, Real.sqrt_mul_self hs0]
  generalize Real.sqrt (x * 2 ^ (2 * rootPlaces x)) = Y at *
  rw [sub_eq_add_neg, zpow_add₀ (by norm_num), zpow_add₀ (by norm_num)]
  have hvu : (((2 : ℚ) ^ (-rootPlaces x) : ℚ) : ℝ) = 2 ^ (-rootPlaces x) := by rw [Rat.cast_zpow, Rat.cast_ofNat]
  generalize (2 : ℝ) ^ (-rootPlaces x) = u at *
  generalize (2 : ℚ) ^ (-rootPlaces x) = v at *
  refine ⟨mul_le_mul_of_nonneg_right (hsR.trans hX1) hkr.le, mul_le_mul_of_nonneg_right ?_ hkq.le, ?_, fun j => ⟨fun h => mul_le_mul_of_nonneg_right ?_ hkr.le,
    fun h => mul_le_mul_of_nonneg_right ?_ hkr.le⟩⟩
  · split
    · exact hsQ
    · linarith
  · rw [Rat.cast_mul, hvu, ← sub_mul, abs_mul, abs_of_pos hkr]
    refine (mul_le_mul_of_nonneg_right ?_ hkr.le).trans (le_of_eq (one_mul u))
    split
    · rename_i hc
      rw [hX3 (heq.1 hc)]; simp
    · push_cast
      rw [abs_le]; constructor <;> linarith
  · have h := le_of_mul_le_mul_right h hkq
    split at h
    · rename_i hc
      rw [hX3 (heq.1 hc)]; exact_mod_cast h
    · have : ((s : Int) : ℚ) < (j : ℚ) := by push_cast; linarith
      have : (s : Int) < j := by exact_mod_cast this
      have : ((s + 1 : Int) : ℝ) ≤ j := by exact_mod_cast (by omega : (s : Int) + 1 ≤ j)
      push_cast at this
      linarith
  · have h := le_of_mul_le_mul_right h hkq
    split at h
    · rename_i hc
      rw [hX3 (heq.1 hc)]; exact_mod_cast h
    · have : ((j : Int) : ℚ) < ((s + 1 : Int) : ℚ) := by push_cast; linarith
      have : (j : Int) < s + 1 := by exact_mod_cast this
      have : ((j : Int) : ℝ) ≤ ((s : Int) : ℝ) := by exact_mod_cast (by omega : j ≤ (s : Int))
      push_cast at this
      linarith

end
end GoMetrics
