import Verif.Proofs.Seconds
import Verif.Model.BucketCounter
/-! # C74 — bucket intervals go through floating point

`int64(interval.Seconds())` in IEEE-754 binary64 against whole seconds in integer arithmetic. -/
namespace GoMetrics
open Rounding

/-- **C74.** For an interval that is a whole number of seconds — every `int64` duration of that form — the floating-point
computation gives exactly that number. -/
theorem C74_whole_seconds_exact (k : Int) (hk : -9223372036 ≤ k) (hk' : k ≤ 9223372036) :
    toInt64 (seconds binary64 (k * 1000000000)) = some k ∧ wholeSeconds (k * 1000000000) = k := by
  have h1 : (k * 1000000000).tdiv 1000000000 = k := Int.mul_tdiv_cancel k (by norm_num)
  have h2 : (k * 1000000000).tmod 1000000000 = 0 := Int.mul_tmod_left k _
  refine ⟨?_, h1⟩
  have hb : binary64.rnd (k : ℚ) = .fin k := binary64_int (by rw [abs_lt]; constructor <;> norm_num <;> omega)
  have hg : binary64.rnd ((1000000000 : Int) : ℚ) = .fin (1000000000 : Int) := binary64_int (by norm_num)
  unfold seconds F64.ofInt
  rw [h1, h2, hb, hg]
  have h0 : binary64.rnd ((0 : Int) : ℚ) = .fin 0 := by
    have := binary64_lawful.zero; simpa using this
  rw [h0]
  simp only [F64.div]
  rw [if_neg (by norm_num), zero_div, binary64_lawful.zero]
  simp only [F64.add, add_zero, hb, toInt64]
  by_cases hpos : (0 : ℚ) ≤ k
  · rw [if_pos hpos, Int.floor_intCast, if_pos (by omega)]
  · rw [if_neg hpos]
    have : -⌊-(k : ℚ)⌋ = k := by
      rw [← Int.cast_neg, Int.floor_intCast, neg_neg]
    rw [this, if_pos (by omega)]

private theorem seconds_bounds (d : Int) (hd : 0 ≤ d) (hd' : d < 2 ^ 63) :
    ∃ y : ℚ, 0 ≤ y ∧ y ≤ 1 - 2 ^ (-30 : Int) ∧
      seconds binary64 d = binary64.rnd ((d / 1000000000 : Int) + y) ∧
      binary64.rnd ((d % 1000000000 : Int) / 1000000000) = .fin y := by
  have h1 : d.tdiv 1000000000 = d / 1000000000 := Int.tdiv_eq_ediv_of_nonneg hd
  have h2 : d.tmod 1000000000 = d % 1000000000 := Int.tmod_eq_emod_of_nonneg hd
  have hsec : binary64.rnd ((d / 1000000000 : Int) : ℚ) = .fin (d / 1000000000 : Int) :=
    binary64_int (by rw [abs_lt]; constructor <;> norm_num at * <;> omega)
  have hns : binary64.rnd ((d % 1000000000 : Int) : ℚ) = .fin (d % 1000000000 : Int) :=
    binary64_int (by rw [abs_lt]; constructor <;> norm_num <;> omega)
  have hg : binary64.rnd ((1000000000 : Int) : ℚ) = .fin (1000000000 : Int) := binary64_int (by norm_num)
  have hn0 : (0 : ℚ) ≤ (d % 1000000000 : Int) := by
    have : 0 ≤ d % 1000000000 := by omega
    exact_mod_cast this
  have hn1 : ((d % 1000000000 : Int) : ℚ) ≤ 999999999 := by
    have : d % 1000000000 ≤ 999999999 := by omega
    exact_mod_cast this
  have hq0 : (0 : ℚ) ≤ ((d % 1000000000 : Int) : ℚ) / 1000000000 := div_nonneg hn0 (by norm_num)
  have hq1 : ((d % 1000000000 : Int) : ℚ) / 1000000000 ≤ ((2 ^ 30 - 1 : Int) : ℚ) * 2 ^ (-30 : Int) := by
    rw [div_le_iff₀ (by norm_num)]
    refine le_trans hn1 ?_
    norm_num
  have hup : binary64.rnd (((2 ^ 30 - 1 : Int) : ℚ) * 2 ^ (-30 : Int)) =
      .fin (((2 ^ 30 - 1 : Int) : ℚ) * 2 ^ (-30 : Int)) :=
    binary64_dyadic (by norm_num) (by norm_num) (by norm_num)
  have hm0 := binary64_lawful.mono _ _ hq0
  have hm1 := binary64_lawful.mono _ _ hq1
  rw [binary64_lawful.zero] at hm0
  rw [hup] at hm1
  cases hy : binary64.rnd (((d % 1000000000 : Int) : ℚ) / 1000000000) with
  | nan => exact absurd hy (binary64_lawful.not_nan _)
  | inf s =>
    rw [hy] at hm0 hm1
    cases s <;> simp [F64.le] at hm0 hm1
  | fin y =>
    rw [hy] at hm0 hm1
    simp only [F64.le] at hm0 hm1
    refine ⟨y, hm0, ?_, ?_, rfl⟩
    · refine le_trans hm1 ?_; norm_num
    · unfold seconds F64.ofInt
      rw [h1, h2, hsec, hns, hg]
      simp only [F64.div]
      rw [if_neg (by norm_num)]
      have e : ((d % 1000000000 : Int) : ℚ) / ((1000000000 : Int) : ℚ) =
          ((d % 1000000000 : Int) : ℚ) / 1000000000 := by norm_num
      rw [e, hy]
      rfl

/-- **C74.** For every non-negative interval below `2^22` seconds (48 days), whole seconds or not, the floating-point
computation gives the integer number of whole seconds the model uses. -/
theorem C74_below_48_days_exact (d : Int) (hd : 0 ≤ d) (hd' : d < 2 ^ 22 * 1000000000) :
    toInt64 (seconds binary64 d) = some (wholeSeconds d) := by
  obtain ⟨y, hy0, hy1, hs, -⟩ := seconds_bounds d hd (by norm_num at *; omega)
  have hw : wholeSeconds d = d / 1000000000 := Int.tdiv_eq_ediv_of_nonneg hd
  rw [hw, hs]
  obtain ⟨k, hk⟩ : ∃ k, k = d / 1000000000 := ⟨_, rfl⟩
  have hk0 : 0 ≤ k := by omega
  have hk1 : k < 2 ^ 22 := by norm_num at *; omega
  rw [← hk]
  have hlo : binary64.rnd (k : ℚ) = .fin k := binary64_int (by rw [abs_lt]; constructor <;> norm_num at * <;> omega)
  have hhi : binary64.rnd (((k * 2 ^ 30 + (2 ^ 30 - 1) : Int) : ℚ) * 2 ^ (-30 : Int)) =
      .fin (((k * 2 ^ 30 + (2 ^ 30 - 1) : Int) : ℚ) * 2 ^ (-30 : Int)) :=
    binary64_dyadic (by rw [abs_lt]; constructor <;> norm_num at * <;> omega) (by norm_num) (by norm_num)
  have hle : (k : ℚ) + y ≤ ((k * 2 ^ 30 + (2 ^ 30 - 1) : Int) : ℚ) * 2 ^ (-30 : Int) := by
    have e : ((k * 2 ^ 30 + (2 ^ 30 - 1) : Int) : ℚ) * 2 ^ (-30 : Int) = k + (1 - 2 ^ (-30 : Int)) := by
      push_cast; norm_num; ring
    rw [e]; linarith
  have hm0 := binary64_lawful.mono (k : ℚ) (k + y) (by linarith)
  have hm1 := binary64_lawful.mono _ _ hle
  rw [hlo] at hm0
  rw [hhi] at hm1
  cases hv : binary64.rnd ((k : ℚ) + y) with
  | nan => exact absurd hv (binary64_lawful.not_nan _)
  | inf s =>
    rw [hv] at hm0 hm1
    cases s <;> simp [F64.le] at hm0 hm1
  | fin v =>
    rw [hv] at hm0 hm1
    simp only [F64.le] at hm0 hm1
    have hk0' : (0 : ℚ) ≤ k := by exact_mod_cast hk0
    have hlt : v < k + 1 := by
      refine lt_of_le_of_lt hm1 ?_
      push_cast
      have : (2 : ℚ) ^ (30 : ℕ) * 2 ^ (-30 : Int) = 1 := by norm_num
      have h2 : (0 : ℚ) < 2 ^ (-30 : Int) := by positivity
      nlinarith
    have hfl : ⌊v⌋ = k := by
      rw [Int.floor_eq_iff]; exact ⟨hm0, hlt⟩
    simp only [toInt64]
    have h0 : (0 : ℚ) ≤ v := le_trans hk0' hm0
    norm_num at hk1
    rw [if_pos h0, hfl, if_pos ⟨by omega, by omega⟩]

/-- **C74 refuted beyond that.** For the interval of 16777216.999999999 s the floating-point computation yields one second
more than the whole number of seconds (so the stated equality does not hold for every interval). -/
theorem C74_every_interval_refuted :
    toInt64 (seconds binary64 16777216999999999) = some 16777217 ∧
      wholeSeconds 16777216999999999 = 16777216 := by
  refine ⟨?_, by decide⟩
  obtain ⟨y, hy0, hy1, hs, hyr⟩ := seconds_bounds 16777216999999999 (by norm_num) (by norm_num)
  -- y is at least 1 - 3 * 2^-31
  have hb : binary64.rnd (((2 ^ 31 - 3 : Int) : ℚ) * 2 ^ (-31 : Int)) =
      .fin (((2 ^ 31 - 3 : Int) : ℚ) * 2 ^ (-31 : Int)) :=
    binary64_dyadic (by norm_num) (by norm_num) (by norm_num)
  have hm := binary64_lawful.mono (((2 ^ 31 - 3 : Int) : ℚ) * 2 ^ (-31 : Int))
    (((16777216999999999 % 1000000000 : Int) : ℚ) / 1000000000) (by norm_num)
  rw [hb, hyr] at hm
  simp only [F64.le] at hm
  have hx : binary64.rnd (16777217 - 3 * 2 ^ (-31 : Int) : ℚ) = .fin 16777217 := by
    have hpos : (0 : ℚ) < 16777217 - 3 * 2 ^ (-31 : Int) := by norm_num
    have hlog : Int.log 2 (16777217 - 3 * 2 ^ (-31 : Int) : ℚ) = 24 := by
      have h1 := pow_log_le hpos
      have h2 := lt_pow_log (x := (16777217 - 3 * 2 ^ (-31 : Int) : ℚ))
      apply le_antisymm
      · have : (2 : ℚ) ^ Int.log 2 (16777217 - 3 * 2 ^ (-31 : Int) : ℚ) < 2 ^ (25 : Int) :=
          lt_of_le_of_lt h1 (by norm_num)
        have := (zpow_lt_zpow_iff_right₀ (by norm_num : (1 : ℚ) < 2)).1 this
        omega
      · have : (2 : ℚ) ^ (24 : Int) < 2 ^ (Int.log 2 (16777217 - 3 * 2 ^ (-31 : Int) : ℚ) + 1) :=
          lt_of_le_of_lt (by norm_num) h2
        have := (zpow_lt_zpow_iff_right₀ (by norm_num : (1 : ℚ) < 2)).1 this
        omega
    have hulp : ulpExp (16777217 - 3 * 2 ^ (-31 : Int) : ℚ) = -28 := by
      unfold ulpExp; rw [hlog]; norm_num
    have hrp : roundPos (16777217 - 3 * 2 ^ (-31 : Int) : ℚ) = 16777217 := by
      unfold roundPos
      rw [hulp]
      have hre : roundEven ((16777217 - 3 * 2 ^ (-31 : Int) : ℚ) / 2 ^ (-28 : Int)) = 16777217 * 2 ^ 28 := by
        have hf : ⌊(16777217 - 3 * 2 ^ (-31 : Int) : ℚ) / 2 ^ (-28 : Int)⌋ = 16777217 * 2 ^ 28 - 1 := by
          rw [Int.floor_eq_iff]; constructor <;> norm_num
        unfold roundEven
        simp only [hf]
        rw [if_neg (by norm_num), if_pos (by norm_num)]
        norm_num
      rw [hre]; norm_num
    have hbig : (16777217 : ℚ) < 2 ^ (1024 : Int) :=
      lt_of_lt_of_le (by norm_num : (16777217 : ℚ) < 2 ^ (25 : Int))
        (zpow_le_zpow_right₀ (by norm_num) (by norm_num))
    rw [binary64_pos hpos, hrp, if_neg (not_le.2 hbig)]
  have hi : binary64.rnd ((16777217 : Int) : ℚ) = .fin (16777217 : Int) := binary64_int (by norm_num)
  have e : (16777216999999999 / 1000000000 : Int) = 16777216 := by norm_num
  rw [hs, e]
  have hm1 := binary64_lawful.mono (16777217 - 3 * 2 ^ (-31 : Int) : ℚ) ((16777216 : Int) + y) (by
    have : ((2 ^ 31 - 3 : Int) : ℚ) * 2 ^ (-31 : Int) = 1 - 3 * 2 ^ (-31 : Int) := by norm_num
    rw [this] at hm
    push_cast; linarith)
  have hm2 := binary64_lawful.mono ((16777216 : Int) + y : ℚ) ((16777217 : Int) : ℚ) (by
    have : (0 : ℚ) < 2 ^ (-30 : Int) := by positivity
    push_cast; linarith)
  rw [hx] at hm1
  rw [hi] at hm2
  cases hv : binary64.rnd ((16777216 : Int) + y : ℚ) with
  | nan => exact absurd hv (binary64_lawful.not_nan _)
  | inf s =>
    rw [hv] at hm1 hm2
    cases s <;> simp [F64.le] at hm1 hm2
  | fin v =>
    rw [hv] at hm1 hm2
    simp only [F64.le] at hm1 hm2
    have : v = 16777217 := le_antisymm (by push_cast at hm2; exact hm2) hm1
    subst this
    have hfl : ⌊(16777217 : ℚ)⌋ = 16777217 := by
      have := Int.floor_intCast (R := ℚ) 16777217
      exact_mod_cast this
    simp only [toInt64]
    rw [if_pos (by norm_num), hfl]
    norm_num

end GoMetrics
