import Verif.Proofs.Sqrt
import Verif.Props.WeightedAccuracy
/-! # C93 with the square root IEEE-754 asks for -/
namespace GoMetrics
open Rounding

theorem ulpExp_le_pow {z : ℚ} {m : Int} (hm : 2 ^ m ≤ z) : m - 52 ≤ ulpExp z := by
  have : Int.log 2 ((2 : ℚ) ^ m) ≤ Int.log 2 z := log_mono (by positivity) hm
  have h2 : Int.log 2 ((2 : ℚ) ^ m) = m := by
    have := Int.log_zpow (R := ℚ) (b := 2) (by norm_num) m
    exact_mod_cast this
  unfold ulpExp; omega

/-- Powers of two in the range of binary64. -/
theorem rep_pow {m : Int} (h1 : -1074 ≤ m) (h2 : m ≤ 1023) : binary64.rnd (2 ^ m) = .fin (2 ^ m) := by
  have hlog : Int.log 2 ((2 : ℚ) ^ m) = m := by
    have := Int.log_zpow (R := ℚ) (b := 2) (by norm_num) m
    exact_mod_cast this
  have hu : ulpExp ((2 : ℚ) ^ m) ≤ m := by unfold ulpExp; rw [hlog]; omega
  have e : roundPos ((2 : ℚ) ^ m) = 2 ^ m := le_antisymm (roundPos_le_pow hu le_rfl) (pow_le_roundPos hu le_rfl)
  rw [binary64_pos (by positivity), e, if_neg]
  rw [not_le]
  exact zpow_lt_zpow_right₀ (by norm_num) (by omega)

/-- The range of positive numbers that binary64 represents. -/
theorem rep_range {x : ℚ} (hx : 0 < x) (h : binary64.rnd x = .fin x) : 2 ^ (-1074 : Int) ≤ x ∧ x < 2 ^ (1024 : Int) := by
  have hr := rep_pos hx h
  constructor
  · obtain ⟨i, hi⟩ := rep_mul hx hr (m := -1074) (by unfold ulpExp; omega)
    have hp := two_zpow_pos (-1074)
    generalize (2 : ℚ) ^ (-1074 : Int) = u at *
    have : 0 < (i : ℚ) := by rw [hi] at hx; exact (pos_iff_pos_of_mul_pos hx).2 hp
    have : (1 : Int) ≤ i := by exact_mod_cast this
    have : (1 : ℚ) ≤ i := by exact_mod_cast this
    rw [hi]; exact le_mul_of_one_le_left hp.le this
  · rw [binary64_pos hx, hr] at h
    split at h
    · simp at h
    · rename_i hc; exact not_le.1 hc

theorem rootPlaces_bounds {x : ℚ} (hx : 0 < x) (h : binary64.rnd x = .fin x) : -537 ≤ 60 - rootPlaces x ∧ 60 - rootPlaces x ≤ 511 := by
  obtain ⟨h1, h2⟩ := rep_range hx h
  have hl := log_mono (by positivity) h1
  have e : Int.log 2 ((2 : ℚ) ^ (-1074 : Int)) = -1074 := by
    have := Int.log_zpow (R := ℚ) (b := 2) (by norm_num) (-1074)
    exact_mod_cast this
  rw [e] at hl
  have hh : Int.log 2 x < 1024 := by
    by_contra hc
    have h3 := (zpow_le_zpow_right₀ (by norm_num : (1 : ℚ) ≤ 2) (not_lt.1 hc)).trans (pow_log_le hx)
    exact absurd h3 (not_le.2 h2)
  unfold rootPlaces; omega

/-- Comparing distances to a number is comparing it with the midpoint. -/
theorem mid_right {K : Type} [Field K] [LinearOrder K] [IsStrictOrderedRing K] {y z t : K} (h : y < z) : |y - t| ≤ |z - t| ↔ t ≤ (y + z) / 2 := by
  constructor
  · intro h1
    by_contra hc
    rw [not_le] at hc
    rw [abs_of_neg (by linarith : y - t < 0)] at h1
    rcases le_total z t with h2 | h2
    · rw [abs_of_nonpos (by linarith)] at h1; linarith
    · rw [abs_of_nonneg (by linarith)] at h1; linarith
  · intro h1
    rw [abs_of_nonneg (by linarith : 0 ≤ z - t), abs_le]
    constructor <;> linarith

theorem mid_left {K : Type} [Field K] [LinearOrder K] [IsStrictOrderedRing K] {y z t : K} (h : z < y) : |y - t| ≤ |z - t| ↔ (y + z) / 2 ≤ t := by
  constructor
  · intro h1
    by_contra hc
    rw [not_le] at hc
    rw [abs_of_pos (by linarith : 0 < y - t)] at h1
    rcases le_total t z with h2 | h2
    · rw [abs_of_nonneg (by linarith)] at h1; linarith
    · rw [abs_of_nonpos (by linarith)] at h1; linarith
  · intro h1
    rw [abs_of_nonpos (by linarith : z - t ≤ 0), abs_le]
    constructor <;> linarith

/-- The root of a positive number: finite and nearest. -/
theorem sqrt_pos {x : ℚ} (hx : 0 < x) (hrep : binary64.rnd x = .fin x) : ∃ y : ℚ, binary64.rnd (rootSticky x) = .fin y ∧ 2 ^ (60 - rootPlaces x) ≤ y ∧
    (∀ z : ℚ, binary64.rnd z = .fin z → |(y : ℝ) - Real.sqrt x| ≤ |(z : ℝ) - Real.sqrt x|) := by
  obtain ⟨hr, ht, -, hside⟩ := root_sides hx
  obtain ⟨b1, b2⟩ := rootPlaces_bounds hx hrep
  have hx2 := rep_range hx hrep
  -- finite
  have hpow := rep_pow (m := 60 - rootPlaces x) (by omega) (by omega)
  have hpow' := rep_pow (m := 62 - rootPlaces x) (by omega) (by omega)
  have htop : rootSticky x ≤ 2 ^ (62 - rootPlaces x) := by
    by_contra hc
    have h := (hside (2 ^ 62)).2 (by
      rw [not_le] at hc
      refine le_trans (le_of_eq ?_) hc.le
      rw [sub_eq_add_neg, zpow_add₀ (by norm_num)]; norm_num)
    have h2 : Real.sqrt x < 2 ^ (61 - rootPlaces x) := by
      rw [Real.sqrt_lt' (by positivity)]
      have := (Rat.cast_lt (K := ℝ)).2 (rootPlaces_range hx).2
      rw [Rat.cast_mul, Rat.cast_zpow, Rat.cast_zpow, Rat.cast_ofNat] at this
      rw [← zpow_natCast, ← zpow_mul, show (61 - rootPlaces x) * ((2 : ℕ) : Int) = 122 + -(2 * rootPlaces x) by push_cast; ring, zpow_add₀ (by norm_num), zpow_neg,
        ← div_eq_mul_inv, lt_div_iff₀ (by positivity)]
      exact this
    have h3 : ((2 ^ 62 : Int) : ℝ) * 2 ^ (-rootPlaces x) = 2 * 2 ^ (61 - rootPlaces x) := by
      rw [sub_eq_add_neg, zpow_add₀ (by norm_num)]
      generalize (2 : ℝ) ^ (-rootPlaces x) = u
      norm_num
      ring
    have h4 : (0 : ℝ) < 2 ^ (61 - rootPlaces x) := by positivity
    rw [h3] at h
    linarith
  have m1 := binary64_lawful.mono _ _ ht
  have m2 := binary64_lawful.mono _ _ htop
  rw [hpow] at m1
  rw [hpow'] at m2
  cases hy : binary64.rnd (rootSticky x) with
  | nan => exact absurd hy (binary64_lawful.not_nan _)
  | inf s => rw [hy] at m1 m2; cases s <;> simp [F64.le] at m1 m2
  | fin y =>
    rw [hy] at m1
    have hy1 : (2 : ℚ) ^ (60 - rootPlaces x) ≤ y := m1
    have hyrep := binary64_lawful.idem _ _ hy
    refine ⟨y, rfl, hy1, ?_⟩
    -- multiples of a coarse unit
    have hmul : ∀ z : ℚ, binary64.rnd z = .fin z → 2 ^ (59 - rootPlaces x) ≤ z → ∃ i : Int, z = 2 * i * 2 ^ (-rootPlaces x) := by
      intro z hz hz1
      have hz0 : 0 < z := lt_of_lt_of_le (by positivity) hz1
      obtain ⟨i, hi⟩ := rep_mul hz0 (rep_pos hz0 hz) (m := 1 + -rootPlaces x) (by have := ulpExp_le_pow hz1; omega)
      refine ⟨i, hi.trans ?_⟩
      rw [zpow_add₀ (by norm_num)]; norm_num; ring
    have near : ∀ z : ℚ, binary64.rnd z = .fin z → 2 ^ (59 - rootPlaces x) ≤ z → |(y : ℝ) - Real.sqrt x| ≤ |(z : ℝ) - Real.sqrt x| := by
      intro z hz hz1
      obtain ⟨i, hi⟩ := hmul z hz hz1
      obtain ⟨j, hj⟩ := hmul y hyrep (le_trans (zpow_le_zpow_right₀ (by norm_num) (by omega)) hy1)
      have hq := binary64_nearest hy hz
      have hmidq : (y + z) / 2 = ((i + j : Int) : ℚ) * 2 ^ (-rootPlaces x) := by rw [hi, hj]; push_cast; ring
      have hmidr : ((y : ℝ) + z) / 2 = ((i + j : Int) : ℝ) * 2 ^ (-rootPlaces x) := by
        have := congrArg (Rat.cast (K := ℝ)) hmidq
        rw [Rat.cast_mul, Rat.cast_zpow, Rat.cast_ofNat] at this
        push_cast at this ⊢
        exact this
      rcases lt_trichotomy y z with h | h | h
      · have hR : (y : ℝ) < z := by exact_mod_cast h
        rw [mid_right h, hmidq] at hq
        rw [mid_right hR, hmidr]
        exact (hside _).1 hq
      · rw [h]
      · have hR : (z : ℝ) < y := by exact_mod_cast h
        rw [mid_left h, hmidq] at hq
        rw [mid_left hR, hmidr]
        exact (hside _).2 hq
    intro z hz
    rcases le_or_gt (2 ^ (59 - rootPlaces x)) z with h | h
    · exact near z hz h
    · have h1 := near _ hpow (zpow_le_zpow_right₀ (by norm_num) (by omega))
      refine h1.trans ?_
      rw [Rat.cast_zpow, Rat.cast_ofNat]
      have h2 : (z : ℝ) < 2 ^ (59 - rootPlaces x) := by
        have := (Rat.cast_lt (K := ℝ)).2 h
        rwa [Rat.cast_zpow, Rat.cast_ofNat] at this
      have h3 : (2 : ℝ) ^ (59 - rootPlaces x) ≤ 2 ^ (60 - rootPlaces x) := zpow_le_zpow_right₀ (by norm_num) (by omega)
      generalize (2 : ℝ) ^ (59 - rootPlaces x) = u at *
      generalize (2 : ℝ) ^ (60 - rootPlaces x) = v at *
      rw [abs_of_nonpos (by linarith), abs_of_nonpos (by linarith)]
      linarith

/-- **C93.** The function used for `math.Sqrt` below is the square root of IEEE-754: the root of a `float64` that is not negative is a `float64`, and none is nearer to the exact root. -/
theorem C93_sqrt (x : ℚ) (hx : binary64.rnd x = .fin x) (h0 : 0 ≤ x) :
    ∃ y : ℚ, F64.sqrt (.fin x) = .fin y ∧ binary64.rnd y = .fin y ∧
      ∀ z : ℚ, binary64.rnd z = .fin z → |(y : ℝ) - Real.sqrt x| ≤ |(z : ℝ) - Real.sqrt x| := by
  rcases h0.eq_or_lt with h | h
  · subst h
    exact ⟨0, by simp [F64.sqrt], binary64_lawful.zero, by simp⟩
  · obtain ⟨y, e, -, hn⟩ := sqrt_pos h hx
    exact ⟨y, by simp [F64.sqrt, not_lt.2 h0, h.ne', e], binary64_lawful.idem _ _ e, hn⟩

/-- What it returns outside the non-negative numbers, as IEEE-754 asks: the root of a negative number, of −∞ and of what is not a number is not a number, and the root of +∞ is +∞. -/
theorem C93_sqrt_special : F64.sqrt .nan = .nan ∧ F64.sqrt (.inf true) = .nan ∧ F64.sqrt (.inf false) = .inf false ∧ (∀ x : ℚ, x < 0 → F64.sqrt (.fin x) = .nan) ∧
    (∀ v y, F64.sqrt v = .fin y → ∃ x : ℚ, v = .fin x ∧ 0 ≤ x) := by
  refine ⟨rfl, rfl, rfl, fun x hx => ?_, fun v y hv => ?_⟩
  · show (if x < 0 then F64.nan else _) = _
    rw [if_pos hx]
  · cases v with
    | nan => exact absurd hv (by simp [F64.sqrt])
    | inf b => cases b <;> exact absurd hv (by simp [F64.sqrt])
    | fin x =>
      refine ⟨x, rfl, ?_⟩
      by_contra h
      have : F64.sqrt (.fin x) = .nan := by
        show (if x < 0 then F64.nan else _) = _
        rw [if_pos (not_le.mp h)]
      rw [this] at hv
      cases hv

example : F64.sqrt (.fin (-4)) = .nan := C93_sqrt_special.2.2.2.1 _ (by norm_num)


theorem sqrt_numbers {y t r u : ℝ} (hr : 0 ≤ r) (h1 : |y - t| ≤ u * t) (h2 : |t - r| ≤ u / 4 * r) (hu : 0 ≤ u) (hu1 : u ≤ 1) : |y - r| ≤ 2 * u * r := by
  have h3 := abs_sub_le y t r
  have h4 := (abs_le.1 h2).2
  have h5 : u * t ≤ u * (r + u / 4 * r) := mul_le_mul_of_nonneg_left (by linarith) hu
  have h6 : u * (u / 4 * r) ≤ 1 * (u / 4 * r) := mul_le_mul_of_nonneg_right hu1 (by positivity)
  have h7 : 0 ≤ u * r := mul_nonneg hu hr
  nlinarith

/-- So it is as accurate as the theorems about deviations ask. -/
theorem good_sqrt : Spec.GoodSqrt F64.sqrt := by
  intro x hx h0
  rcases h0.eq_or_lt with h | h
  · subst h
    exact ⟨0, by simp [F64.sqrt], by simp⟩
  · obtain ⟨y, e, hy, -⟩ := sqrt_pos h hx
    refine ⟨y, by simp [F64.sqrt, not_lt.2 h0, h.ne', e], ?_⟩
    obtain ⟨hr, ht, hd, -⟩ := root_sides h
    obtain ⟨b1, b2⟩ := rootPlaces_bounds h hx
    have ht0 : 0 < rootSticky x := lt_of_lt_of_le (by positivity) ht
    have hy' : y = roundPos (rootSticky x) := by
      rw [binary64_pos ht0] at e
      split at e
      · simp at e
      · injection e with e; exact e.symm
    have herr : |y - rootSticky x| ≤ 2 ^ (-53 : Int) * rootSticky x := by
      rw [hy']
      refine (roundPos_err ht0).trans (max_le le_rfl ?_)
      refine le_trans ?_ (mul_le_mul_of_nonneg_left ht (by positivity))
      rw [← zpow_add₀ (by norm_num)]
      exact zpow_le_zpow_right₀ (by norm_num) (by omega)
    have herrR : |(y : ℝ) - rootSticky x| ≤ 2 ^ (-53 : Int) * rootSticky x := by
      have := (Rat.cast_le (K := ℝ)).2 herr
      simpa only [Rat.cast_abs, Rat.cast_sub, Rat.cast_mul, Rat.cast_zpow, Rat.cast_ofNat] using this
    have hd' : |(rootSticky x : ℝ) - Real.sqrt x| ≤ 2 ^ (-53 : Int) / 4 * Real.sqrt x := by
      refine hd.trans (le_trans ?_ (mul_le_mul_of_nonneg_left hr (by positivity)))
      rw [show (2 : ℝ) ^ (-53 : Int) / 4 = 2 ^ (-55 : Int) by norm_num, ← zpow_add₀ (by norm_num)]
      exact zpow_le_zpow_right₀ (by norm_num) (by omega)
    have := sqrt_numbers (Real.sqrt_nonneg _) herrR hd' (by positivity) (by norm_num)
    rw [show (2 : ℝ) ^ (-52 : Int) = 2 * 2 ^ (-53 : Int) by norm_num]
    exact this

/-- **C93.** `GetStdDev` of a uniform snapshot in binary64, with the square root of IEEE-754: off by at most `√(n + 8) 2⁻²⁴ M`. -/
theorem C93_uniform_stddev_ieee (vs : List Int) (h2 : 2 ≤ vs.length) (hlen : vs.length ≤ 2 ^ 46) (hsum : InI64 vs.sum)
    (M : Int) (hM : 1 ≤ M) (hM' : M ≤ 2 ^ 63) (hv : ∀ v ∈ vs, |v| ≤ M) :
    ∃ s : ℚ, (UniformSnapshot.new vs).getStdDev binary64 F64.sqrt = .fin s ∧
      |(s : ℝ) - Real.sqrt (Spec.variance vs)| ≤ Real.sqrt (vs.length + 8) * 2 ^ (-24 : Int) * M :=
  C93_uniform_stddev F64.sqrt good_sqrt vs h2 hlen hsum M hM hM' hv

open WeightedSnapshot in
/-- **C93.** `GetStdDev` of a weighted snapshot in binary64, with the square root of IEEE-754: off by at most `√(8 n) 2⁻²⁴ M`. -/
theorem C93_weighted_stddev_ieee (samples cp : List WeightedSample) (hs : IsSorted samples cp) (h2 : 2 ≤ samples.length)
    (hn : samples.length ≤ 2 ^ 40) (hw : ∀ s ∈ samples, ∃ w : ℚ, s.weight = .fin w ∧ 0 ≤ w) (hlo : 2 ^ (-990 : Int) ≤ Spec.totalWeight (pairs samples))
    (hhi : Spec.totalWeight (pairs samples) ≤ 2 ^ (990 : Int)) (M : Int) (hM : 1 ≤ M) (hM' : M ≤ 2 ^ 63) (hv : ∀ s ∈ samples, |s.value| ≤ M) :
    ∃ x : ℚ, (WeightedSnapshot.new binary64 samples cp).getStdDev binary64 F64.sqrt = .ok (.fin x) ∧
      |(x : ℝ) - Real.sqrt (Spec.weightedVariance (pairs samples))| ≤ Real.sqrt (8 * samples.length) * 2 ^ (-24 : Int) * M :=
  C93_weighted_stddev F64.sqrt good_sqrt samples cp hs h2 hn hw hlo hhi M hM hM' hv

/-- The root of 2 is the number every programmer knows, those of 9 and of the smallest number are exact, and the deviation of 2, 4, 4, 4, 5, 5, 7, 9 is computed. -/
example : F64.sqrt (.fin 2) = .fin (6369051672525773 / 4503599627370496) ∧ F64.sqrt (.fin 9) = .fin 3 ∧ F64.sqrt (.fin (1 / 4)) = .fin (1 / 2) ∧
    (UniformSnapshot.new [9, 2, 4, 5, 4, 4, 5, 7]).getStdDev binary64 F64.sqrt = F64.sqrt (binary64.rnd (32 / 7)) ∧
    F64.sqrt (.fin (-1)) = .nan := by
  decide +kernel

end GoMetrics
