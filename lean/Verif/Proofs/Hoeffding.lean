import Verif.Proofs.Estimate
import Mathlib.Probability.Moments.SubGaussian
/-! Tails of the number of sampled values in a set: Hoeffding's inequality for a sample drawn without replacement. -/
namespace GoMetrics.Estimate
open UniformFair
open MeasureTheory ProbabilityTheory in
theorem bernoulli_mgf (p t : ℝ) (h0 : 0 ≤ p) (h1 : p ≤ 1) : 1 - p + p * Real.exp t ≤ Real.exp (p * t + t ^ 2 / 8) := by
  let μ : Measure ℝ := (ENNReal.ofReal (1 - p)) • Measure.dirac 0 + (ENNReal.ofReal p) • Measure.dirac 1
  have : IsProbabilityMeasure μ := ⟨by
    simp only [μ, Measure.add_apply, Measure.smul_apply, measure_univ, smul_eq_mul, mul_one]
    rw [← ENNReal.ofReal_add (by linarith) h0]; simp⟩
  have hi : ∀ f : ℝ → ℝ, ∫ x, f x ∂μ = (1 - p) * f 0 + p * f 1 := by
    intro f
    have a1 : Integrable f (ENNReal.ofReal (1-p) • Measure.dirac (0:ℝ)) := (integrable_dirac (by simp)).smul_measure (by simp)
    have a2 : Integrable f (ENNReal.ofReal p • Measure.dirac (1:ℝ)) := (integrable_dirac (by simp)).smul_measure (by simp)
    rw [integral_add_measure a1 a2, integral_smul_measure, integral_smul_measure, integral_dirac, integral_dirac,
      ENNReal.toReal_ofReal (by linarith), ENNReal.toReal_ofReal h0]; simp
  have hm : ∫ x, x ∂μ = p := by rw [hi]; ring
  have hb : ∀ᵐ x ∂μ, x ∈ Set.Icc (0:ℝ) 1 := by
    simp only [μ]
    rw [ae_add_measure_iff]
    constructor
    · refine Measure.ae_smul_measure ?_ _
      exact (ae_dirac_iff measurableSet_Icc).2 (by simp)
    · refine Measure.ae_smul_measure ?_ _
      exact (ae_dirac_iff measurableSet_Icc).2 (by simp)
  have h := (hasSubgaussianMGF_of_mem_Icc (X := fun x : ℝ => x) (μ := μ) (a := 0) (b := 1) (by fun_prop) hb).mgf_le t
  rw [mgf, hm, hi] at h
  simp only [sub_zero, nnnorm_one, zero_sub] at h
  have e : Real.exp (p * t + t ^ 2 / 8) = Real.exp (p * t) * Real.exp (t ^ 2 / 8) := Real.exp_add _ _
  have e1 : Real.exp (t * (1 - p)) = Real.exp t * Real.exp (-(p * t)) := by rw [← Real.exp_add]; ring_nf
  have e2 : Real.exp (t * -p) = Real.exp (-(p * t)) := by ring_nf
  rw [e1, e2] at h
  have hpos := Real.exp_pos (p * t)
  have e3 : Real.exp (p * t) * Real.exp (-(p * t)) = 1 := by rw [← Real.exp_add]; simp
  rw [e]
  have h4 : ((((1:NNReal) / 2) ^ 2 : NNReal) : ℝ) * t ^ 2 / 2 = t ^ 2 / 8 := by push_cast; ring
  rw [h4] at h
  calc 1 - p + p * Real.exp t = Real.exp (p * t) * ((1 - p) * Real.exp (-(p*t)) + p * (Real.exp t * Real.exp (-(p*t)))) := by
        linear_combination (-(1 - p) - p * Real.exp t) * e3
    _ ≤ _ := mul_le_mul_of_nonneg_left h hpos.le

theorem pow_bound (c : Nat) (vs : List Int) (A : Int → Bool) (hc : c ≤ vs.length) (hl : vs.length < 2 ^ 63) (u : ℝ) (hu : 0 ≤ u) :
    ((draws vs.length).map fun s => (1 + u) ^ ((sampleOf c vs s).countP A)).sum ≤
      vs.length.factorial * (1 + u * (share vs A : ℚ)) ^ c := by
  have e : ∀ s ∈ draws vs.length, (1 + u) ^ ((sampleOf c vs s).countP A) =
      ∑ j ∈ Finset.range (c + 1), u ^ j * ((((sampleOf c vs s).countP A).choose j : ℚ) : ℝ) := by
    intro s _
    have hX : (sampleOf c vs s).countP A ≤ c := by
      have := List.countP_le_length (p := A) (l := sampleOf c vs s)
      rw [length_sample] at this; exact this
    generalize (sampleOf c vs s).countP A = X at *
    rw [add_comm, add_pow]
    simp only [one_pow, mul_one]
    rw [← Finset.sum_subset (Finset.range_subset_range.2 (by omega : X + 1 ≤ c + 1))]
    · refine Finset.sum_congr rfl fun j _ => ?_
      push_cast; ring
    · intro j _ hj
      rw [Finset.mem_range, not_lt] at hj
      rw [Nat.choose_eq_zero_of_lt (by omega)]; simp
  rw [List.map_congr_left e]
  have sw : ∀ (l : List (List Nat)) (f : Nat → List Nat → ℝ), (l.map fun s => ∑ j ∈ Finset.range (c + 1), f j s).sum =
      ∑ j ∈ Finset.range (c + 1), (l.map fun s => f j s).sum := by
    intro l f
    induction l with
    | nil => simp
    | cons a t ih => simp only [List.map_cons, List.sum_cons, ih, Finset.sum_add_distrib]
  rw [sw, add_comm (1 : ℝ), add_pow, Finset.mul_sum]
  refine Finset.sum_le_sum fun j hj => ?_
  rw [Finset.mem_range] at hj
  have hb := choose_bound c vs A hc hl j (by omega)
  have hb' : ((((draws vs.length).map fun s => ((((sampleOf c vs s).countP A).choose j : Nat) : ℚ)).sum : ℚ) : ℝ) ≤
      ((vs.length.factorial * c.choose j * share vs A ^ j : ℚ) : ℝ) := by exact_mod_cast hb
  have hcast : ((((draws vs.length).map fun s => ((((sampleOf c vs s).countP A).choose j : Nat) : ℚ)).sum : ℚ) : ℝ) =
      ((draws vs.length).map fun s => ((((sampleOf c vs s).countP A).choose j : ℚ) : ℝ)).sum := by
    generalize draws vs.length = l
    induction l with
    | nil => simp
    | cons a t ih => simp only [List.map_cons, List.sum_cons, Rat.cast_add, ih]
  rw [List.sum_map_mul_left, ← hcast]
  calc _ ≤ u ^ j * ((vs.length.factorial * c.choose j * share vs A ^ j : ℚ) : ℝ) := mul_le_mul_of_nonneg_left hb' (by positivity)
    _ = _ := by push_cast; ring

theorem share_nonneg {α : Type} (l : List α) (A : α → Bool) : 0 ≤ share l A := by unfold share; positivity
theorem share_le_one {α : Type} (l : List α) (A : α → Bool) : share l A ≤ 1 := by
  unfold share
  refine div_le_one_of_le₀ ?_ (by positivity)
  exact_mod_cast List.countP_le_length

theorem markov (l : List (List Nat)) (P : List Nat → Bool) (f : List Nat → ℝ) (a : ℝ) (hf : ∀ s ∈ l, 0 ≤ f s) (hP : ∀ s ∈ l, P s = true → a ≤ f s) :
    (l.countP P : ℝ) * a ≤ (l.map f).sum := by
  induction l with
  | nil => simp
  | cons s l ih =>
    have i := ih (fun t ht => hf t (by simp [ht])) (fun t ht => hP t (by simp [ht]))
    rw [List.map_cons, List.sum_cons, List.countP_cons]
    by_cases h : P s = true
    · have := hP s (by simp) h
      simp only [h, if_true]; push_cast; linarith
    · have := hf s (by simp)
      simp only [h, if_false, Bool.false_eq_true, Nat.add_zero]; linarith

/-- Hoeffding's inequality for the sample of the reservoir. -/
theorem tail (c : Nat) (vs : List Int) (A : Int → Bool) (hc0 : 0 < c) (hc : c ≤ vs.length) (hl : vs.length < 2 ^ 63) (ε : ℚ) (hε : 0 ≤ ε) :
    ((share (draws vs.length) fun s => decide (share vs A + ε ≤ share (sampleOf c vs s) A) : ℚ) : ℝ) ≤ Real.exp (-2 * c * (ε : ℝ) ^ 2) := by
  have hε' : (0 : ℝ) ≤ ε := by exact_mod_cast hε
  have ht : (0 : ℝ) ≤ 4 * ε := by linarith
  have h1 := pow_bound c vs A hc hl (Real.exp (4 * ε) - 1) (by linarith [Real.add_one_le_exp (4 * (ε : ℝ))])
  have hp0 : (0 : ℝ) ≤ (share vs A : ℚ) := by exact_mod_cast share_nonneg vs A
  have hp1 : ((share vs A : ℚ) : ℝ) ≤ 1 := by exact_mod_cast share_le_one vs A
  have h2 := bernoulli_mgf (share vs A : ℚ) (4 * ε) hp0 hp1
  have hm := markov (draws vs.length) (fun s => decide (share vs A + ε ≤ share (sampleOf c vs s) A))
    (fun s => (1 + (Real.exp (4 * ε) - 1)) ^ ((sampleOf c vs s).countP A)) (Real.exp (4 * ε * (c * ((share vs A : ℚ) + ε)))) ?_ ?_
  · have hf : (0 : ℝ) < vs.length.factorial := by exact_mod_cast Nat.factorial_pos _
    have h3 : (1 + (Real.exp (4 * ε) - 1) * ((share vs A : ℚ) : ℝ)) ^ c ≤ Real.exp (c * ((share vs A : ℚ) * (4 * ε) + (4 * (ε : ℝ)) ^ 2 / 8)) := by
      rw [Real.exp_nat_mul]
      refine pow_le_pow_left₀ ?_ (le_trans (le_of_eq (by ring)) h2) _
      have : (0 : ℝ) ≤ Real.exp (4 * ε) - 1 := by linarith [Real.add_one_le_exp (4 * (ε : ℝ))]
      positivity
    have h4 := le_trans hm (le_trans h1 (mul_le_mul_of_nonneg_left h3 hf.le))
    have hs : ((share (draws vs.length) fun s => decide (share vs A + ε ≤ share (sampleOf c vs s) A) : ℚ) : ℝ) =
        ((draws vs.length).countP (fun s => decide (share vs A + ε ≤ share (sampleOf c vs s) A)) : ℝ) / vs.length.factorial := by
      unfold share; rw [length_draws]; push_cast; rfl
    rw [hs, div_le_iff₀ hf]
    have hx := Real.exp_pos (4 * ε * (c * (((share vs A : ℚ) : ℝ) + ε)))
    rw [← mul_le_mul_iff_of_pos_right hx]
    refine le_trans h4 (le_of_eq ?_)
    rw [mul_comm (Real.exp (-2 * _ * _)), mul_assoc, ← Real.exp_add]
    congr 2; ring
  · intro s _
    have := Real.exp_pos (4 * (ε : ℝ))
    have h : 1 + (Real.exp (4 * ε) - 1) = Real.exp (4 * (ε : ℝ)) := by ring
    simp only [h]; positivity
  · intro s _ hP
    simp only [decide_eq_true_iff] at hP
    have h : 1 + (Real.exp (4 * ε) - 1) = Real.exp (4 * (ε : ℝ)) := by ring
    simp only [h]
    rw [← Real.exp_nat_mul, Real.exp_le_exp, mul_comm]
    refine mul_le_mul_of_nonneg_right ?_ ht
    have hP' : (share vs A + ε) * c ≤ ((sampleOf c vs s).countP A : ℚ) := by
      have hs : share (sampleOf c vs s) A = ((sampleOf c vs s).countP A : ℚ) / c := by unfold share; rw [length_sample]
      rw [hs] at hP
      exact (le_div_iff₀ (by exact_mod_cast hc0)).1 hP
    have : (((share vs A + ε) * c : ℚ) : ℝ) ≤ (((sampleOf c vs s).countP A : ℚ) : ℝ) := by exact_mod_cast hP'
    push_cast at this
    linarith

end GoMetrics.Estimate
