import Verif.Proofs.EWMAError
import Verif.Model.EWMAStandard
import Verif.Spec.EWMAIdeal
/-! # From the rounded average to the ideal one -/
namespace GoMetrics
namespace EWMA
open Rounding

/-- `Spec.average` in real numbers. -/
noncomputable def averageR (a : ℝ) (I : Int) (c0 : Int) (cs : List Int) : ℝ :=
  (1 - a) ^ cs.length * (c0 / I) +
    ∑ k ∈ Finset.range cs.length, a * (1 - a) ^ (cs.length - 1 - k) * ((cs.getD k 0 : Int) / I)

theorem cast_average (a : ℚ) (I : Int) (c0 : Int) (cs : List Int) : ((Spec.average a I c0 cs : ℚ) : ℝ) = averageR a I c0 cs := by
  unfold Spec.average averageR
  push_cast
  rfl

theorem averageR_snoc (a : ℝ) (I : Int) (c0 : Int) (cs : List Int) (c : Int) :
    averageR a I c0 (cs ++ [c]) = (1 - a) * averageR a I c0 cs + a * ((c : ℝ) / I) := by
  unfold averageR
  rw [List.length_append, List.length_singleton, Finset.sum_range_succ, mul_add, Finset.mul_sum]
  have h1 : ∀ k ∈ Finset.range cs.length,
      a * (1 - a) ^ (cs.length + 1 - 1 - k) * (((cs ++ [c]).getD k 0 : Int) / I : ℝ) =
        (1 - a) * (a * (1 - a) ^ (cs.length - 1 - k) * ((cs.getD k 0 : Int) / I)) := by
    intro k hk
    have hk' := Finset.mem_range.1 hk
    have e : cs.length + 1 - 1 - k = (cs.length - 1 - k) + 1 := by omega
    rw [e, pow_succ]
    have : (cs ++ [c]).getD k 0 = cs.getD k 0 := by
      simp [List.getElem?_append_left hk']
    rw [this]; ring
  rw [Finset.sum_congr rfl h1]
  simp
  ring

theorem averageR_range {a D : ℝ} (ha : 0 ≤ a) (ha' : a ≤ 1) {I c0 : Int} {cs : List Int} (h : ∀ c ∈ c0 :: cs, |(c : ℝ) / I| ≤ D) :
    |averageR a I c0 cs| ≤ D := by
  induction cs using List.reverseRecOn with
  | nil => simpa [averageR] using h c0 (by simp)
  | append_singleton cs c ih =>
    have h1 := ih (fun d hd => h d (by rcases List.mem_cons.1 hd with rfl | hd <;> simp [*]))
    have h2 := h c (by simp)
    rw [averageR_snoc]
    rw [abs_le] at *
    constructor <;> nlinarith [h1.1, h1.2, h2.1, h2.2]

/-- A slightly wrong smoothing constant changes the average by a bounded amount, however long it runs. -/
theorem averageR_diff {a α D : ℝ} (ha : 0 < a) (ha' : a ≤ 1) (hα : 0 ≤ α) (hα' : α ≤ 1) {I c0 : Int} {cs : List Int}
    (h : ∀ c ∈ c0 :: cs, |(c : ℝ) / I| ≤ D) : |averageR a I c0 cs - averageR α I c0 cs| ≤ 2 * D * |a - α| / a := by
  have hD : 0 ≤ D := le_trans (abs_nonneg _) (h c0 (by simp))
  induction cs using List.reverseRecOn with
  | nil => simp only [averageR, List.length_nil, pow_zero, Finset.range_zero, Finset.sum_empty, sub_self, abs_zero]; positivity
  | append_singleton cs c ih =>
    have h0 : ∀ d ∈ c0 :: cs, |(d : ℝ) / I| ≤ D := fun d hd => h d (by rcases List.mem_cons.1 hd with rfl | hd <;> simp [*])
    have h1 := ih h0
    have h2 := h c (by simp)
    have h3 := averageR_range hα hα' h0
    rw [averageR_snoc, averageR_snoc]
    set x := averageR a I c0 cs
    set y := averageR α I c0 cs
    set j := (c : ℝ) / I
    have e : (1 - a) * x + a * j - ((1 - α) * y + α * j) = (1 - a) * (x - y) + (a - α) * (j - y) := by ring
    rw [e]
    have h4 : |j - y| ≤ 2 * D := by rw [abs_le] at *; constructor <;> linarith [h2.1, h2.2, h3.1, h3.2]
    calc |(1 - a) * (x - y) + (a - α) * (j - y)| ≤ |(1 - a) * (x - y)| + |(a - α) * (j - y)| := abs_add_le _ _
      _ = (1 - a) * |x - y| + |a - α| * |j - y| := by rw [abs_mul, abs_mul, abs_of_nonneg (by linarith : (0 : ℝ) ≤ 1 - a)]
      _ ≤ (1 - a) * (2 * D * |a - α| / a) + |a - α| * (2 * D) := by
        gcongr
      _ = 2 * D * |a - α| / a := by field_simp; ring

theorem exp_mul (N : ℝ) (m : ℕ) : Real.exp (-(5 * m / 60) / N) = (1 - (1 - Real.exp (-(5 / 60) / N))) ^ m := by
  rw [sub_sub_cancel, ← Real.exp_nat_mul]
  congr 1
  ring

theorem ideal_eq (N : ℝ) (c0 : Int) (cs : List Int) : Spec.ideal N c0 cs = averageR (1 - Real.exp (-(5 / 60) / N)) 5000000000 c0 cs := by
  unfold Spec.ideal averageR
  rw [exp_mul]
  push_cast
  congr 1
  refine Finset.sum_congr rfl fun k _ => ?_
  rw [exp_mul]
  ring

/-- The computed smoothing constant. -/
theorem alpha_err {exp : F64 → F64} (he : Spec.GoodExp exp) {N : Int} (hN : 1 ≤ N) (hN' : N ≤ 1000) :
    ∃ a : ℚ, standardAlpha binary64 exp N = .fin a ∧ |(a : ℝ) - (1 - Real.exp (-(5 / 60) / N))| ≤ 2.3 * 2 ^ (-53 : Int) := by
  have hNq : (1 : ℚ) ≤ N := by exact_mod_cast hN
  have hNq' : (N : ℚ) ≤ 1000 := by exact_mod_cast hN'
  have hq : |(-5 / 60 / N : ℚ)| ≤ 1 / 12 := by
    rw [abs_div, abs_of_pos (by linarith : (0 : ℚ) < N), div_le_iff₀ (by linarith)]
    norm_num; linarith
  obtain ⟨x, e1, f1⟩ := rnd_err' hq (by norm_num) (by norm_num)
  have hle : (binary64.rnd (-5 / 60 / N : ℚ)).le (binary64.rnd 0) := binary64_lawful.mono _ _ (by
    apply div_nonpos_of_nonpos_of_nonneg <;> linarith)
  rw [e1, binary64_lawful.zero] at hle
  have hx0 : x ≤ 0 := hle
  have hx1 : -1 ≤ x := by
    rw [abs_le] at hq f1
    have : (2 : ℚ) ^ (-53 : Int) * (1 / 12) ≤ 1 / 12 := by norm_num
    linarith [hq.1, f1.1]
  obtain ⟨y, e2, f2⟩ := he x (binary64_lawful.idem _ _ e1) hx1 hx0
  -- the argument of the exponential
  have hu : (2 : ℝ) ^ (-53 : Int) ≤ 1 / 1000 := by norm_num
  have hu0 : (0 : ℝ) < (2 : ℝ) ^ (-53 : Int) := by positivity
  set u := (2 : ℝ) ^ (-53 : Int) with hudef
  have hNr : (1 : ℝ) ≤ N := by exact_mod_cast hN
  set x0 : ℝ := -(5 / 60) / N with hx0def
  have hdx : |(x : ℝ) - x0| ≤ u / 12 := by
    have h1 : (((x - -5 / 60 / N : ℚ) : ℚ) : ℝ) = (x : ℝ) - x0 := by push_cast; rw [hx0def]; ring
    rw [← h1, ← Rat.cast_abs]
    have h2 : ((|x - -5 / 60 / N| : ℚ) : ℝ) ≤ ((2 ^ (-53 : Int) * (1 / 12) : ℚ) : ℝ) := by exact_mod_cast f1
    refine h2.trans (le_of_eq ?_)
    push_cast
    rw [hudef]; ring
  have hx0neg : x0 < 0 := by rw [hx0def]; apply div_neg_of_neg_of_pos <;> linarith
  have hx0ge : -(1 / 12) ≤ x0 := by rw [hx0def, le_div_iff₀ (by linarith)]; nlinarith
  have hE0 : Real.exp x0 ≤ 1 := by rw [Real.exp_le_one_iff]; exact hx0neg.le
  have hE0' : 11 / 12 ≤ Real.exp x0 := by have := Real.add_one_le_exp x0; linarith
  have hexp : |Real.exp x - Real.exp x0| ≤ u / 6 := by
    have h1 : Real.exp x - Real.exp x0 = Real.exp x0 * (Real.exp (x - x0) - 1) := by
      rw [mul_sub, ← Real.exp_add, mul_one]; congr 2; ring
    rw [h1, abs_mul, abs_of_pos (Real.exp_pos _)]
    have h2 := Real.abs_exp_sub_one_le (x := (x : ℝ) - x0) (by linarith)
    calc Real.exp x0 * |Real.exp (x - x0) - 1| ≤ 1 * (2 * |(x : ℝ) - x0|) := by
          apply mul_le_mul hE0 h2 (abs_nonneg _) (by norm_num)
      _ ≤ u / 6 := by linarith
  have h52 : (2 : ℝ) ^ (-52 : Int) = 2 * u := by rw [hudef]; norm_num
  have hy : |(y : ℝ) - Real.exp x0| ≤ 2.2 * u := by
    rw [h52] at f2
    have hb : 2 * u * Real.exp x ≤ 2 * u * 1.01 := by
      apply mul_le_mul_of_nonneg_left _ (by linarith)
      rw [abs_le] at hexp; linarith [hexp.2]
    have g1 := (abs_le.1 f2)
    have g2 := (abs_le.1 hexp)
    clear hudef h52 hu hdx hx0def f2 hexp
    clear_value u x0
    generalize 2 * u * Real.exp x = T at g1 hb
    rw [abs_le]
    constructor <;> linarith [g1.1, g1.2, g2.1, g2.2]
  have hyq : |1 + -y| ≤ (0.09 : ℚ) := by
    have h1 : |1 + -(y : ℝ)| ≤ 0.09 := by
      rw [abs_le] at *; constructor <;> linarith [hy.1, hy.2]
    have h2 : ((|1 + -y| : ℚ) : ℝ) ≤ ((0.09 : ℚ) : ℝ) := by push_cast; exact h1
    exact_mod_cast h2
  obtain ⟨a, e3, f3⟩ := rnd_err' hyq (by norm_num) (by norm_num)
  refine ⟨a, ?_, ?_⟩
  · simp only [standardAlpha, e1, e2, F64.sub, F64.neg, F64.add, e3]
  · have h1 : |(a : ℝ) - (1 + -y)| ≤ u * 0.09 := by
      have h2 : ((|a - (1 + -y)| : ℚ) : ℝ) ≤ ((2 ^ (-53 : Int) * 0.09 : ℚ) : ℝ) := by exact_mod_cast f3
      push_cast at h2
      rw [hudef]
      exact h2
    rw [abs_le] at *
    constructor <;> linarith [h1.1, h1.2, hy.1, hy.2]

/-- The ideal smoothing constant is at least `12/13` of `1/(12 N)`. -/
theorem alpha_ge {N : ℝ} (hN : 1 ≤ N) : 1 / (13 * N) ≤ 1 - Real.exp (-(5 / 60) / N) ∧ 1 - Real.exp (-(5 / 60) / N) ≤ 1 / 12 := by
  set t : ℝ := (5 / 60) / N with ht
  have ht0 : 0 < t := by positivity
  have ht1 : t ≤ 1 / 12 := by rw [ht, div_le_iff₀ (by linarith)]; linarith
  have e : -(5 / 60) / N = -t := by rw [ht]; ring
  rw [e]
  constructor
  · have h1 := Real.add_one_le_exp t
    have h2 : Real.exp (-t) ≤ 1 / (1 + t) := by
      rw [Real.exp_neg, ← one_div]
      exact one_div_le_one_div_of_le (by linarith) (by linarith)
    have h3 : 1 / (13 * N) = 12 / 13 * t := by rw [ht]; field_simp; norm_num
    have h4 : 12 / 13 * t ≤ 1 - 1 / (1 + t) := by
      rw [show 1 - 1 / (1 + t) = t / (1 + t) by field_simp; ring, le_div_iff₀ (by linarith)]
      nlinarith
    rw [h3]; linarith
  · have := Real.add_one_le_exp (-t)
    linarith

end EWMA
end GoMetrics
