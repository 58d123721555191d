import Verif.Proofs.EWMA
import Verif.Proofs.FloatError
import Verif.Proofs.Seconds
/-! # The rounding error of a moving average does not grow with time -/
namespace GoMetrics
namespace EWMA
open Rounding

theorem abs_le_add {x y e m : ℚ} (h : |x - y| ≤ e) (hy : |y| ≤ m) : |x| ≤ m + e := by
  rw [abs_le] at *; constructor <;> linarith [h.1, h.2, hy.1, hy.2]

/-- The range of magnitudes the proof works with. -/
structure Mid (D : ℚ) : Prop where
  lo : 2 ^ (-100 : Int) ≤ D
  hi : D ≤ 2 ^ (100 : Int)

theorem Mid.rnd {D q k : ℚ} (h : Mid D) (hk : 2 ^ (-50 : Int) ≤ k) (hk' : k ≤ 4) (hq : |q| ≤ k * D) :
    ∃ r, binary64.rnd q = .fin r ∧ |r - q| ≤ 2 ^ (-53 : Int) * (k * D) := by
  have hD : 0 < D := lt_of_lt_of_le (by positivity) h.lo
  refine rnd_err hq ?_ ?_
  · calc (2 : ℚ) ^ (-1000 : Int) ≤ 2 ^ (-50 : Int) * 2 ^ (-100 : Int) := by
          rw [← zpow_add₀ (by norm_num)]; exact zpow_le_zpow_right₀ (by norm_num) (by norm_num)
      _ ≤ k * D := mul_le_mul hk h.lo (by positivity) (le_trans (by positivity) hk)
  · calc k * D ≤ 4 * 2 ^ (100 : Int) := mul_le_mul hk' h.hi hD.le (by norm_num)
      _ ≤ 2 ^ (1000 : Int) := by
        rw [show (4 : ℚ) = 2 ^ (2 : Int) by norm_num, ← zpow_add₀ (by norm_num)]
        exact zpow_le_zpow_right₀ (by norm_num) (by norm_num)

theorem instant_err {D : ℚ} (hD : Mid D) {c I : Int} (hc : |c| < 2 ^ 53) (hI : 0 < I) (hI' : I < 2 ^ 53) (hcD : |(c : ℚ) / I| ≤ D) :
    ∃ i, F64.div binary64 (F64.ofInt binary64 c) (F64.ofInt binary64 I) = .fin i ∧ |i - (c : ℚ) / I| ≤ 2 ^ (-53 : Int) * D := by
  have h1 : F64.ofInt binary64 c = .fin c := binary64_int hc
  have h2 : F64.ofInt binary64 I = .fin I := binary64_int (by rw [abs_of_pos hI]; exact hI')
  have h3 : (I : ℚ) ≠ 0 := by exact_mod_cast hI.ne'
  obtain ⟨i, e1, e2⟩ := hD.rnd (k := 1) (q := (c : ℚ) / I) (le_trans (zpow_le_one_of_nonpos₀ (by norm_num) (by norm_num)) le_rfl) (by norm_num) (by linarith)
  refine ⟨i, ?_, by linarith⟩
  rw [h1, h2]
  simp only [F64.div, if_neg h3]
  exact e1

theorem step_err {a D r x i j : ℚ} (hD : Mid D) (ha : 2 ^ (-40 : Int) ≤ a) (ha' : a ≤ 1 / 4)
    (hx : |x| ≤ D) (hj : |j| ≤ D) (hi : |i - j| ≤ 2 ^ (-53 : Int) * D) (hr : |r - x| ≤ 3 * (2 ^ (-53 : Int) * D) / a) :
    ∃ r', newRate binary64 true (.fin a) (.fin r) (.fin i) = .fin r' ∧ |r' - (x + a * (j - x))| ≤ 3 * (2 ^ (-53 : Int) * D) / a := by
  have hD0 : 0 < D := lt_of_lt_of_le (by positivity) hD.lo
  have ha0 : 0 < a := lt_of_lt_of_le (by positivity) ha
  set v := (2 : ℚ) ^ (-53 : Int) * D with hv
  have hv0 : 0 < v := by positivity
  have hvD : v ≤ D / 1000 := by
    have : (2 : ℚ) ^ (-53 : Int) ≤ 1 / 1000 := by norm_num
    rw [hv]; nlinarith
  set E := 3 * v / a with hE
  have hEa : a * E = 3 * v := by rw [hE]; field_simp
  have hE0 : 0 < E := by positivity
  have hED : E ≤ D / 1000 := by
    rw [hE, div_le_iff₀ ha0]
    have h1 : 3 * v = D * (3 * 2 ^ (-53 : Int)) := by rw [hv]; ring
    rw [h1]
    have h2 : (3 : ℚ) * 2 ^ (-53 : Int) ≤ 1 / 1000 * 2 ^ (-40 : Int) := by norm_num
    calc D * (3 * 2 ^ (-53 : Int)) ≤ D * (1 / 1000 * 2 ^ (-40 : Int)) := mul_le_mul_of_nonneg_left h2 hD0.le
      _ ≤ D * (1 / 1000 * a) := by gcongr
      _ = D / 1000 * a := by ring
  have hra := abs_le_add hr hx
  have hia := abs_le_add hi hj
  -- the difference
  have hd : |i + -r| ≤ 2.02 * D := by
    rw [abs_le] at *; constructor <;> linarith [hra.1, hra.2, hia.1, hia.2]
  obtain ⟨s, e1, f1⟩ := hD.rnd (k := 2.02) (by norm_num) (by norm_num) hd
  have hs : |s| ≤ 2.02 * D + 2.02 * v := by
    have f1' : |s - (i + -r)| ≤ 2.02 * v := by refine f1.trans (le_of_eq ?_); rw [hv]; ring
    have := abs_le_add f1' hd
    linarith
  -- the product
  have hp0 : |a * s| ≤ 2.03 * a * D := by
    rw [abs_mul, abs_of_pos ha0]
    calc a * |s| ≤ a * (2.03 * D) := mul_le_mul_of_nonneg_left (by linarith) ha0.le
      _ = 2.03 * a * D := by ring
  obtain ⟨p, e2, f2⟩ := hD.rnd (k := 2.03 * a) (by
    calc (2 : ℚ) ^ (-50 : Int) ≤ 2 ^ (-40 : Int) := zpow_le_zpow_right₀ (by norm_num) (by norm_num)
      _ ≤ 2.03 * a := ha.trans (by linarith)) (by linarith) hp0
  have haD : a * D ≤ D / 4 := by nlinarith
  have hav : a * v ≤ v / 4 := by nlinarith
  have hf2 : |p - a * s| ≤ 2.03 * (a * v) := by
    refine f2.trans (le_of_eq ?_); rw [hv]; ring
  have hp : |p| ≤ 2.04 * (a * D) := by
    have h1 := abs_le_add hf2 hp0
    have h2 : a * v ≤ a * (D / 1000) := mul_le_mul_of_nonneg_left hvD ha0.le
    have h3 : a * (D / 1000) = a * D / 1000 := by ring
    have h4 : 2.03 * a * D = 2.03 * (a * D) := by ring
    have h5 : 0 < a * D := by positivity
    rw [h3] at h2
    rw [h4] at h1
    refine h1.trans ?_
    linarith
  -- the sum
  have ho : |r + p| ≤ 1.53 * D := by
    rw [abs_le] at *; constructor <;> linarith [hra.1, hra.2, hp.1, hp.2]
  obtain ⟨r', e3, f3⟩ := hD.rnd (k := 1.53) (by norm_num) (by norm_num) ho
  refine ⟨r', ?_, ?_⟩
  · simp only [newRate, if_true, F64.sub, F64.neg, F64.add, e1, F64.mul, e2, e3]
  · have hf1 : |a * (s - (i + -r))| ≤ 2.02 * (a * v) := by
      rw [abs_mul, abs_of_pos ha0]
      calc a * |s - (i + -r)| ≤ a * (2 ^ (-53 : Int) * (2.02 * D)) := mul_le_mul_of_nonneg_left f1 ha0.le
        _ = 2.02 * (a * v) := by rw [hv]; ring
    have hg : |a * (i - j)| ≤ a * v := by
      rw [abs_mul, abs_of_pos ha0]; exact mul_le_mul_of_nonneg_left hi ha0.le
    have hh : |(1 - a) * (r - x)| ≤ E - 3 * v := by
      rw [abs_mul, abs_of_pos (by linarith : (0 : ℚ) < 1 - a)]
      calc (1 - a) * |r - x| ≤ (1 - a) * E := mul_le_mul_of_nonneg_left hr (by linarith)
        _ = E - 3 * v := by rw [sub_mul, one_mul, hEa]
    have hf3 : |r' - (r + p)| ≤ 1.53 * v := by refine f3.trans (le_of_eq ?_); rw [hv]; ring
    have e : r' - (x + a * (j - x)) = (r' - (r + p)) + (p - a * s) + a * (s - (i + -r)) + a * (i - j) + (1 - a) * (r - x) := by ring
    rw [e]
    rw [abs_le] at hf3 hf2 hf1 hg hh ⊢
    constructor <;> linarith [hf3.1, hf3.2, hf2.1, hf2.2, hf1.1, hf1.2, hg.1, hg.2, hh.1, hh.2]

theorem foldl_err {a D : ℚ} (hD : Mid D) (ha : 2 ^ (-40 : Int) ≤ a) (ha' : a ≤ 1 / 4) {I : Int} (hI : 0 < I) (hI' : I < 2 ^ 53) (r0 : F64) (c0 : Int)
    (cs : List Int) (hc : ∀ c ∈ c0 :: cs, |c| < 2 ^ 53 ∧ |(c : ℚ) / I| ≤ D) :
    ∃ r, (c0 :: cs).foldl (coreTick binary64 (.fin a) I) (false, r0) = (true, .fin r) ∧
      |r - Spec.average a I c0 cs| ≤ 3 * (2 ^ (-53 : Int) * D) / a ∧ |Spec.average a I c0 cs| ≤ D := by
  have ha0 : 0 < a := lt_of_lt_of_le (by positivity) ha
  have hD0 : 0 < D := lt_of_lt_of_le (by positivity) hD.lo
  have hin : ∀ cs : List Int, (∀ c ∈ c0 :: cs, |c| < 2 ^ 53 ∧ |(c : ℚ) / I| ≤ D) → |Spec.average a I c0 cs| ≤ D := by
    intro cs hc
    exact abs_le.2 (average_range ha0.le (by linarith) fun c hcm => abs_le.1 (hc c hcm).2)
  induction cs using List.reverseRecOn with
  | nil =>
    obtain ⟨i, e1, e2⟩ := instant_err hD (hc c0 (by simp)).1 hI hI' (hc c0 (by simp)).2
    refine ⟨i, ?_, ?_, hin _ hc⟩
    · simp only [List.foldl_cons, List.foldl_nil, coreTick, e1]
      simp [newRate]
    · simp only [Spec.average, List.length_nil, pow_zero, one_mul, Finset.range_zero, Finset.sum_empty, add_zero]
      refine e2.trans ?_
      rw [le_div_iff₀ ha0]
      have : 0 < (2 : ℚ) ^ (-53 : Int) * D := by positivity
      nlinarith
  | append_singleton cs c ih =>
    have hc' : ∀ c ∈ c0 :: cs, |c| < 2 ^ 53 ∧ |(c : ℚ) / I| ≤ D := fun d hd => hc d (by
      rcases List.mem_cons.1 hd with rfl | hd <;> simp [*])
    obtain ⟨r, e1, e2, e3⟩ := ih hc'
    have hcc := hc c (by simp)
    obtain ⟨i, e4, e5⟩ := instant_err hD hcc.1 hI hI' hcc.2
    obtain ⟨r', e6, e7⟩ := step_err hD ha ha' e3 hcc.2 e5 e2
    refine ⟨r', ?_, ?_, hin _ hc⟩
    · rw [← List.cons_append, List.foldl_append, e1]
      simp only [List.foldl_cons, List.foldl_nil, coreTick, e4, e6]
    · rw [average_snoc]
      convert e7 using 2
      ring

end EWMA
end GoMetrics
