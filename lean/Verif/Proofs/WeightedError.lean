import Verif.Proofs.VarianceError
import Verif.Spec.Statistics
import Verif.Spec.WeightedSnapshot
import Verif.Proofs.WeightedSnapshot
/-! # Rounding errors of weighted means, variances and quantiles -/
namespace GoMetrics
open Rounding
namespace WeightedSnapshot

/-- Weights for which sums and quotients neither overflow nor underflow. -/
structure Usable (samples : List WeightedSample) : Prop where
  fin : ∀ s ∈ samples, ∃ w : ℚ, s.weight = .fin w ∧ 0 ≤ w
  lo : 2 ^ (-990 : Int) ≤ (samples.map wt).sum
  hi : (samples.map wt).sum ≤ 2 ^ (990 : Int)

theorem Usable.wt {samples : List WeightedSample} (h : Usable samples) {s : WeightedSample} (hs : s ∈ samples) : s.weight = .fin (wt s) ∧ 0 ≤ wt s := by
  obtain ⟨w, e, h0⟩ := h.fin s hs
  have : GoMetrics.WeightedSnapshot.wt s = w := by unfold GoMetrics.WeightedSnapshot.wt; rw [e]
  rw [this]; exact ⟨e, h0⟩

theorem Usable.pos {samples : List WeightedSample} (h : Usable samples) : 0 < (samples.map WeightedSnapshot.wt).sum := lt_of_lt_of_le (by positivity) h.lo

theorem small_count {n : ℕ} (hn : n ≤ 2 ^ 40) : (n : ℚ) * hulp ≤ 1 / 8192 := by
  have : (n : ℚ) ≤ 2 ^ 40 := by exact_mod_cast hn
  calc (n : ℚ) * hulp ≤ 2 ^ 40 * hulp := mul_le_mul_of_nonneg_right this hulp_pos.le
    _ ≤ 1 / 8192 := by unfold hulp; norm_num

theorem total_err {samples : List WeightedSample} (h : Usable samples) (hn : samples.length ≤ 2 ^ 40) :
    ∃ W', totalWeight binary64 samples = .fin W' ∧ |W' - (samples.map wt).sum| ≤ samples.length * hulp * (1.01 * (samples.map wt).sum) := by
  have hnu := small_count hn
  obtain ⟨x, e1, e2⟩ := sum_err h.lo h.hi (fun s : WeightedSample => s.weight) wt samples (fun s hs => (h.wt hs).1) 0 (by rw [zero_add]; linarith) 0 0 (by simp) (by
    rw [abs_zero, zero_add]
    apply le_of_eq
    congr 1
    apply List.map_congr_left
    intro s hs
    exact abs_of_nonneg (h.wt hs).2)
  rw [zero_add, zero_add, ← mul_assoc] at e2
  exact ⟨x, e1, e2⟩

theorem wt_le_total {samples : List WeightedSample} (h : Usable samples) {s : WeightedSample} (hs : s ∈ samples) : wt s ≤ (samples.map wt).sum :=
  List.single_le_sum (by simp only [List.mem_map]; rintro x ⟨y, hy, rfl⟩; exact (h.wt hy).2) _ (List.mem_map.2 ⟨s, hs, rfl⟩)

/-- The normalised weights in binary64. -/
theorem weight_err {samples : List WeightedSample} (h : Usable samples) (hn : samples.length ≤ 2 ^ 40) :
    ∃ g : WeightedSample → ℚ, ∀ s ∈ samples, F64.div binary64 s.weight (totalWeight binary64 samples) = .fin (g s) ∧ 0 ≤ g s ∧ g s ≤ 1.05 ∧
      |g s - wt s / (samples.map wt).sum| ≤ 1.02 * hulp + 1.03 * (samples.length * hulp) * (wt s / (samples.map wt).sum) := by
  have hnu := small_count hn
  have hu0 := hulp_pos
  have hus := hulp_small
  obtain ⟨W', eW, hW⟩ := total_err h hn
  have hW0 := h.pos
  have key : ∀ s ∈ samples, ∃ r, F64.div binary64 s.weight (totalWeight binary64 samples) = .fin r ∧ 0 ≤ r ∧ r ≤ 1.05 ∧
      |r - wt s / (samples.map wt).sum| ≤ 1.02 * hulp + 1.03 * (samples.length * hulp) * (wt s / (samples.map wt).sum) := by
    intro s hs
    obtain ⟨ew, hw0⟩ := h.wt hs
    have hwW := wt_le_total h hs
    rw [eW, ew]
    have hn0 : 0 ≤ (samples.length : ℚ) * hulp := by positivity
    clear eW ew
    have := h.lo
    clear this h
    generalize (samples.map wt).sum = W at *
    generalize wt s = w at *
    generalize (samples.length : ℚ) * hulp = k at *
    have hk : k * (1.01 * W) ≤ 1 / 8192 * (1.01 * W) := mul_le_mul_of_nonneg_right hnu (by linarith)
    have hW'1 := (abs_le.1 hW).1
    have hW'0 : 0.99 * W ≤ W' := by linarith
    have hW'p : 0 < W' := by linarith
    have hq : w / W' ≤ 1.02 := by rw [div_le_iff₀ hW'p]; linarith
    have hq0 : 0 ≤ w / W' := div_nonneg hw0 hW'p.le
    obtain ⟨r, e1, e2⟩ := rnd_err' (q := w / W') (B := 1.02) (by rw [abs_of_nonneg hq0]; exact hq) (by norm_num) (by norm_num)
    have e2' : |r - w / W'| ≤ hulp * 1.02 := e2
    refine ⟨r, ?_, ?_, ?_, ?_⟩
    · simp only [F64.div]
      rw [if_neg hW'p.ne', e1]
    · have := binary64_lawful.mono 0 (w / W') hq0
      rw [binary64_lawful.zero, e1] at this
      exact this
    · have := (abs_le.1 e2').2
      linarith
    · have e : r - w / W = (r - w / W') + (w / W' - w / W) := by ring
      rw [e]
      refine (abs_add_le _ _).trans ?_
      have h3 : |w / W' - w / W| ≤ 1.03 * k * (w / W) := by
        have e : w / W' - w / W = (w / W) * ((W - W') / W') := by field_simp
        rw [e, abs_mul, abs_of_nonneg (div_nonneg hw0 hW0.le), mul_comm]
        apply mul_le_mul_of_nonneg_right _ (div_nonneg hw0 hW0.le)
        rw [abs_div, abs_of_pos hW'p, div_le_iff₀ hW'p, abs_sub_comm]
        refine hW.trans ?_
        have : 1.03 * k * (0.99 * W) ≤ 1.03 * k * W' := mul_le_mul_of_nonneg_left hW'0 (by positivity)
        have hkW : 0 ≤ k * W := by positivity
        linarith
      linarith
  classical
  refine ⟨fun s => if hs : s ∈ samples then (key s hs).choose else 0, fun s hs => ?_⟩
  simp only [dif_pos hs]
  exact (key s hs).choose_spec

theorem sum_shares {samples : List WeightedSample} (h : Usable samples) : (samples.map fun s => wt s / (samples.map wt).sum).sum = 1 := by
  have : ∀ (l : List WeightedSample) (W : ℚ), (l.map fun s => wt s / W).sum = (l.map wt).sum / W := by
    intro l W
    induction l with
    | nil => simp
    | cons a t ih => simp only [List.map_cons, List.sum_cons, ih]; ring
  rw [this, div_self h.pos.ne']

theorem sum_abs_mono {α : Type} (l : List α) (f g : α → ℚ) (h : ∀ a ∈ l, f a ≤ g a) : (l.map f).sum ≤ (l.map g).sum := List.sum_le_sum h

theorem sum_lin {α : Type} (l : List α) (f : α → ℚ) (a b : ℚ) : (l.map fun s => a + b * f s).sum = l.length * a + b * (l.map f).sum := by
  induction l with
  | nil => simp
  | cons x t ih => simp only [List.map_cons, List.sum_cons, List.length_cons, ih]; push_cast; ring

theorem abs_sum_diff {α : Type} (l : List α) (f g : α → ℚ) : |(l.map f).sum - (l.map g).sum| ≤ (l.map fun a => |f a - g a|).sum := by
  induction l with
  | nil => simp
  | cons a t ih =>
    simp only [List.map_cons, List.sum_cons]
    have e1 : f a + (t.map f).sum - (g a + (t.map g).sum) = (f a - g a) + ((t.map f).sum - (t.map g).sum) := by ring
    rw [e1]
    exact (abs_add_le _ _).trans (by linarith)

theorem weightedSum_eq (R : Rounding) (acc : F64) (cp : List WeightedSample) (wf : WeightedSample → F64) :
    weightedSum R acc (cp.map fun s => (s.value, wf s)) = cp.foldl (fun t s => F64.add R t (F64.mul R (F64.ofInt R s.value) (wf s))) acc := by
  induction cp generalizing acc with
  | nil => rfl
  | cons s t ih => simp only [List.map_cons, weightedSum, List.foldl_cons, ih]

theorem varianceSum_eq (R : Rounding) (mean acc : F64) (cp : List WeightedSample) (wf : WeightedSample → F64) :
    varianceSum R mean acc (cp.map fun s => (s.value, wf s)) =
      cp.foldl (fun t s => F64.add R t (F64.mul R (F64.mul R (wf s) (F64.sub R (F64.ofInt R s.value) mean)) (F64.sub R (F64.ofInt R s.value) mean))) acc := by
  induction cp generalizing acc with
  | nil => rfl
  | cons s t ih => simp only [List.map_cons, varianceSum, List.foldl_cons, ih]

theorem zip_new (R : Rounding) (samples cp : List WeightedSample) (hne : samples ≠ []) :
    (new R samples cp).values.zip (new R samples cp).normalizedWeights = cp.map fun s => (s.value, F64.div R s.weight (totalWeight R samples)) := by
  unfold new
  rw [if_neg (by rw [List.length_eq_zero_iff]; exact hne)]
  simp only [List.zip_map']

/-- `float64(v) * weight`. -/
theorem product_err {M : ℚ} (hM : 1 ≤ M) (hM' : M ≤ 2 ^ 63) {v : Int} (hv : |(v : ℚ)| ≤ M) {w o : ℚ} (hw : 0 ≤ w) (hw' : w ≤ 1.05) :
    ∃ p, F64.mul binary64 (F64.ofInt binary64 v) (.fin w) = .fin p ∧ |p - v * o| ≤ 1.1 * (hulp * M) + hulp * M * w + M * |w - o| ∧ |p| ≤ 1.1 * (hulp * M) + 1.0001 * M * w := by
  have hu0 := hulp_pos
  have hus := hulp_small
  obtain ⟨a, ha, ea⟩ := ofInt_rel (n := v) (by
    have : |(v : ℚ)| ≤ 2 ^ 64 := hv.trans (hM'.trans (by norm_num))
    exact_mod_cast this)
  have hna := near_one ha
  have ha' : |1 + a| ≤ 1.0001 := by
    have := abs_le.1 ha
    rw [abs_le]; constructor <;> linarith
  have hb0 : |(v : ℚ) * (1 + a) * w| ≤ 1.0001 * M * w := by
    rw [abs_mul, abs_mul, abs_of_nonneg hw]
    apply mul_le_mul_of_nonneg_right _ hw
    rw [mul_comm]
    exact mul_le_mul ha' hv (abs_nonneg _) (by norm_num)
  have hb : |(v : ℚ) * (1 + a) * w| ≤ 1.1 * M := by
    refine hb0.trans ?_
    have : M * w ≤ M * 1.05 := mul_le_mul_of_nonneg_left hw' (by linarith)
    linarith
  obtain ⟨p, e1, e2⟩ := rnd_err' hb (le_trans (by norm_num) (by linarith : (1 : ℚ) ≤ 1.1 * M)) (by
    calc 1.1 * M ≤ 2 * 2 ^ 63 := by linarith
      _ ≤ 2 ^ (200 : Int) := by norm_num)
  have e2' : |p - (v : ℚ) * (1 + a) * w| ≤ hulp * (1.1 * M) := e2
  refine ⟨p, by rw [ea]; exact e1, ?_, ?_⟩
  · have e : p - v * o = (p - (v : ℚ) * (1 + a) * w) + (v * a * w + v * (w - o)) := by ring
    rw [e]
    refine (abs_add_le _ _).trans ?_
    have h1 : |(v : ℚ) * a * w + v * (w - o)| ≤ hulp * M * w + M * |w - o| := by
      refine (abs_add_le _ _).trans ?_
      rw [abs_mul, abs_mul, abs_mul, abs_of_nonneg hw]
      apply add_le_add
      · apply mul_le_mul_of_nonneg_right _ hw
        rw [mul_comm]
        exact mul_le_mul ha hv (abs_nonneg _) hu0.le
      · exact mul_le_mul_of_nonneg_right hv (abs_nonneg _)
    linarith
  · have e : p = (p - (v : ℚ) * (1 + a) * w) + (v : ℚ) * (1 + a) * w := by ring
    rw [e]
    refine (abs_add_le _ _).trans ?_
    linarith

end WeightedSnapshot
end GoMetrics
