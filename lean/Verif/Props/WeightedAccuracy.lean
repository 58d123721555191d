import Verif.Proofs.WeightedError
import Verif.Props.Accuracy
import Verif.Props.WeightedSnapshot
/-! # C93 (continued) — accuracy of the mean and deviation of a weighted snapshot in binary64 -/
namespace GoMetrics
open Rounding
namespace WeightedSnapshot

/-- Values and weights as exact numbers. -/
def pairs (samples : List WeightedSample) : List (Int × ℚ) := samples.map fun s => (s.value, wt s)

theorem total_pairs (samples : List WeightedSample) : Spec.totalWeight (pairs samples) = (samples.map wt).sum := by
  unfold Spec.totalWeight pairs
  rw [List.map_map]; rfl

theorem mean_pairs {samples cp : List WeightedSample} (hs : cp.Perm samples) :
    Spec.weightedMean (pairs samples) = (cp.map fun s => (s.value : ℚ) * (wt s / (samples.map wt).sum)).sum := by
  unfold Spec.weightedMean
  rw [total_pairs]
  have h1 : ∀ (l : List WeightedSample) (W : ℚ), ((pairs l).map fun p => (p.1 : ℚ) * p.2).sum / W = (l.map fun s => (s.value : ℚ) * (wt s / W)).sum := by
    intro l W
    induction l with
    | nil => simp [pairs]
    | cons a t ih =>
      have ih' := ih
      unfold pairs at ih' ⊢
      simp only [List.map_cons, List.sum_cons]
      rw [add_div, ih']
      ring
  rw [h1]
  exact ((hs.map _).sum_eq).symm

theorem variance_pairs {samples cp : List WeightedSample} (hs : cp.Perm samples) :
    Spec.weightedVariance (pairs samples) = (cp.map fun s => wt s / (samples.map wt).sum * ((s.value : ℚ) - Spec.weightedMean (pairs samples)) ^ 2).sum := by
  unfold Spec.weightedVariance
  generalize Spec.weightedMean (pairs samples) = m
  rw [total_pairs]
  have h1 : ∀ (l : List WeightedSample) (W : ℚ), ((pairs l).map fun p => ((p.1 : ℚ) - m) ^ 2 * p.2).sum / W = (l.map fun s => wt s / W * ((s.value : ℚ) - m) ^ 2).sum := by
    intro l W
    induction l with
    | nil => simp [pairs]
    | cons a t ih =>
      have ih' := ih
      unfold pairs at ih' ⊢
      simp only [List.map_cons, List.sum_cons]
      rw [add_div, ih']
      ring
  rw [h1]
  exact ((hs.map _).sum_eq).symm

section
variable {samples cp : List WeightedSample}

theorem perm_sum (hs : cp.Perm samples) (f : WeightedSample → ℚ) : (cp.map f).sum = (samples.map f).sum := (hs.map f).sum_eq

/-- What `weight_err` says of the sums. -/
theorem weights_sum (h : Usable samples) (hn : samples.length ≤ 2 ^ 40) (hs : cp.Perm samples) {g : WeightedSample → ℚ}
    (hg : ∀ s ∈ samples, |g s - wt s / (samples.map wt).sum| ≤ 1.02 * hulp + 1.03 * (samples.length * hulp) * (wt s / (samples.map wt).sum)) :
    (cp.map fun s => |g s - wt s / (samples.map wt).sum|).sum ≤ 2.05 * (samples.length * hulp) ∧ (cp.map g).sum ≤ 1.01 := by
  have hnu := small_count hn
  have h1 : (samples.map fun s => |g s - wt s / (samples.map wt).sum|).sum ≤ 2.05 * (samples.length * hulp) := by
    refine (List.sum_le_sum hg).trans ?_
    rw [sum_lin samples (fun s => wt s / (samples.map wt).sum), sum_shares h]
    apply le_of_eq
    ring
  refine ⟨by rw [perm_sum hs]; exact h1, ?_⟩
  rw [perm_sum hs]
  have h2 := abs_sum_diff samples g (fun s => wt s / (samples.map wt).sum)
  rw [sum_shares h] at h2
  have := (abs_le.1 (h2.trans h1)).2
  linarith

theorem mean_bound (h : Usable samples) {M : ℚ} (hv : ∀ s ∈ samples, |(s.value : ℚ)| ≤ M) : |Spec.weightedMean (pairs samples)| ≤ M := by
  rw [mean_pairs (List.Perm.refl samples)]
  have h1 := abs_sum_diff samples (fun s => (s.value : ℚ) * (wt s / (samples.map wt).sum)) (fun _ => 0)
  simp only [sub_zero, List.map_const', List.sum_replicate, smul_zero] at h1
  refine h1.trans ?_
  have h2 : (samples.map fun s => |(s.value : ℚ) * (wt s / (samples.map wt).sum)|).sum ≤ (samples.map fun s => M * (wt s / (samples.map wt).sum)).sum := by
    apply List.sum_le_sum
    intro s hs
    rw [abs_mul, abs_of_nonneg (div_nonneg (h.wt hs).2 h.pos.le)]
    exact mul_le_mul_of_nonneg_right (hv s hs) (div_nonneg (h.wt hs).2 h.pos.le)
  refine h2.trans ?_
  rw [List.sum_map_mul_left, sum_shares h, mul_one]

theorem mean_err (h : Usable samples) (hne : samples ≠ []) (hn : samples.length ≤ 2 ^ 40) (hs : IsSorted samples cp) {M : ℚ} (hM : 1 ≤ M) (hM' : M ≤ 2 ^ 63)
    (hv : ∀ s ∈ samples, |(s.value : ℚ)| ≤ M) :
    ∃ r, (new binary64 samples cp).getMean binary64 = .ok (.fin r) ∧ |r - Spec.weightedMean (pairs samples)| ≤ 8 * (samples.length * hulp) * M := by
  obtain ⟨g, hg⟩ := weight_err h hn
  have hnu := small_count hn
  have hu0 := hulp_pos
  have hus := hulp_small
  have hn1 : (1 : ℚ) ≤ samples.length := by exact_mod_cast List.length_pos_iff.2 hne
  have hul : hulp ≤ samples.length * hulp := by nlinarith
  have hlen := hs.1.length_eq
  obtain ⟨w1, w2⟩ := weights_sum h hn hs.1 (fun s hm => (hg s hm).2.2.2)
  have hp := fun s (hm : s ∈ cp) => product_err hM hM' (hv s (hs.1.mem_iff.1 hm)) (w := g s) (o := wt s / (samples.map wt).sum)
    (hg s (hs.1.mem_iff.1 hm)).2.1 (hg s (hs.1.mem_iff.1 hm)).2.2.1
  have : ∃ p : WeightedSample → ℚ, ∀ s ∈ cp, F64.mul binary64 (F64.ofInt binary64 s.value) (.fin (g s)) = .fin (p s) ∧
      |p s - s.value * (wt s / (samples.map wt).sum)| ≤ 1.1 * (hulp * M) + hulp * M * g s + M * |g s - wt s / (samples.map wt).sum| ∧
      |p s| ≤ 1.1 * (hulp * M) + 1.0001 * M * g s := by
    classical
    refine ⟨fun s => if hm : s ∈ cp then (hp s hm).choose else 0, fun s hm => ?_⟩
    simp only [dif_pos hm]
    exact (hp s hm).choose_spec
  obtain ⟨p, hp⟩ := this
  have habs : (cp.map fun s => |p s|).sum ≤ 1.05 * M := by
    refine (List.sum_le_sum fun s hm => (hp s hm).2.2).trans ?_
    rw [sum_lin, hlen]
    have h1 : (samples.length : ℚ) * (1.1 * (hulp * M)) = 1.1 * M * (samples.length * hulp) := by ring
    rw [h1]
    have h2 : 1.1 * M * (samples.length * hulp) ≤ 1.1 * M * (1 / 8192) := mul_le_mul_of_nonneg_left hnu (by linarith)
    have h3 : 1.0001 * M * (cp.map g).sum ≤ 1.0001 * M * 1.01 := mul_le_mul_of_nonneg_left w2 (by linarith)
    linarith
  have herr : |(cp.map p).sum - Spec.weightedMean (pairs samples)| ≤ (3.15 * (samples.length * hulp) + 1.01 * hulp) * M := by
    rw [mean_pairs hs.1]
    refine (abs_sum_diff cp p _).trans ?_
    have h1 : ∀ s ∈ cp, |p s - s.value * (wt s / (samples.map wt).sum)| ≤ 1.1 * (hulp * M) + M * (hulp * g s + |g s - wt s / (samples.map wt).sum|) := by
      intro s hm
      refine (hp s hm).2.1.trans (le_of_eq ?_)
      ring
    refine (List.sum_le_sum h1).trans ?_
    rw [sum_lin cp (fun s => hulp * g s + |g s - wt s / (samples.map wt).sum|), hlen]
    have h2 : (cp.map fun s => hulp * g s + |g s - wt s / (samples.map wt).sum|).sum = hulp * (cp.map g).sum + (cp.map fun s => |g s - wt s / (samples.map wt).sum|).sum := by
      rw [List.sum_map_add, List.sum_map_mul_left]
    rw [h2]
    have h3 : hulp * (cp.map g).sum ≤ hulp * 1.01 := mul_le_mul_of_nonneg_left w2 hu0.le
    have h4 : M * (hulp * (cp.map g).sum + (cp.map fun s => |g s - wt s / (samples.map wt).sum|).sum) ≤ M * (hulp * 1.01 + 2.05 * (samples.length * hulp)) :=
      mul_le_mul_of_nonneg_left (add_le_add h3 w1) (by linarith)
    refine (add_le_add_right h4 _).trans (le_of_eq ?_)
    ring
  obtain ⟨x, e1, e2⟩ := sum_err (C := 1.05 * M) (le_trans (zpow_le_zpow_right₀ (by norm_num) (by norm_num : (-990 : Int) ≤ 0)) (by rw [zpow_zero]; linarith))
    (le_trans (b := 2 ^ (200 : Int)) (by
      calc 1.05 * M ≤ 2 * 2 ^ 63 := by linarith
        _ ≤ 2 ^ (200 : Int) := by norm_num) (zpow_le_zpow_right₀ (by norm_num) (by norm_num)))
    (fun s : WeightedSample => F64.mul binary64 (F64.ofInt binary64 s.value) (F64.div binary64 s.weight (totalWeight binary64 samples))) p cp
    (fun s hm => by rw [(hg s (hs.1.mem_iff.1 hm)).1]; exact (hp s hm).1) 0 (by rw [hlen, zero_add]; linarith) 0 0 (by simp) (by rw [abs_zero, zero_add]; exact habs)
  rw [hlen, zero_add, zero_add] at e2
  have hlv : ¬ (new binary64 samples cp).values.length = 0 := by
    have := (length_weights binary64 samples cp hlen).1
    have := List.length_pos_iff.2 hne
    omega
  refine ⟨x, ?_, ?_⟩
  · unfold getMean
    rw [if_neg hlv, zip_new binary64 samples cp hne, weightedSum_eq, e1]
  · have e : x - Spec.weightedMean (pairs samples) = (x - (cp.map p).sum) + ((cp.map p).sum - Spec.weightedMean (pairs samples)) := by ring
    rw [e]
    refine (abs_add_le _ _).trans ((add_le_add e2 herr).trans ?_)
    have hz : hulp * M ≤ samples.length * hulp * M := mul_le_mul_of_nonneg_right hul (by linarith)
    have e3 : (samples.length : ℚ) * (hulp * (1.01 * (1.05 * M))) + (3.15 * (samples.length * hulp) + 1.01 * hulp) * M =
      (1.01 * 1.05 + 3.15) * (samples.length * hulp * M) + 1.01 * (hulp * M) := by ring
    have e4 : 8 * ((samples.length : ℚ) * hulp) * M = 8 * (samples.length * hulp * M) := by ring
    rw [e3, e4]
    have : 0 ≤ hulp * M := by positivity
    linarith

/-- `weight * (float64(v) - mean) * (float64(v) - mean)`. -/
theorem wsquare_err {M d x w o e : ℚ} (hM : 1 ≤ M) (hM' : M ≤ 2 ^ 63) (hd : |d| ≤ 2.01 * M) (hx : |x| ≤ 2 * M) (hdx : |d - x| ≤ e) (hw : 0 ≤ w) (hw' : w ≤ 1.05) :
    ∃ t, F64.mul binary64 (F64.mul binary64 (.fin w) (.fin d)) (.fin d) = .fin t ∧
      |t - o * x ^ 2| ≤ 9.1 * (hulp * M ^ 2) + 4.01 * M * e * w + 4 * M ^ 2 * |w - o| ∧ |t| ≤ 9.1 * (hulp * M ^ 2) + 4.05 * M ^ 2 * w := by
  have hu0 := hulp_pos
  have hus := hulp_small
  have hM2 : 1 ≤ M ^ 2 := one_le_pow₀ hM
  have hM2' : M ^ 2 ≤ 2 ^ 126 := by
    calc M ^ 2 ≤ (2 ^ 63) ^ 2 := pow_le_pow_left₀ (by linarith) hM' 2
      _ = 2 ^ 126 := by norm_num
  have hwd : |w * d| ≤ 2.2 * M := by
    rw [abs_mul, abs_of_nonneg hw]
    calc w * |d| ≤ 1.05 * (2.01 * M) := mul_le_mul hw' hd (abs_nonneg _) (by norm_num)
      _ ≤ 2.2 * M := by linarith
  obtain ⟨y, e1, e2⟩ := rnd_err' hwd (le_trans (by norm_num) (by linarith : (1 : ℚ) ≤ 2.2 * M)) (by
    calc 2.2 * M ≤ 3 * 2 ^ 63 := by linarith
      _ ≤ 2 ^ (200 : Int) := by norm_num)
  have e2' : |y - w * d| ≤ hulp * (2.2 * M) := e2
  have huM : hulp * (2.2 * M) ≤ 0.001 * M := by
    have : hulp * (2.2 * M) ≤ 1 / 10000 * (2.2 * M) := mul_le_mul_of_nonneg_right (hus.trans (by norm_num)) (by linarith)
    linarith
  have hy : |y| ≤ 2.201 * M := by
    have e : y = (y - w * d) + w * d := by ring
    rw [e]
    exact (abs_add_le _ _).trans (by linarith)
  have hyd : |y * d| ≤ 4.5 * M ^ 2 := by
    rw [abs_mul]
    calc |y| * |d| ≤ (2.201 * M) * (2.01 * M) := mul_le_mul hy hd (abs_nonneg _) (by linarith)
      _ ≤ 4.5 * M ^ 2 := by nlinarith
  obtain ⟨t, f1, f2⟩ := rnd_err' hyd (le_trans (by norm_num) (by linarith : (1 : ℚ) ≤ 4.5 * M ^ 2)) (by
    calc 4.5 * M ^ 2 ≤ 5 * 2 ^ 126 := by linarith
      _ ≤ 2 ^ (200 : Int) := by norm_num)
  have f2' : |t - y * d| ≤ hulp * (4.5 * M ^ 2) := f2
  have g1 : |(y - w * d) * d| ≤ hulp * (4.43 * M ^ 2) := by
    rw [abs_mul]
    calc |y - w * d| * |d| ≤ hulp * (2.2 * M) * (2.01 * M) := mul_le_mul e2' hd (abs_nonneg _) (by positivity)
      _ = hulp * (4.422 * M ^ 2) := by ring
      _ ≤ hulp * (4.43 * M ^ 2) := by apply mul_le_mul_of_nonneg_left _ hu0.le; linarith
  have hdd : |d * d| ≤ 4.05 * M ^ 2 := by
    rw [abs_mul]
    calc |d| * |d| ≤ (2.01 * M) * (2.01 * M) := mul_le_mul hd hd (abs_nonneg _) (by linarith)
      _ ≤ 4.05 * M ^ 2 := by nlinarith
  refine ⟨t, ?_, ?_, ?_⟩
  · have e3 : F64.mul binary64 (.fin w) (.fin d) = .fin y := e1
    rw [e3]; exact f1
  · have et : t - o * x ^ 2 = (t - y * d) + ((y - w * d) * d + (w * (d * d - x ^ 2) + (w - o) * x ^ 2)) := by ring
    rw [et]
    refine (abs_add_le _ _).trans ?_
    have g2 : |w * (d * d - x ^ 2)| ≤ 4.01 * M * e * w := by
      rw [abs_mul, abs_of_nonneg hw, mul_comm]
      exact mul_le_mul_of_nonneg_right (sq_diff hd hx hdx) hw
    have g3 : |(w - o) * x ^ 2| ≤ 4 * M ^ 2 * |w - o| := by
      rw [abs_mul, mul_comm, abs_pow]
      apply mul_le_mul_of_nonneg_right _ (abs_nonneg _)
      calc |x| ^ 2 ≤ (2 * M) ^ 2 := pow_le_pow_left₀ (abs_nonneg _) hx 2
        _ = 4 * M ^ 2 := by ring
    have g4 := abs_add_le ((y - w * d) * d) (w * (d * d - x ^ 2) + (w - o) * x ^ 2)
    have g5 := abs_add_le (w * (d * d - x ^ 2)) ((w - o) * x ^ 2)
    have hz : 0 ≤ hulp * M ^ 2 := by positivity
    linarith
  · have e : t = (t - y * d) + ((y - w * d) * d + w * (d * d)) := by ring
    rw [e]
    refine (abs_add_le _ _).trans ?_
    have g2 : |w * (d * d)| ≤ 4.05 * M ^ 2 * w := by
      rw [abs_mul, abs_of_nonneg hw, mul_comm]
      exact mul_le_mul_of_nonneg_right hdd hw
    have g4 := abs_add_le ((y - w * d) * d) (w * (d * d))
    have hz : 0 ≤ hulp * M ^ 2 := by positivity
    linarith

/-- Sums of weighted squares are not negative. -/
theorem wsquare_nonneg {w d y t : ℚ} (hw : 0 ≤ w) (e1 : binary64.rnd (w * d) = .fin y) (e2 : binary64.rnd (y * d) = .fin t) : 0 ≤ t := by
  have hz := binary64_lawful.zero
  have : 0 ≤ y * d := by
    rcases le_total 0 d with h | h
    · have := binary64_lawful.mono 0 (w * d) (mul_nonneg hw h)
      rw [hz, e1] at this
      exact mul_nonneg this h
    · have := binary64_lawful.mono (w * d) 0 (mul_nonpos_of_nonneg_of_nonpos hw h)
      rw [hz, e1] at this
      exact mul_nonneg_of_nonpos_of_nonpos this h
  have := binary64_lawful.mono 0 (y * d) this
  rw [hz, e2] at this
  exact this

theorem foldl_nonneg {α : Type} (f : α → F64) (l : List α) (hf : ∀ a ∈ l, F64.le (.fin 0) (f a)) (acc : F64) (hacc : F64.le (.fin 0) acc) :
    F64.le (.fin 0) (l.foldl (fun t a => F64.add binary64 t (f a)) acc) := by
  induction l generalizing acc with
  | nil => exact hacc
  | cons a t ih => exact ih (fun b hb => hf b (by simp [hb])) _ (UniformSnapshot.le_add_nonneg binary64_lawful hacc (hf a (by simp)))

theorem variance_err (h : Usable samples) (hne : samples ≠ []) (hn : samples.length ≤ 2 ^ 40) (hs : IsSorted samples cp) {M : ℚ} (hM : 1 ≤ M) (hM' : M ≤ 2 ^ 63)
    (hv : ∀ s ∈ samples, |(s.value : ℚ)| ≤ M) :
    ∃ r, (new binary64 samples cp).variance binary64 = .fin r ∧ 0 ≤ r ∧ |r - Spec.weightedVariance (pairs samples)| ≤ 128 * (samples.length * hulp) * M ^ 2 := by
  obtain ⟨m', em, hm⟩ := mean_err h hne hn hs hM hM' hv
  have hmb := mean_bound h hv
  obtain ⟨g, hg⟩ := weight_err h hn
  have hnu := small_count hn
  have hu0 := hulp_pos
  have hus := hulp_small
  have hn1 : (1 : ℚ) ≤ samples.length := by exact_mod_cast List.length_pos_iff.2 hne
  have hul : hulp ≤ samples.length * hulp := by nlinarith
  have hlen := hs.1.length_eq
  obtain ⟨w1, w2⟩ := weights_sum h hn hs.1 (fun s hm => (hg s hm).2.2.2)
  rw [variance_pairs hs.1]
  generalize Spec.weightedMean (pairs samples) = m at *
  generalize hL : (samples.length : ℚ) * hulp = L at *
  have hL0 : 0 ≤ L := by linarith
  have hE' : 8 * L * M ≤ M / 1000 := by
    have : 8 * L * M ≤ 8 * (1 / 8192) * M := by gcongr
    linarith
  have hp : ∀ s ∈ cp, ∃ t, F64.mul binary64 (F64.mul binary64 (.fin (g s)) (F64.sub binary64 (F64.ofInt binary64 s.value) (.fin m')))
        (F64.sub binary64 (F64.ofInt binary64 s.value) (.fin m')) = .fin t ∧
      |t - wt s / (samples.map wt).sum * ((s.value : ℚ) - m) ^ 2| ≤ 9.1 * (hulp * M ^ 2) + 4.01 * M * (12 * L * M) * g s + 4 * M ^ 2 * |g s - wt s / (samples.map wt).sum| ∧
      |t| ≤ 9.1 * (hulp * M ^ 2) + 4.05 * M ^ 2 * g s ∧ 0 ≤ t := by
    intro s hm'
    have hms := hs.1.mem_iff.1 hm'
    obtain ⟨-, g2, g3, -⟩ := hg s hms
    obtain ⟨d, d1, d2, d3, d4⟩ := diff_err hM hM' hmb hm hE' (v := s.value) (hv s hms)
    have d2' : |d - ((s.value : ℚ) - m)| ≤ 12 * L * M := by
      refine d2.trans ?_
      have : hulp * M ≤ L * M := mul_le_mul_of_nonneg_right hul (by linarith)
      linarith
    obtain ⟨t, t1, t2, t3⟩ := wsquare_err (o := wt s / (samples.map wt).sum) hM hM' d3 d4 d2' g2 g3
    refine ⟨t, by rw [d1]; exact t1, t2, t3, ?_⟩
    cases hy : binary64.rnd (g s * d) with
    | nan => exact absurd hy (binary64_lawful.not_nan _)
    | inf b =>
      have e3 : F64.mul binary64 (.fin (g s)) (.fin d) = .inf b := hy
      rw [e3] at t1
      simp only [F64.mul] at t1
      split at t1 <;> cases t1
    | fin y =>
      have e3 : F64.mul binary64 (.fin (g s)) (.fin d) = .fin y := hy
      rw [e3] at t1
      exact wsquare_nonneg g2 hy t1
  have : ∃ p : WeightedSample → ℚ, ∀ s ∈ cp, F64.mul binary64 (F64.mul binary64 (.fin (g s)) (F64.sub binary64 (F64.ofInt binary64 s.value) (.fin m')))
        (F64.sub binary64 (F64.ofInt binary64 s.value) (.fin m')) = .fin (p s) ∧
      |p s - wt s / (samples.map wt).sum * ((s.value : ℚ) - m) ^ 2| ≤ 9.1 * (hulp * M ^ 2) + 4.01 * M * (12 * L * M) * g s + 4 * M ^ 2 * |g s - wt s / (samples.map wt).sum| ∧
      |p s| ≤ 9.1 * (hulp * M ^ 2) + 4.05 * M ^ 2 * g s ∧ 0 ≤ p s := by
    classical
    refine ⟨fun s => if hm : s ∈ cp then (hp s hm).choose else 0, fun s hm => ?_⟩
    simp only [dif_pos hm]
    exact (hp s hm).choose_spec
  obtain ⟨p, hp⟩ := this
  have hM2 : 1 ≤ M ^ 2 := one_le_pow₀ hM
  have hM2' : M ^ 2 ≤ 2 ^ 126 := by
    calc M ^ 2 ≤ (2 ^ 63) ^ 2 := pow_le_pow_left₀ (by linarith) hM' 2
      _ = 2 ^ 126 := by norm_num
  have habs : (cp.map fun s => |p s|).sum ≤ 4.2 * M ^ 2 := by
    refine (List.sum_le_sum fun s hm => (hp s hm).2.2.1).trans ?_
    rw [sum_lin, hlen]
    have h1 : (samples.length : ℚ) * (9.1 * (hulp * M ^ 2)) = 9.1 * M ^ 2 * L := by rw [← hL]; ring
    rw [h1]
    have h2 : 9.1 * M ^ 2 * L ≤ 9.1 * M ^ 2 * (1 / 8192) := mul_le_mul_of_nonneg_left hnu (by linarith)
    have h3 : 4.05 * M ^ 2 * (cp.map g).sum ≤ 4.05 * M ^ 2 * 1.01 := mul_le_mul_of_nonneg_left w2 (by linarith)
    linarith
  have herr : |(cp.map p).sum - (cp.map fun s => wt s / (samples.map wt).sum * ((s.value : ℚ) - m) ^ 2).sum| ≤ 67 * L * M ^ 2 := by
    refine (abs_sum_diff cp p _).trans ?_
    have h1 : ∀ s ∈ cp, |p s - wt s / (samples.map wt).sum * ((s.value : ℚ) - m) ^ 2| ≤
        9.1 * (hulp * M ^ 2) + M ^ 2 * (48.12 * L * g s + 4 * |g s - wt s / (samples.map wt).sum|) := by
      intro s hm
      refine (hp s hm).2.1.trans (le_of_eq ?_)
      ring
    refine (List.sum_le_sum h1).trans ?_
    rw [sum_lin cp (fun s => 48.12 * L * g s + 4 * |g s - wt s / (samples.map wt).sum|), hlen]
    have h2 : (cp.map fun s => 48.12 * L * g s + 4 * |g s - wt s / (samples.map wt).sum|).sum =
        48.12 * L * (cp.map g).sum + 4 * (cp.map fun s => |g s - wt s / (samples.map wt).sum|).sum := by
      rw [List.sum_map_add, List.sum_map_mul_left, List.sum_map_mul_left]
    rw [h2]
    have h3 : 48.12 * L * (cp.map g).sum ≤ 48.12 * L * 1.01 := mul_le_mul_of_nonneg_left w2 (by linarith)
    have h4 : M ^ 2 * (48.12 * L * (cp.map g).sum + 4 * (cp.map fun s => |g s - wt s / (samples.map wt).sum|).sum) ≤ M ^ 2 * (48.12 * L * 1.01 + 4 * (2.05 * L)) :=
      mul_le_mul_of_nonneg_left (by linarith) (by linarith)
    have e5 : (samples.length : ℚ) * (9.1 * (hulp * M ^ 2)) = 9.1 * (L * M ^ 2) := by rw [← hL]; ring
    rw [e5]
    have hz : 0 ≤ L * M ^ 2 := by positivity
    have e6 : M ^ 2 * (48.12 * L * 1.01 + 4 * (2.05 * L)) = (48.12 * 1.01 + 8.2) * (L * M ^ 2) := by ring
    rw [e6] at h4
    have e7 : 67 * L * M ^ 2 = 67 * (L * M ^ 2) := by ring
    rw [e7]
    linarith
  obtain ⟨x, e1, e2⟩ := sum_err (C := 4.2 * M ^ 2) (le_trans (zpow_le_zpow_right₀ (by norm_num) (by norm_num : (-990 : Int) ≤ 0)) (by rw [zpow_zero]; linarith))
    (le_trans (b := 2 ^ (200 : Int)) (by
      calc 4.2 * M ^ 2 ≤ 5 * 2 ^ 126 := by linarith
        _ ≤ 2 ^ (200 : Int) := by norm_num) (zpow_le_zpow_right₀ (by norm_num) (by norm_num)))
    (fun s : WeightedSample => F64.mul binary64 (F64.mul binary64 (F64.div binary64 s.weight (totalWeight binary64 samples)) (F64.sub binary64 (F64.ofInt binary64 s.value) (.fin m')))
        (F64.sub binary64 (F64.ofInt binary64 s.value) (.fin m'))) p cp
    (fun s hm => by rw [(hg s (hs.1.mem_iff.1 hm)).1]; exact (hp s hm).1) 0 (by rw [hlen, zero_add, hL]; linarith) 0 0 (by simp) (by rw [abs_zero, zero_add]; exact habs)
  rw [hlen, zero_add, zero_add] at e2
  refine ⟨x, ?_, ?_, ?_⟩
  · unfold variance
    rw [em, zip_new binary64 samples cp hne, varianceSum_eq]
    exact e1
  · have := foldl_nonneg (fun s : WeightedSample => F64.mul binary64 (F64.mul binary64 (F64.div binary64 s.weight (totalWeight binary64 samples)) (F64.sub binary64 (F64.ofInt binary64 s.value) (.fin m')))
        (F64.sub binary64 (F64.ofInt binary64 s.value) (.fin m'))) cp (fun s hm => by rw [(hg s (hs.1.mem_iff.1 hm)).1, (hp s hm).1]; exact (hp s hm).2.2.2) (.fin 0) (by simp [F64.le])
    rw [e1] at this
    exact this
  · have e : ∀ V, x - V = (x - (cp.map p).sum) + ((cp.map p).sum - V) := fun V => by ring
    rw [e]
    refine (abs_add_le _ _).trans ((add_le_add e2 herr).trans ?_)
    have e3 : (samples.length : ℚ) * (hulp * (1.01 * (4.2 * M ^ 2))) = 1.01 * 4.2 * (L * M ^ 2) := by rw [← hL]; ring
    have e4 : 128 * L * M ^ 2 = 128 * (L * M ^ 2) := by ring
    have e5 : 67 * L * M ^ 2 = 67 * (L * M ^ 2) := by ring
    rw [e3, e4, e5]
    have : 0 ≤ L * M ^ 2 := by positivity
    linarith

end
end WeightedSnapshot
open WeightedSnapshot

/-- **C93.** The mean of a weighted snapshot in binary64, for at most 2⁴⁰ samples with values of magnitude at most `M` and non-negative weights whose sum is
between 2⁻⁹⁹⁰ and 2⁹⁹⁰, whichever way the sort orders ties: off by at most `n 2⁻⁵⁰ M`. -/
theorem C93_weighted_mean (samples cp : List WeightedSample) (hs : IsSorted samples cp) (hne : samples ≠ []) (hn : samples.length ≤ 2 ^ 40)
    (hw : ∀ s ∈ samples, ∃ w : ℚ, s.weight = .fin w ∧ 0 ≤ w) (hlo : 2 ^ (-990 : Int) ≤ Spec.totalWeight (pairs samples))
    (hhi : Spec.totalWeight (pairs samples) ≤ 2 ^ (990 : Int)) (M : Int) (hM : 1 ≤ M) (hM' : M ≤ 2 ^ 63) (hv : ∀ s ∈ samples, |s.value| ≤ M) :
    ∃ r, (new binary64 samples cp).getMean binary64 = .ok (.fin r) ∧
      |r - Spec.weightedMean (pairs samples)| ≤ samples.length * 2 ^ (-50 : Int) * M := by
  rw [total_pairs] at hlo hhi
  obtain ⟨r, h1, h2⟩ := mean_err (M := (M : ℚ)) ⟨hw, hlo, hhi⟩ hne hn hs (by exact_mod_cast hM) (by exact_mod_cast hM') (fun s hm => by exact_mod_cast hv s hm)
  refine ⟨r, h1, h2.trans (le_of_eq ?_)⟩
  rw [show (2 : ℚ) ^ (-50 : Int) = 8 * hulp by unfold hulp; norm_num]
  ring

/-- **C93.** The variance of a weighted snapshot: off by at most `n 2⁻⁴⁶ M²`. -/
theorem C93_weighted_variance (samples cp : List WeightedSample) (hs : IsSorted samples cp) (hne : samples ≠ []) (hn : samples.length ≤ 2 ^ 40)
    (hw : ∀ s ∈ samples, ∃ w : ℚ, s.weight = .fin w ∧ 0 ≤ w) (hlo : 2 ^ (-990 : Int) ≤ Spec.totalWeight (pairs samples))
    (hhi : Spec.totalWeight (pairs samples) ≤ 2 ^ (990 : Int)) (M : Int) (hM : 1 ≤ M) (hM' : M ≤ 2 ^ 63) (hv : ∀ s ∈ samples, |s.value| ≤ M) :
    ∃ r, (new binary64 samples cp).variance binary64 = .fin r ∧
      |r - Spec.weightedVariance (pairs samples)| ≤ samples.length * 2 ^ (-46 : Int) * (M : ℚ) ^ 2 := by
  rw [total_pairs] at hlo hhi
  obtain ⟨r, h1, _, h2⟩ := variance_err (M := (M : ℚ)) ⟨hw, hlo, hhi⟩ hne hn hs (by exact_mod_cast hM) (by exact_mod_cast hM') (fun s hm => by exact_mod_cast hv s hm)
  refine ⟨r, h1, h2.trans (le_of_eq ?_)⟩
  rw [show (2 : ℚ) ^ (-46 : Int) = 128 * hulp by unfold hulp; norm_num]
  ring

/-- The computed variance is a number that binary64 represents. -/
theorem rep_varianceSum (mean : F64) : ∀ (l : List (Int × F64)) (acc : F64), (∀ q, acc = .fin q → binary64.rnd q = .fin q) → ∀ {r : ℚ},
    varianceSum binary64 mean acc l = .fin r → binary64.rnd r = .fin r
  | [], _, h, r, e => h r e
  | (_, _) :: t, _, _, _, e => rep_varianceSum mean t _ (fun _ h' => F64.rep_add h') e

theorem rep_variance {w : WeightedSnapshot} {r : ℚ} (h : w.variance binary64 = .fin r) : binary64.rnd r = .fin r := by
  unfold variance at h
  refine rep_varianceSum _ _ _ ?_ h
  intro q hq
  injection hq with hq
  rw [← hq]; exact binary64_lawful.zero

/-- **C93.** `GetStdDev` of a weighted snapshot with at least two samples, with any `math.Sqrt` accurate to 1 ulp: off by at most `√(8 n) 2⁻²⁴ M`. -/
theorem C93_weighted_stddev (sqrt : F64 → F64) (hsqrt : Spec.GoodSqrt sqrt) (samples cp : List WeightedSample) (hs : IsSorted samples cp) (h2 : 2 ≤ samples.length)
    (hn : samples.length ≤ 2 ^ 40) (hw : ∀ s ∈ samples, ∃ w : ℚ, s.weight = .fin w ∧ 0 ≤ w) (hlo : 2 ^ (-990 : Int) ≤ Spec.totalWeight (pairs samples))
    (hhi : Spec.totalWeight (pairs samples) ≤ 2 ^ (990 : Int)) (M : Int) (hM : 1 ≤ M) (hM' : M ≤ 2 ^ 63) (hv : ∀ s ∈ samples, |s.value| ≤ M) :
    ∃ x : ℚ, (new binary64 samples cp).getStdDev binary64 sqrt = .ok (.fin x) ∧
      |(x : ℝ) - Real.sqrt (Spec.weightedVariance (pairs samples))| ≤ Real.sqrt (8 * samples.length) * 2 ^ (-24 : Int) * M := by
  have hne : samples ≠ [] := by rintro rfl; simp at h2
  rw [total_pairs] at hlo hhi
  have hU : Usable samples := ⟨hw, hlo, hhi⟩
  have hMq : (1 : ℚ) ≤ M := by exact_mod_cast hM
  have hvq : ∀ s ∈ samples, |(s.value : ℚ)| ≤ M := fun s hm => by exact_mod_cast hv s hm
  obtain ⟨r, h1, h0, h3⟩ := variance_err (M := (M : ℚ)) hU hne hn hs hMq (by exact_mod_cast hM') hvq
  have hmb := mean_bound hU hvq
  have hsh : ∀ s ∈ samples, 0 ≤ wt s / (samples.map wt).sum := fun s hm => div_nonneg (hU.wt hm).2 hU.pos.le
  have hV0 : 0 ≤ Spec.weightedVariance (pairs samples) := by
    rw [variance_pairs (List.Perm.refl samples)]
    apply List.sum_nonneg
    simp only [List.mem_map]
    rintro x ⟨s, hm, rfl⟩
    exact mul_nonneg (hsh s hm) (sq_nonneg _)
  have hV1 : Spec.weightedVariance (pairs samples) ≤ 9 * (M : ℚ) ^ 2 := by
    rw [variance_pairs (List.Perm.refl samples)]
    have h4 : (samples.map fun s => wt s / (samples.map wt).sum * ((s.value : ℚ) - Spec.weightedMean (pairs samples)) ^ 2).sum ≤
        (samples.map fun s => 4 * (M : ℚ) ^ 2 * (wt s / (samples.map wt).sum)).sum := by
      apply List.sum_le_sum
      intro s hm
      rw [mul_comm]
      apply mul_le_mul_of_nonneg_right _ (hsh s hm)
      have h5 : |(s.value : ℚ) - Spec.weightedMean (pairs samples)| ≤ 2 * M := (abs_sub _ _).trans (by linarith [hvq s hm])
      calc ((s.value : ℚ) - Spec.weightedMean (pairs samples)) ^ 2 = |(s.value : ℚ) - Spec.weightedMean (pairs samples)| ^ 2 := (sq_abs _).symm
        _ ≤ (2 * M) ^ 2 := pow_le_pow_left₀ (abs_nonneg _) h5 2
        _ = 4 * (M : ℚ) ^ 2 := by ring
    refine h4.trans ?_
    rw [List.sum_map_mul_left, sum_shares hU]
    nlinarith [sq_nonneg (M : ℚ)]
  have hn40 : (samples.length : ℚ) ≤ 2 ^ 40 := by exact_mod_cast hn
  have hn2 : (2 : ℚ) ≤ samples.length := by exact_mod_cast h2
  obtain ⟨x, e1, e2⟩ := stddev_err hsqrt (rep_variance h1) h0 hV0 (by linarith : (0 : ℚ) ≤ M) (N := 8 * samples.length) (by linarith) hV1 (by
      refine h3.trans (le_of_eq ?_)
      rw [show (2 : ℚ) ^ (-49 : Int) = 16 * hulp by unfold hulp; norm_num]
      ring) (by linarith [show 8 * (2 : ℚ) ^ 40 ≤ 2 ^ 47 by norm_num])
  refine ⟨x, ?_, ?_⟩
  · unfold getStdDev
    have := (length_weights binary64 samples cp hs.1.length_eq).1
    rw [if_neg (by omega), h1, e1]
  · push_cast at e2
    exact e2

/-- The hypotheses are met by a list of samples with different weights, with a tie. -/
example : IsSorted sampleCase sampleSorted ∧ 2 ≤ sampleCase.length ∧ (∀ s ∈ sampleCase, ∃ w : ℚ, s.weight = .fin w ∧ 0 ≤ w) ∧ Spec.totalWeight (pairs sampleCase) = 4 ∧
    Spec.weightedMean (pairs sampleCase) = 35 / 2 ∧ (∀ s ∈ sampleCase, |s.value| ≤ 30) := by
  refine ⟨sampleCase_ok.2.1, by decide, ?_, ?_, ?_, by decide⟩
  · intro s hs
    obtain ⟨w, e, h, _⟩ := sampleCase_ok.1 s hs
    exact ⟨w, e, h.le⟩
  · simp [Spec.totalWeight, pairs, sampleCase, wt]; norm_num
  · simp [Spec.weightedMean, Spec.totalWeight, pairs, sampleCase, wt]; norm_num

end GoMetrics
