import Verif.Props.FusedUniform
import Verif.Props.WeightedAccuracy
/-! # C104 — the accuracy of the statistics, if the compiler fuses multiplications and additions -/
namespace GoMetrics
open Rounding

/-- A product, rounded or left to a fused addition. -/
theorem product_rnd (fu : Bool) {q B : ℚ} (h : |q| ≤ B) (hB : 2 ^ (-200 : Int) ≤ B) (hB' : B ≤ 2 ^ (200 : Int)) :
    ∃ p, (binary64.product fu).rnd q = .fin p ∧ |p - q| ≤ hulp * B := by
  cases fu with
  | false => exact rnd_err' h hB hB'
  | true =>
    refine ⟨q, rfl, ?_⟩
    rw [sub_self, abs_zero]
    exact mul_nonneg hulp_pos.le ((abs_nonneg q).trans h)

theorem product_lawful (fu : Bool) : (binary64.product fu).Lawful := by
  cases fu with
  | false => exact binary64_lawful
  | true => exact exact_lawful

theorem zipIdx_sum {α : Type} (l : List α) (f : α → ℚ) : (l.zipIdx.map fun p => f p.1).sum = (l.map f).sum := by
  rw [show (fun p : α × Nat => f p.1) = f ∘ Prod.fst from rfl, ← List.map_map, List.zipIdx_map_fst]

theorem zipIdx_mem {α : Type} {l : List α} {p : α × Nat} (h : p ∈ l.zipIdx) : p.1 ∈ l := by
  have := List.mem_map_of_mem (f := Prod.fst) h
  rwa [List.zipIdx_map_fst] at this

/-- `(float64(v) - mean) * (float64(v) - mean)`. -/
theorem square_errF (fu : Bool) {M m m' E : ℚ} (hM : 1 ≤ M) (hM' : M ≤ 2 ^ 63) (hm : |m| ≤ M) (hE : |m' - m| ≤ E) (hE' : E ≤ M / 1000) {v : Int} (hv : |(v : ℚ)| ≤ M) :
    ∃ t, F64.mul (binary64.product fu) (F64.sub binary64 (F64.ofInt binary64 v) (.fin m')) (F64.sub binary64 (F64.ofInt binary64 v) (.fin m')) = .fin t ∧
      |t - ((v : ℚ) - m) ^ 2| ≤ 4.01 * M * (E + 4 * (hulp * M)) + 4.05 * (hulp * M ^ 2) ∧ |t| ≤ 4.06 * M ^ 2 ∧ 0 ≤ t := by
  obtain ⟨d, e1, e2, e3, e4⟩ := diff_err hM hM' hm hE hE' hv
  have hu0 := hulp_pos
  have hus := hulp_small
  have hdd : |d * d| ≤ 4.05 * M ^ 2 := by
    rw [abs_mul]
    calc |d| * |d| ≤ (2.01 * M) * (2.01 * M) := mul_le_mul e3 e3 (abs_nonneg _) (by linarith)
      _ ≤ 4.05 * M ^ 2 := by nlinarith
  have hM2 : 1 ≤ M ^ 2 := one_le_pow₀ hM
  have hM2' : M ^ 2 ≤ 2 ^ 126 := by
    calc M ^ 2 ≤ (2 ^ 63) ^ 2 := pow_le_pow_left₀ (by linarith) hM' 2
      _ = 2 ^ 126 := by norm_num
  obtain ⟨t, f1, f2⟩ := product_rnd fu hdd (le_trans (by norm_num) (by linarith : (1 : ℚ) ≤ 4.05 * M ^ 2)) (by
    calc 4.05 * M ^ 2 ≤ 5 * 2 ^ 126 := by linarith
      _ ≤ 2 ^ (200 : Int) := by norm_num)
  have f2' : |t - d * d| ≤ hulp * (4.05 * M ^ 2) := f2
  refine ⟨t, by rw [e1]; exact f1, ?_, ?_, ?_⟩
  · have e : t - ((v : ℚ) - m) ^ 2 = (t - d * d) + (d * d - ((v : ℚ) - m) ^ 2) := by ring
    rw [e]
    refine (abs_add_le _ _).trans ?_
    have := sq_diff e3 e4 e2
    linarith
  · have e : t = (t - d * d) + d * d := by ring
    rw [e]
    refine (abs_add_le _ _).trans ?_
    have : hulp * (4.05 * M ^ 2) ≤ 1 / 1000 * (4.05 * M ^ 2) := mul_le_mul_of_nonneg_right (hus.trans (by norm_num)) (by linarith)
    linarith
  · have := (product_lawful fu).mono 0 (d * d) (mul_self_nonneg d)
    rw [(product_lawful fu).zero, f1] at this
    exact this

namespace UniformSnapshot

theorem variance_errF (fu : Nat → Bool) (vs : List Int) (h2 : 2 ≤ vs.length) (hlen : vs.length ≤ 2 ^ 46) (hsum : InI64 vs.sum) (M : Int) (hM : 1 ≤ M) (hM' : M ≤ 2 ^ 63)
    (hv : ∀ v ∈ vs, |v| ≤ M) :
    ∃ r, (new vs).varianceF binary64 fu = .fin r ∧ 0 ≤ r ∧ |r - Spec.variance vs| ≤ ((vs.length : ℚ) + 8) * 2 ^ (-49 : Int) * (M : ℚ) ^ 2 := by
  have hu0 := hulp_pos
  have hus := hulp_small
  have hne : vs ≠ [] := by rintro rfl; simp at h2
  obtain ⟨m', em, hm'⟩ := C93_uniform_mean vs hne (by omega) hsum
  have hsz : (new vs).size = (vs.length : Int) := by unfold size; rw [length_new]
  have hMq : (1 : ℚ) ≤ M := by exact_mod_cast hM
  have hMq' : (M : ℚ) ≤ 2 ^ 63 := by exact_mod_cast hM'
  have hn2 : (2 : ℚ) ≤ vs.length := by exact_mod_cast h2
  have hn46 : (vs.length : ℚ) ≤ 2 ^ 46 := by exact_mod_cast hlen
  have hmean : |Spec.mean vs| ≤ M := by
    obtain ⟨b1, b2⟩ := sum_bounds (vs := vs) (lo := -M) (hi := M) (fun v hvm => abs_le.1 (hv v hvm))
    have c1 : -(M : ℚ) * vs.length ≤ vs.sum := by exact_mod_cast b1
    have c2 : (vs.sum : ℚ) ≤ M * vs.length := by exact_mod_cast b2
    unfold Spec.mean
    rw [abs_le, le_div_iff₀ (by linarith), div_le_iff₀ (by linarith)]
    exact ⟨c1, c2⟩
  have e51 : (2 : ℚ) ^ (-51 : Int) = 4 * hulp := by unfold hulp; norm_num
  have e49 : (2 : ℚ) ^ (-49 : Int) = 16 * hulp := by unfold hulp; norm_num
  rw [e51] at hm'
  rw [e49]
  have hE : |m' - Spec.mean vs| ≤ 4 * (hulp * M) := by
    refine hm'.trans ?_
    rw [mul_assoc]
    gcongr
  generalize hmu : Spec.mean vs = m at *
  have hE' : 4 * (hulp * (M : ℚ)) ≤ M / 1000 := by
    have : hulp * (M : ℚ) ≤ 1 / 1000000 * M := mul_le_mul_of_nonneg_right (hus.trans (by norm_num)) (by linarith)
    linarith
  have hlz : (new vs).values.zipIdx.length = vs.length := by rw [List.length_zipIdx, length_new]
  have hin : ∀ p ∈ (new vs).values.zipIdx, p.1 ∈ vs := fun p hp => mem_new.1 (zipIdx_mem hp)
  have hterm := fun (p : Int × Nat) (hp : p ∈ (new vs).values.zipIdx) => square_errF (fu p.2) (M := (M : ℚ)) (m := m) (m' := m') hMq hMq' hmean hE hE' (v := p.1)
    (by exact_mod_cast hv p.1 (hin p hp))
  have : ∃ g : Int × Nat → ℚ, ∀ p ∈ (new vs).values.zipIdx, F64.mul (binary64.product (fu p.2)) (F64.sub binary64 (F64.ofInt binary64 p.1) (.fin m'))
        (F64.sub binary64 (F64.ofInt binary64 p.1) (.fin m')) = .fin (g p) ∧
      |g p - ((p.1 : ℚ) - m) ^ 2| ≤ 4.01 * M * (4 * (hulp * M) + 4 * (hulp * M)) + 4.05 * (hulp * (M : ℚ) ^ 2) ∧ |g p| ≤ 4.06 * (M : ℚ) ^ 2 ∧ 0 ≤ g p := by
    classical
    refine ⟨fun v => if h : v ∈ (new vs).values.zipIdx then (hterm v h).choose else 0, fun v h => ?_⟩
    simp only [dif_pos h]
    exact (hterm v h).choose_spec
  obtain ⟨g, hg⟩ := this
  have hlen' : (new vs).values.length = vs.length := length_new vs
  have hM2 : 1 ≤ (M : ℚ) ^ 2 := one_le_pow₀ hMq
  have hM2' : (M : ℚ) ^ 2 ≤ 2 ^ 126 := by
    calc (M : ℚ) ^ 2 ≤ (2 ^ 63) ^ 2 := pow_le_pow_left₀ (by linarith) hMq' 2
      _ = 2 ^ 126 := by norm_num
  have hP : 2 ≤ (vs.length : ℚ) * (M : ℚ) ^ 2 := by nlinarith
  have hP' : (vs.length : ℚ) * (M : ℚ) ^ 2 ≤ 2 ^ 46 * 2 ^ 126 := mul_le_mul hn46 hM2' (by positivity) (by positivity)
  have hnu : (vs.length : ℚ) * hulp ≤ 1 / 110 := by
    calc (vs.length : ℚ) * hulp ≤ 2 ^ 46 * hulp := mul_le_mul_of_nonneg_right hn46 hu0.le
      _ ≤ 1 / 110 := by unfold hulp; norm_num
  obtain ⟨S, eS, hS⟩ := sum_err (C := vs.length * (4.06 * (M : ℚ) ^ 2)) (le_trans (zpow_le_zpow_right₀ (by norm_num) (by norm_num : (-990 : Int) ≤ 0)) (by rw [zpow_zero]; linarith))
    (le_trans (b := 2 ^ (200 : Int)) (by
      calc vs.length * (4.06 * (M : ℚ) ^ 2) = 4.06 * (vs.length * (M : ℚ) ^ 2) := by ring
        _ ≤ 5 * (2 ^ 46 * 2 ^ 126) := mul_le_mul (by norm_num) hP' (by linarith) (by norm_num)
        _ ≤ 2 ^ (200 : Int) := by norm_num) (zpow_le_zpow_right₀ (by norm_num) (by norm_num)))
    (fun p : Int × Nat => F64.mul (binary64.product (fu p.2)) (F64.sub binary64 (F64.ofInt binary64 p.1) (.fin m')) (F64.sub binary64 (F64.ofInt binary64 p.1) (.fin m')))
    g (new vs).values.zipIdx (fun p hp => (hg p hp).1) 0 (by rw [hlz, zero_add]; exact hnu) 0 0 (by simp) (by
      rw [abs_zero, zero_add, ← hlz]
      exact sum_abs_le _ _ _ fun p hp => (hg p hp).2.2.1)
  rw [hlz, zero_add, zero_add] at hS
  have hdiff := sum_map_diff (new vs).values.zipIdx g (fun p : Int × Nat => ((p.1 : ℚ) - m) ^ 2) _ (fun v hvm => (hg v hvm).2.1)
  rw [zipIdx_sum (new vs).values (fun v : Int => ((v : ℚ) - m) ^ 2), ((perm_new vs).map _).sum_eq, hlz] at hdiff
  have hS0 : 0 ≤ S := by
    have := WeightedSnapshot.foldl_nonneg (fun p : Int × Nat => F64.mul (binary64.product (fu p.2)) (F64.sub binary64 (F64.ofInt binary64 p.1) (.fin m'))
      (F64.sub binary64 (F64.ofInt binary64 p.1) (.fin m'))) (new vs).values.zipIdx (fun p hp => by rw [(hg p hp).1]; exact (hg p hp).2.2.2) (.fin 0) (by simp [F64.le])
    rw [eS] at this
    exact this
  have hT : |S - (vs.map fun v : Int => ((v : ℚ) - m) ^ 2).sum| ≤ (4.2 * vs.length + 37) * (hulp * (vs.length * (M : ℚ) ^ 2)) := by
    have e : S - (vs.map fun v : Int => ((v : ℚ) - m) ^ 2).sum = (S - ((new vs).values.zipIdx.map g).sum) + (((new vs).values.zipIdx.map g).sum - (vs.map fun v : Int => ((v : ℚ) - m) ^ 2).sum) := by ring
    rw [e]
    refine (abs_add_le _ _).trans ((add_le_add hS hdiff).trans ?_)
    have hz : 0 ≤ hulp * (vs.length * (M : ℚ) ^ 2) := by positivity
    have e2 : (vs.length : ℚ) * (hulp * (1.01 * (vs.length * (4.06 * (M : ℚ) ^ 2)))) + vs.length * (4.01 * M * (4 * (hulp * M) + 4 * (hulp * M)) + 4.05 * (hulp * (M : ℚ) ^ 2)) =
      (1.01 * 4.06 * vs.length + (4.01 * 8 + 4.05)) * (hulp * (vs.length * (M : ℚ) ^ 2)) := by ring
    rw [e2]
    apply mul_le_mul_of_nonneg_right _ hz
    linarith
  have hQ : (vs.map fun v : Int => ((v : ℚ) - m) ^ 2).sum ≤ vs.length * (4 * (M : ℚ) ^ 2) := by
    have h4 : ∀ v ∈ vs, |((v : ℚ) - m) ^ 2| ≤ 4 * (M : ℚ) ^ 2 := by
      intro v hvm
      have h1 : |(v : ℚ)| ≤ M := by exact_mod_cast hv v hvm
      have h5 : |(v : ℚ) - m| ≤ 2 * M := (abs_sub _ _).trans (by linarith)
      rw [abs_pow]
      calc |(v : ℚ) - m| ^ 2 ≤ (2 * M) ^ 2 := pow_le_pow_left₀ (abs_nonneg _) h5 2
        _ = 4 * (M : ℚ) ^ 2 := by ring
    refine le_trans ?_ (sum_abs_le vs _ _ h4)
    exact List.sum_le_sum fun v _ => le_abs_self _
  have hn1 : (0 : ℚ) < (vs.length : ℚ) - 1 := by linarith
  have hn1' : (vs.length : ℚ) ≤ 2 * ((vs.length : ℚ) - 1) := by linarith
  have hdec : F64.ofInt binary64 ((vs.length : Int) - 1) = .fin ((vs.length : ℚ) - 1) := by
    have := binary64_int (n := (vs.length : Int) - 1) (by rw [abs_lt]; constructor <;> omega)
    unfold F64.ofInt
    rw [this]
    push_cast
    rfl
  set V := (vs.map fun v : Int => ((v : ℚ) - m) ^ 2).sum with hV
  have hSq : |S / ((vs.length : ℚ) - 1)| ≤ 9 * (M : ℚ) ^ 2 := by
    rw [abs_of_nonneg (div_nonneg hS0 hn1.le), div_le_iff₀ hn1]
    have h1 := (abs_le.1 hT).2
    have h3 : (4.2 * (vs.length : ℚ) + 37) * (hulp * (vs.length * (M : ℚ) ^ 2)) ≤ 1 / 10 * (vs.length * (M : ℚ) ^ 2) := by
      rw [← mul_assoc]
      apply mul_le_mul_of_nonneg_right _ (by linarith)
      nlinarith
    have h4 : (vs.length : ℚ) * (M : ℚ) ^ 2 ≤ 2 * ((vs.length : ℚ) - 1) * (M : ℚ) ^ 2 := mul_le_mul_of_nonneg_right hn1' (by linarith)
    nlinarith
  obtain ⟨r, e1, e2⟩ := rnd_err' hSq (le_trans (by norm_num) (by linarith : (1 : ℚ) ≤ 9 * (M : ℚ) ^ 2)) (by
    calc 9 * (M : ℚ) ^ 2 ≤ 9 * 2 ^ 126 := by linarith
      _ ≤ 2 ^ (200 : Int) := by norm_num)
  have e2' : |r - S / ((vs.length : ℚ) - 1)| ≤ hulp * (9 * (M : ℚ) ^ 2) := e2
  refine ⟨r, ?_, ?_, ?_⟩
  · unfold varianceF diffSumF
    rw [em, eS, hsz, hdec]
    simp only [F64.div]
    rw [if_neg hn1.ne', e1]
  · have := binary64_lawful.mono 0 (S / ((vs.length : ℚ) - 1)) (div_nonneg hS0 hn1.le)
    rw [binary64_lawful.zero, e1] at this
    exact this
  · unfold Spec.variance
    rw [hmu, ← hV]
    have e : r - V / ((vs.length : ℚ) - 1) = (r - S / ((vs.length : ℚ) - 1)) + (S - V) / ((vs.length : ℚ) - 1) := by ring
    rw [e]
    refine (abs_add_le _ _).trans ?_
    have h5 : |(S - V) / ((vs.length : ℚ) - 1)| ≤ (4.2 * vs.length + 37) * (hulp * (2 * (M : ℚ) ^ 2)) := by
      rw [abs_div, abs_of_pos hn1, div_le_iff₀ hn1]
      refine hT.trans ?_
      have h6 : (vs.length : ℚ) * (M : ℚ) ^ 2 ≤ 2 * (M : ℚ) ^ 2 * ((vs.length : ℚ) - 1) := by nlinarith
      calc (4.2 * (vs.length : ℚ) + 37) * (hulp * (vs.length * (M : ℚ) ^ 2)) ≤ (4.2 * vs.length + 37) * (hulp * (2 * (M : ℚ) ^ 2 * ((vs.length : ℚ) - 1))) := by gcongr
        _ = _ := by ring
    refine (add_le_add e2' h5).trans ?_
    have hz : 0 ≤ hulp * (M : ℚ) ^ 2 := by positivity
    have e7 : hulp * (9 * (M : ℚ) ^ 2) + (4.2 * (vs.length : ℚ) + 37) * (hulp * (2 * (M : ℚ) ^ 2)) = (8.4 * vs.length + 83) * (hulp * (M : ℚ) ^ 2) := by ring
    have e8 : ((vs.length : ℚ) + 8) * (16 * hulp) * (M : ℚ) ^ 2 = (16 * vs.length + 128) * (hulp * (M : ℚ) ^ 2) := by ring
    rw [e7, e8]
    apply mul_le_mul_of_nonneg_right _ hz
    linarith

end UniformSnapshot

namespace WeightedSnapshot

/-- `float64(v) * weight`. -/
theorem product_errF (fu : Bool) {M : ℚ} (hM : 1 ≤ M) (hM' : M ≤ 2 ^ 63) {v : Int} (hv : |(v : ℚ)| ≤ M) {w o : ℚ} (hw : 0 ≤ w) (hw' : w ≤ 1.05) :
    ∃ p, F64.mul (binary64.product fu) (F64.ofInt binary64 v) (.fin w) = .fin p ∧ |p - v * o| ≤ 1.1 * (hulp * M) + hulp * M * w + M * |w - o| ∧ |p| ≤ 1.1 * (hulp * M) + 1.0001 * M * w := by
  have hu0 := hulp_pos
  have hus := hulp_small
  obtain ⟨a, ha, ea⟩ := ofInt_rel (n := v) (by
    have : |(v : ℚ)| ≤ 2 ^ 64 := hv.trans (hM'.trans (by norm_num))
    exact_mod_cast this)
  have hna := near_one ha
  have ha' : |1 + a| ≤ 1.0001 := by
    have := abs_le.1 ha
    rw [abs_le]; constructor <;> linarith
  have hb0 : |(v : ℚ) * (1 + a) * w| ≤ 1.0001 * M * w := by
    rw [abs_mul, abs_mul, abs_of_nonneg hw]
    apply mul_le_mul_of_nonneg_right _ hw
    rw [mul_comm]
    exact mul_le_mul ha' hv (abs_nonneg _) (by norm_num)
  have hb : |(v : ℚ) * (1 + a) * w| ≤ 1.1 * M := by
    refine hb0.trans ?_
    have : M * w ≤ M * 1.05 := mul_le_mul_of_nonneg_left hw' (by linarith)
    linarith
  obtain ⟨p, e1, e2⟩ := product_rnd fu hb (le_trans (by norm_num) (by linarith : (1 : ℚ) ≤ 1.1 * M)) (by
    calc 1.1 * M ≤ 2 * 2 ^ 63 := by linarith
      _ ≤ 2 ^ (200 : Int) := by norm_num)
  have e2' : |p - (v : ℚ) * (1 + a) * w| ≤ hulp * (1.1 * M) := e2
  refine ⟨p, by rw [ea]; exact e1, ?_, ?_⟩
  · have e : p - v * o = (p - (v : ℚ) * (1 + a) * w) + (v * a * w + v * (w - o)) := by ring
    rw [e]
    refine (abs_add_le _ _).trans ?_
    have h1 : |(v : ℚ) * a * w + v * (w - o)| ≤ hulp * M * w + M * |w - o| := by
      refine (abs_add_le _ _).trans ?_
      rw [abs_mul, abs_mul, abs_mul, abs_of_nonneg hw]
      apply add_le_add
      · apply mul_le_mul_of_nonneg_right _ hw
        rw [mul_comm]
        exact mul_le_mul ha hv (abs_nonneg _) hu0.le
      · exact mul_le_mul_of_nonneg_right hv (abs_nonneg _)
    linarith
  · have e : p = (p - (v : ℚ) * (1 + a) * w) + (v : ℚ) * (1 + a) * w := by ring
    rw [e]
    refine (abs_add_le _ _).trans ?_
    linarith

section
variable {samples cp : List WeightedSample}

/-- `weight * (float64(v) - mean) * (float64(v) - mean)`. -/
theorem wsquare_errF (fu : Bool) {M d x w o e : ℚ} (hM : 1 ≤ M) (hM' : M ≤ 2 ^ 63) (hd : |d| ≤ 2.01 * M) (hx : |x| ≤ 2 * M) (hdx : |d - x| ≤ e) (hw : 0 ≤ w) (hw' : w ≤ 1.05) :
    ∃ t, F64.mul (binary64.product fu) (F64.mul binary64 (.fin w) (.fin d)) (.fin d) = .fin t ∧
      |t - o * x ^ 2| ≤ 9.1 * (hulp * M ^ 2) + 4.01 * M * e * w + 4 * M ^ 2 * |w - o| ∧ |t| ≤ 9.1 * (hulp * M ^ 2) + 4.05 * M ^ 2 * w ∧ 0 ≤ t := by
  have hu0 := hulp_pos
  have hus := hulp_small
  have hM2 : 1 ≤ M ^ 2 := one_le_pow₀ hM
  have hM2' : M ^ 2 ≤ 2 ^ 126 := by
    calc M ^ 2 ≤ (2 ^ 63) ^ 2 := pow_le_pow_left₀ (by linarith) hM' 2
      _ = 2 ^ 126 := by norm_num
  have hwd : |w * d| ≤ 2.2 * M := by
    rw [abs_mul, abs_of_nonneg hw]
    calc w * |d| ≤ 1.05 * (2.01 * M) := mul_le_mul hw' hd (abs_nonneg _) (by norm_num)
      _ ≤ 2.2 * M := by linarith
  obtain ⟨y, e1, e2⟩ := rnd_err' hwd (le_trans (by norm_num) (by linarith : (1 : ℚ) ≤ 2.2 * M)) (by
    calc 2.2 * M ≤ 3 * 2 ^ 63 := by linarith
      _ ≤ 2 ^ (200 : Int) := by norm_num)
  have e2' : |y - w * d| ≤ hulp * (2.2 * M) := e2
  have huM : hulp * (2.2 * M) ≤ 0.001 * M := by
    have : hulp * (2.2 * M) ≤ 1 / 10000 * (2.2 * M) := mul_le_mul_of_nonneg_right (hus.trans (by norm_num)) (by linarith)
    linarith
  have hy : |y| ≤ 2.201 * M := by
    have e : y = (y - w * d) + w * d := by ring
    rw [e]
    exact (abs_add_le _ _).trans (by linarith)
  have hyd : |y * d| ≤ 4.5 * M ^ 2 := by
    rw [abs_mul]
    calc |y| * |d| ≤ (2.201 * M) * (2.01 * M) := mul_le_mul hy hd (abs_nonneg _) (by linarith)
      _ ≤ 4.5 * M ^ 2 := by nlinarith
  obtain ⟨t, f1, f2⟩ := product_rnd fu hyd (le_trans (by norm_num) (by linarith : (1 : ℚ) ≤ 4.5 * M ^ 2)) (by
    calc 4.5 * M ^ 2 ≤ 5 * 2 ^ 126 := by linarith
      _ ≤ 2 ^ (200 : Int) := by norm_num)
  have f2' : |t - y * d| ≤ hulp * (4.5 * M ^ 2) := f2
  have g1 : |(y - w * d) * d| ≤ hulp * (4.43 * M ^ 2) := by
    rw [abs_mul]
    calc |y - w * d| * |d| ≤ hulp * (2.2 * M) * (2.01 * M) := mul_le_mul e2' hd (abs_nonneg _) (by positivity)
      _ = hulp * (4.422 * M ^ 2) := by ring
      _ ≤ hulp * (4.43 * M ^ 2) := by apply mul_le_mul_of_nonneg_left _ hu0.le; linarith
  have hdd : |d * d| ≤ 4.05 * M ^ 2 := by
    rw [abs_mul]
    calc |d| * |d| ≤ (2.01 * M) * (2.01 * M) := mul_le_mul hd hd (abs_nonneg _) (by linarith)
      _ ≤ 4.05 * M ^ 2 := by nlinarith
  refine ⟨t, ?_, ?_, ?_, ?_⟩
  · have e3 : F64.mul binary64 (.fin w) (.fin d) = .fin y := e1
    rw [e3]; exact f1
  · have et : t - o * x ^ 2 = (t - y * d) + ((y - w * d) * d + (w * (d * d - x ^ 2) + (w - o) * x ^ 2)) := by ring
    rw [et]
    refine (abs_add_le _ _).trans ?_
    have g2 : |w * (d * d - x ^ 2)| ≤ 4.01 * M * e * w := by
      rw [abs_mul, abs_of_nonneg hw, mul_comm]
      exact mul_le_mul_of_nonneg_right (sq_diff hd hx hdx) hw
    have g3 : |(w - o) * x ^ 2| ≤ 4 * M ^ 2 * |w - o| := by
      rw [abs_mul, mul_comm, abs_pow]
      apply mul_le_mul_of_nonneg_right _ (abs_nonneg _)
      calc |x| ^ 2 ≤ (2 * M) ^ 2 := pow_le_pow_left₀ (abs_nonneg _) hx 2
        _ = 4 * M ^ 2 := by ring
    have g4 := abs_add_le ((y - w * d) * d) (w * (d * d - x ^ 2) + (w - o) * x ^ 2)
    have g5 := abs_add_le (w * (d * d - x ^ 2)) ((w - o) * x ^ 2)
    have hz : 0 ≤ hulp * M ^ 2 := by positivity
    linarith
  · have e : t = (t - y * d) + ((y - w * d) * d + w * (d * d)) := by ring
    rw [e]
    refine (abs_add_le _ _).trans ?_
    have g2 : |w * (d * d)| ≤ 4.05 * M ^ 2 * w := by
      rw [abs_mul, abs_of_nonneg hw, mul_comm]
      exact mul_le_mul_of_nonneg_right hdd hw
    have g4 := abs_add_le ((y - w * d) * d) (w * (d * d))
    have hz : 0 ≤ hulp * M ^ 2 := by positivity
    linarith
  · have hyd0 : 0 ≤ y * d := by
      rcases le_total 0 d with h | h
      · have := binary64_lawful.mono 0 (w * d) (mul_nonneg hw h)
        rw [binary64_lawful.zero, e1] at this
        exact mul_nonneg this h
      · have := binary64_lawful.mono (w * d) 0 (mul_nonpos_of_nonneg_of_nonpos hw h)
        rw [binary64_lawful.zero, e1] at this
        exact mul_nonneg_of_nonpos_of_nonpos this h
    have := (product_lawful fu).mono 0 (y * d) hyd0
    rw [(product_lawful fu).zero, f1] at this
    exact this

theorem weightedSumF_eq (R : Rounding) (fu : Nat → Bool) (cp : List WeightedSample) (wf : WeightedSample → F64) :
    weightedSumF R fu (cp.map fun s => (s.value, wf s)) =
      cp.zipIdx.foldl (fun t p => F64.add R t (F64.mul (R.product (fu p.2)) (F64.ofInt R p.1.value) (wf p.1))) (.fin 0) := by
  unfold weightedSumF
  rw [List.zipIdx_map, List.foldl_map]
  rfl

theorem varianceSumF_eq (R : Rounding) (fu : Nat → Bool) (mean : F64) (cp : List WeightedSample) (wf : WeightedSample → F64) :
    varianceSumF R fu mean (cp.map fun s => (s.value, wf s)) =
      cp.zipIdx.foldl (fun t p => F64.add R t (F64.mul (R.product (fu p.2)) (F64.mul R (wf p.1) (F64.sub R (F64.ofInt R p.1.value) mean))
        (F64.sub R (F64.ofInt R p.1.value) mean))) (.fin 0) := by
  unfold varianceSumF
  rw [List.zipIdx_map, List.foldl_map]
  rfl

theorem mean_errF (fu : Nat → Bool) (h : Usable samples) (hne : samples ≠ []) (hn : samples.length ≤ 2 ^ 40) (hs : IsSorted samples cp) {M : ℚ} (hM : 1 ≤ M) (hM' : M ≤ 2 ^ 63)
    (hv : ∀ s ∈ samples, |(s.value : ℚ)| ≤ M) :
    ∃ r, (new binary64 samples cp).getMeanF binary64 fu = .ok (.fin r) ∧ |r - Spec.weightedMean (pairs samples)| ≤ 8 * (samples.length * hulp) * M := by
  obtain ⟨g, hg⟩ := weight_err h hn
  have hnu := small_count hn
  have hu0 := hulp_pos
  have hus := hulp_small
  have hn1 : (1 : ℚ) ≤ samples.length := by exact_mod_cast List.length_pos_iff.2 hne
  have hul : hulp ≤ samples.length * hulp := by nlinarith
  have hlen := hs.1.length_eq
  have hlz : cp.zipIdx.length = samples.length := by rw [List.length_zipIdx, hlen]
  have hin : ∀ p ∈ cp.zipIdx, p.1 ∈ samples := fun p hp => hs.1.mem_iff.1 (zipIdx_mem hp)
  obtain ⟨w1, w2⟩ := weights_sum h hn hs.1 (fun s hm => (hg s hm).2.2.2)
  have hp := fun (s : WeightedSample × Nat) (hm : s ∈ cp.zipIdx) => product_errF (fu s.2) hM hM' (hv s.1 (hin s hm)) (w := g s.1) (o := wt s.1 / (samples.map wt).sum)
    (hg s.1 (hin s hm)).2.1 (hg s.1 (hin s hm)).2.2.1
  have : ∃ p : WeightedSample × Nat → ℚ, ∀ s ∈ cp.zipIdx, F64.mul (binary64.product (fu s.2)) (F64.ofInt binary64 s.1.value) (.fin (g s.1)) = .fin (p s) ∧
      |p s - s.1.value * (wt s.1 / (samples.map wt).sum)| ≤ 1.1 * (hulp * M) + hulp * M * g s.1 + M * |g s.1 - wt s.1 / (samples.map wt).sum| ∧
      |p s| ≤ 1.1 * (hulp * M) + 1.0001 * M * g s.1 := by
    classical
    refine ⟨fun s => if hm : s ∈ cp.zipIdx then (hp s hm).choose else 0, fun s hm => ?_⟩
    simp only [dif_pos hm]
    exact (hp s hm).choose_spec
  obtain ⟨p, hp⟩ := this
  have habs : (cp.zipIdx.map fun s => |p s|).sum ≤ 1.05 * M := by
    refine (List.sum_le_sum fun s hm => (hp s hm).2.2).trans ?_
    rw [sum_lin cp.zipIdx (fun s => g s.1), hlz, zipIdx_sum cp g]
    have h1 : (samples.length : ℚ) * (1.1 * (hulp * M)) = 1.1 * M * (samples.length * hulp) := by ring
    rw [h1]
    have h2 : 1.1 * M * (samples.length * hulp) ≤ 1.1 * M * (1 / 8192) := mul_le_mul_of_nonneg_left hnu (by linarith)
    have h3 : 1.0001 * M * (cp.map g).sum ≤ 1.0001 * M * 1.01 := mul_le_mul_of_nonneg_left w2 (by linarith)
    linarith
  have herr : |(cp.zipIdx.map p).sum - Spec.weightedMean (pairs samples)| ≤ (3.15 * (samples.length * hulp) + 1.01 * hulp) * M := by
    rw [mean_pairs hs.1, ← zipIdx_sum cp (fun s => (s.value : ℚ) * (wt s / (samples.map wt).sum))]
    refine (abs_sum_diff cp.zipIdx p _).trans ?_
    have h1 : ∀ s ∈ cp.zipIdx, |p s - s.1.value * (wt s.1 / (samples.map wt).sum)| ≤ 1.1 * (hulp * M) + M * (hulp * g s.1 + |g s.1 - wt s.1 / (samples.map wt).sum|) := by
      intro s hm
      refine (hp s hm).2.1.trans (le_of_eq ?_)
      ring
    refine (List.sum_le_sum h1).trans ?_
    rw [sum_lin cp.zipIdx (fun s => hulp * g s.1 + |g s.1 - wt s.1 / (samples.map wt).sum|), hlz,
      zipIdx_sum cp (fun s => hulp * g s + |g s - wt s / (samples.map wt).sum|)]
    have h2 : (cp.map fun s => hulp * g s + |g s - wt s / (samples.map wt).sum|).sum = hulp * (cp.map g).sum + (cp.map fun s => |g s - wt s / (samples.map wt).sum|).sum := by
      rw [List.sum_map_add, List.sum_map_mul_left]
    rw [h2]
    have h3 : hulp * (cp.map g).sum ≤ hulp * 1.01 := mul_le_mul_of_nonneg_left w2 hu0.le
    have h4 : M * (hulp * (cp.map g).sum + (cp.map fun s => |g s - wt s / (samples.map wt).sum|).sum) ≤ M * (hulp * 1.01 + 2.05 * (samples.length * hulp)) :=
      mul_le_mul_of_nonneg_left (add_le_add h3 w1) (by linarith)
    refine (add_le_add_right h4 _).trans (le_of_eq ?_)
    ring
  obtain ⟨x, e1, e2⟩ := sum_err (C := 1.05 * M) (le_trans (zpow_le_zpow_right₀ (by norm_num) (by norm_num : (-990 : Int) ≤ 0)) (by rw [zpow_zero]; linarith))
    (le_trans (b := 2 ^ (200 : Int)) (by
      calc 1.05 * M ≤ 2 * 2 ^ 63 := by linarith
        _ ≤ 2 ^ (200 : Int) := by norm_num) (zpow_le_zpow_right₀ (by norm_num) (by norm_num)))
    (fun s : WeightedSample × Nat => F64.mul (binary64.product (fu s.2)) (F64.ofInt binary64 s.1.value) (F64.div binary64 s.1.weight (totalWeight binary64 samples))) p cp.zipIdx
    (fun s hm => by rw [(hg s.1 (hin s hm)).1]; exact (hp s hm).1) 0 (by rw [hlz, zero_add]; linarith) 0 0 (by simp) (by rw [abs_zero, zero_add]; exact habs)
  rw [hlz, zero_add, zero_add] at e2
  have hlv : ¬ (new binary64 samples cp).values.length = 0 := by
    have := (length_weights binary64 samples cp hlen).1
    have := List.length_pos_iff.2 hne
    omega
  refine ⟨x, ?_, ?_⟩
  · unfold getMeanF
    rw [if_neg hlv, zip_new binary64 samples cp hne, weightedSumF_eq, e1]
  · have e : x - Spec.weightedMean (pairs samples) = (x - (cp.zipIdx.map p).sum) + ((cp.zipIdx.map p).sum - Spec.weightedMean (pairs samples)) := by ring
    rw [e]
    refine (abs_add_le _ _).trans ((add_le_add e2 herr).trans ?_)
    have hz : hulp * M ≤ samples.length * hulp * M := mul_le_mul_of_nonneg_right hul (by linarith)
    have e3 : (samples.length : ℚ) * (hulp * (1.01 * (1.05 * M))) + (3.15 * (samples.length * hulp) + 1.01 * hulp) * M =
      (1.01 * 1.05 + 3.15) * (samples.length * hulp * M) + 1.01 * (hulp * M) := by ring
    have e4 : 8 * ((samples.length : ℚ) * hulp) * M = 8 * (samples.length * hulp * M) := by ring
    rw [e3, e4]
    have : 0 ≤ hulp * M := by positivity
    linarith

theorem variance_errF (fm fu : Nat → Bool) (h : Usable samples) (hne : samples ≠ []) (hn : samples.length ≤ 2 ^ 40) (hs : IsSorted samples cp) {M : ℚ} (hM : 1 ≤ M) (hM' : M ≤ 2 ^ 63)
    (hv : ∀ s ∈ samples, |(s.value : ℚ)| ≤ M) :
    ∃ r, (new binary64 samples cp).varianceF binary64 fm fu = .fin r ∧ 0 ≤ r ∧ |r - Spec.weightedVariance (pairs samples)| ≤ 128 * (samples.length * hulp) * M ^ 2 := by
  obtain ⟨m', em, hm⟩ := mean_errF fm h hne hn hs hM hM' hv
  have hmb := mean_bound h hv
  obtain ⟨g, hg⟩ := weight_err h hn
  have hnu := small_count hn
  have hu0 := hulp_pos
  have hus := hulp_small
  have hn1 : (1 : ℚ) ≤ samples.length := by exact_mod_cast List.length_pos_iff.2 hne
  have hul : hulp ≤ samples.length * hulp := by nlinarith
  have hlen := hs.1.length_eq
  have hlz : cp.zipIdx.length = samples.length := by rw [List.length_zipIdx, hlen]
  have hin : ∀ p ∈ cp.zipIdx, p.1 ∈ samples := fun p hp => hs.1.mem_iff.1 (zipIdx_mem hp)
  obtain ⟨w1, w2⟩ := weights_sum h hn hs.1 (fun s hm => (hg s hm).2.2.2)
  rw [variance_pairs hs.1]
  generalize Spec.weightedMean (pairs samples) = m at *
  generalize hL : (samples.length : ℚ) * hulp = L at *
  have hL0 : 0 ≤ L := by linarith
  have hE' : 8 * L * M ≤ M / 1000 := by
    have : 8 * L * M ≤ 8 * (1 / 8192) * M := by gcongr
    linarith
  have hp : ∀ s ∈ cp.zipIdx, ∃ t, F64.mul (binary64.product (fu s.2)) (F64.mul binary64 (.fin (g s.1)) (F64.sub binary64 (F64.ofInt binary64 s.1.value) (.fin m')))
        (F64.sub binary64 (F64.ofInt binary64 s.1.value) (.fin m')) = .fin t ∧
      |t - wt s.1 / (samples.map wt).sum * ((s.1.value : ℚ) - m) ^ 2| ≤
        9.1 * (hulp * M ^ 2) + 4.01 * M * (12 * L * M) * g s.1 + 4 * M ^ 2 * |g s.1 - wt s.1 / (samples.map wt).sum| ∧
      |t| ≤ 9.1 * (hulp * M ^ 2) + 4.05 * M ^ 2 * g s.1 ∧ 0 ≤ t := by
    intro s hm'
    have hms := hin s hm'
    obtain ⟨-, g2, g3, -⟩ := hg s.1 hms
    obtain ⟨d, d1, d2, d3, d4⟩ := diff_err hM hM' hmb hm hE' (v := s.1.value) (hv s.1 hms)
    have d2' : |d - ((s.1.value : ℚ) - m)| ≤ 12 * L * M := by
      refine d2.trans ?_
      have : hulp * M ≤ L * M := mul_le_mul_of_nonneg_right hul (by linarith)
      linarith
    obtain ⟨t, t1, t2, t3, t4⟩ := wsquare_errF (fu s.2) (o := wt s.1 / (samples.map wt).sum) hM hM' d3 d4 d2' g2 g3
    exact ⟨t, by rw [d1]; exact t1, t2, t3, t4⟩
  have : ∃ p : WeightedSample × Nat → ℚ, ∀ s ∈ cp.zipIdx, F64.mul (binary64.product (fu s.2)) (F64.mul binary64 (.fin (g s.1)) (F64.sub binary64 (F64.ofInt binary64 s.1.value) (.fin m')))
        (F64.sub binary64 (F64.ofInt binary64 s.1.value) (.fin m')) = .fin (p s) ∧
      |p s - wt s.1 / (samples.map wt).sum * ((s.1.value : ℚ) - m) ^ 2| ≤
        9.1 * (hulp * M ^ 2) + 4.01 * M * (12 * L * M) * g s.1 + 4 * M ^ 2 * |g s.1 - wt s.1 / (samples.map wt).sum| ∧
      |p s| ≤ 9.1 * (hulp * M ^ 2) + 4.05 * M ^ 2 * g s.1 ∧ 0 ≤ p s := by
    classical
    refine ⟨fun s => if hm : s ∈ cp.zipIdx then (hp s hm).choose else 0, fun s hm => ?_⟩
    simp only [dif_pos hm]
    exact (hp s hm).choose_spec
  obtain ⟨p, hp⟩ := this
  have hM2 : 1 ≤ M ^ 2 := one_le_pow₀ hM
  have hM2' : M ^ 2 ≤ 2 ^ 126 := by
    calc M ^ 2 ≤ (2 ^ 63) ^ 2 := pow_le_pow_left₀ (by linarith) hM' 2
      _ = 2 ^ 126 := by norm_num
  have habs : (cp.zipIdx.map fun s => |p s|).sum ≤ 4.2 * M ^ 2 := by
    refine (List.sum_le_sum fun s hm => (hp s hm).2.2.1).trans ?_
    rw [sum_lin cp.zipIdx (fun s => g s.1), hlz, zipIdx_sum cp g]
    have h1 : (samples.length : ℚ) * (9.1 * (hulp * M ^ 2)) = 9.1 * M ^ 2 * L := by rw [← hL]; ring
    rw [h1]
    have h2 : 9.1 * M ^ 2 * L ≤ 9.1 * M ^ 2 * (1 / 8192) := mul_le_mul_of_nonneg_left hnu (by linarith)
    have h3 : 4.05 * M ^ 2 * (cp.map g).sum ≤ 4.05 * M ^ 2 * 1.01 := mul_le_mul_of_nonneg_left w2 (by linarith)
    linarith
  have herr : |(cp.zipIdx.map p).sum - (cp.map fun s => wt s / (samples.map wt).sum * ((s.value : ℚ) - m) ^ 2).sum| ≤ 67 * L * M ^ 2 := by
    rw [← zipIdx_sum cp (fun s => wt s / (samples.map wt).sum * ((s.value : ℚ) - m) ^ 2)]
    refine (abs_sum_diff cp.zipIdx p _).trans ?_
    have h1 : ∀ s ∈ cp.zipIdx, |p s - wt s.1 / (samples.map wt).sum * ((s.1.value : ℚ) - m) ^ 2| ≤
        9.1 * (hulp * M ^ 2) + M ^ 2 * (48.12 * L * g s.1 + 4 * |g s.1 - wt s.1 / (samples.map wt).sum|) := by
      intro s hm
      refine (hp s hm).2.1.trans (le_of_eq ?_)
      ring
    refine (List.sum_le_sum h1).trans ?_
    rw [sum_lin cp.zipIdx (fun s => 48.12 * L * g s.1 + 4 * |g s.1 - wt s.1 / (samples.map wt).sum|), hlz,
      zipIdx_sum cp (fun s => 48.12 * L * g s + 4 * |g s - wt s / (samples.map wt).sum|)]
    have h2 : (cp.map fun s => 48.12 * L * g s + 4 * |g s - wt s / (samples.map wt).sum|).sum =
        48.12 * L * (cp.map g).sum + 4 * (cp.map fun s => |g s - wt s / (samples.map wt).sum|).sum := by
      rw [List.sum_map_add, List.sum_map_mul_left, List.sum_map_mul_left]
    rw [h2]
    have h3 : 48.12 * L * (cp.map g).sum ≤ 48.12 * L * 1.01 := mul_le_mul_of_nonneg_left w2 (by linarith)
    have h4 : M ^ 2 * (48.12 * L * (cp.map g).sum + 4 * (cp.map fun s => |g s - wt s / (samples.map wt).sum|).sum) ≤ M ^ 2 * (48.12 * L * 1.01 + 4 * (2.05 * L)) :=
      mul_le_mul_of_nonneg_left (by linarith) (by linarith)
    have e5 : (samples.length : ℚ) * (9.1 * (hulp * M ^ 2)) = 9.1 * (L * M ^ 2) := by rw [← hL]; ring
    rw [e5]
    have hz : 0 ≤ L * M ^ 2 := by positivity
    have e6 : M ^ 2 * (48.12 * L * 1.01 + 4 * (2.05 * L)) = (48.12 * 1.01 + 8.2) * (L * M ^ 2) := by ring
    rw [e6] at h4
    have e7 : 67 * L * M ^ 2 = 67 * (L * M ^ 2) := by ring
    rw [e7]
    linarith
  obtain ⟨x, e1, e2⟩ := sum_err (C := 4.2 * M ^ 2) (le_trans (zpow_le_zpow_right₀ (by norm_num) (by norm_num : (-990 : Int) ≤ 0)) (by rw [zpow_zero]; linarith))
    (le_trans (b := 2 ^ (200 : Int)) (by
      calc 4.2 * M ^ 2 ≤ 5 * 2 ^ 126 := by linarith
        _ ≤ 2 ^ (200 : Int) := by norm_num) (zpow_le_zpow_right₀ (by norm_num) (by norm_num)))
    (fun s : WeightedSample × Nat => F64.mul (binary64.product (fu s.2)) (F64.mul binary64 (F64.div binary64 s.1.weight (totalWeight binary64 samples))
        (F64.sub binary64 (F64.ofInt binary64 s.1.value) (.fin m'))) (F64.sub binary64 (F64.ofInt binary64 s.1.value) (.fin m'))) p cp.zipIdx
    (fun s hm => by rw [(hg s.1 (hin s hm)).1]; exact (hp s hm).1) 0 (by rw [hlz, zero_add, hL]; linarith) 0 0 (by simp) (by rw [abs_zero, zero_add]; exact habs)
  rw [hlz, zero_add, zero_add] at e2
  refine ⟨x, ?_, ?_, ?_⟩
  · unfold varianceF
    rw [em, zip_new binary64 samples cp hne, varianceSumF_eq]
    exact e1
  · have := foldl_nonneg (fun s : WeightedSample × Nat => F64.mul (binary64.product (fu s.2)) (F64.mul binary64 (F64.div binary64 s.1.weight (totalWeight binary64 samples))
        (F64.sub binary64 (F64.ofInt binary64 s.1.value) (.fin m'))) (F64.sub binary64 (F64.ofInt binary64 s.1.value) (.fin m'))) cp.zipIdx
      (fun s hm => by rw [(hg s.1 (hin s hm)).1, (hp s hm).1]; exact (hp s hm).2.2.2) (.fin 0) (by simp [F64.le])
    rw [e1] at this
    exact this
  · have e : ∀ V, x - V = (x - (cp.zipIdx.map p).sum) + ((cp.zipIdx.map p).sum - V) := fun V => by ring
    rw [e]
    refine (abs_add_le _ _).trans ((add_le_add e2 herr).trans ?_)
    have e3 : (samples.length : ℚ) * (hulp * (1.01 * (4.2 * M ^ 2))) = 1.01 * 4.2 * (L * M ^ 2) := by rw [← hL]; ring
    have e4 : 128 * L * M ^ 2 = 128 * (L * M ^ 2) := by ring
    have e5 : 67 * L * M ^ 2 = 67 * (L * M ^ 2) := by ring
    rw [e3, e4, e5]
    have : 0 ≤ L * M ^ 2 := by positivity
    linarith

end
end WeightedSnapshot
/-- **C104.** However the compiler fuses the additions of the loop, the variance of a uniform snapshot in binary64 is not negative and off by at most
`(n + 8) 2⁻⁴⁹ M²`: the bound of `C93_uniform_variance`. -/
theorem C104_uniform_variance (fused : Nat → Bool) (vs : List Int) (h2 : 2 ≤ vs.length) (hlen : vs.length ≤ 2 ^ 46) (hsum : InI64 vs.sum) (M : Int) (hM : 1 ≤ M)
    (hM' : M ≤ 2 ^ 63) (hv : ∀ v ∈ vs, |v| ≤ M) :
    ∃ r, (UniformSnapshot.new vs).varianceF binary64 fused = .fin r ∧ 0 ≤ r ∧ |r - Spec.variance vs| ≤ ((vs.length : ℚ) + 8) * 2 ^ (-49 : Int) * (M : ℚ) ^ 2 :=
  UniformSnapshot.variance_errF fused vs h2 hlen hsum M hM hM' hv

/-- **C104.** So `GetStdDev`, with any `math.Sqrt` accurate to 1 ulp, is off by at most `√(n + 8) 2⁻²⁴ M`: the bound of `C93_uniform_stddev`. -/
theorem C104_uniform_stddev (fused : Nat → Bool) (sqrt : F64 → F64) (hsqrt : Spec.GoodSqrt sqrt) (vs : List Int) (h2 : 2 ≤ vs.length) (hlen : vs.length ≤ 2 ^ 46)
    (hsum : InI64 vs.sum) (M : Int) (hM : 1 ≤ M) (hM' : M ≤ 2 ^ 63) (hv : ∀ v ∈ vs, |v| ≤ M) :
    ∃ s : ℚ, (UniformSnapshot.new vs).getStdDevF binary64 fused sqrt = .fin s ∧
      |(s : ℝ) - Real.sqrt (Spec.variance vs)| ≤ Real.sqrt (vs.length + 8) * 2 ^ (-24 : Int) * M := by
  obtain ⟨r, h1, h0, h3⟩ := UniformSnapshot.variance_errF fused vs h2 hlen hsum M hM hM' hv
  obtain ⟨b1, b2⟩ := Spec.variance_bounds h2 hv
  have hMq : (1 : ℚ) ≤ M := by exact_mod_cast hM
  have hn46 : (vs.length : ℚ) ≤ 2 ^ 46 := by exact_mod_cast hlen
  obtain ⟨s, e1, e2⟩ := stddev_err hsqrt (F64.rep_div h1) h0 b1 (by linarith : (0 : ℚ) ≤ M) (N := vs.length + 8) (by linarith [Nat.cast_nonneg (α := ℚ) vs.length]) (by nlinarith) h3
    (by linarith [show (2 : ℚ) ^ 46 + 8 ≤ 2 ^ 47 by norm_num])
  refine ⟨s, ?_, ?_⟩
  · unfold UniformSnapshot.getStdDevF
    have hsz : (UniformSnapshot.new vs).size = (vs.length : Int) := by unfold UniformSnapshot.size; rw [UniformSnapshot.length_new]
    rw [if_neg (by omega), h1, e1]
  · push_cast at e2
    exact e2

/-- Every second addition fused. -/
example : ∃ r, (UniformSnapshot.new [4611686018427387905, 3, -4611686018427387904]).varianceF binary64 (· % 2 == 0) = .fin r ∧ 0 ≤ r ∧
    |r - Spec.variance [4611686018427387905, 3, -4611686018427387904]| ≤ ((3 : ℕ) + 8) * 2 ^ (-49 : Int) * ((4611686018427387905 : Int) : ℚ) ^ 2 :=
  C104_uniform_variance (· % 2 == 0) [4611686018427387905, 3, -4611686018427387904] (by decide) (by norm_num) (by decide) 4611686018427387905 (by norm_num)
    (by norm_num) (by decide)

open WeightedSnapshot

/-- **C104.** However the compiler fuses the additions of the loop, the mean of a weighted snapshot in binary64 is off by at most `n 2⁻⁵⁰ M`: the bound of
`C93_weighted_mean`. -/
theorem C104_weighted_mean (fused : Nat → Bool) (samples cp : List WeightedSample) (hs : IsSorted samples cp) (hne : samples ≠ []) (hn : samples.length ≤ 2 ^ 40)
    (hw : ∀ s ∈ samples, ∃ w : ℚ, s.weight = .fin w ∧ 0 ≤ w) (hlo : 2 ^ (-990 : Int) ≤ Spec.totalWeight (pairs samples))
    (hhi : Spec.totalWeight (pairs samples) ≤ 2 ^ (990 : Int)) (M : Int) (hM : 1 ≤ M) (hM' : M ≤ 2 ^ 63) (hv : ∀ s ∈ samples, |s.value| ≤ M) :
    ∃ r, (new binary64 samples cp).getMeanF binary64 fused = .ok (.fin r) ∧
      |r - Spec.weightedMean (pairs samples)| ≤ samples.length * 2 ^ (-50 : Int) * M := by
  rw [total_pairs] at hlo hhi
  obtain ⟨r, h1, h2⟩ := mean_errF fused (M := (M : ℚ)) ⟨hw, hlo, hhi⟩ hne hn hs (by exact_mod_cast hM) (by exact_mod_cast hM') (fun s hm => by exact_mod_cast hv s hm)
  refine ⟨r, h1, h2.trans (le_of_eq ?_)⟩
  rw [show (2 : ℚ) ^ (-50 : Int) = 8 * hulp by unfold hulp; norm_num]
  ring

/-- **C104.** The variance of a weighted snapshot, `fm` and `fused` saying what is fused in the loops for the mean and for the variance: not negative and off by at
most `n 2⁻⁴⁶ M²`, the bound of `C93_weighted_variance`. -/
theorem C104_weighted_variance (fm fused : Nat → Bool) (samples cp : List WeightedSample) (hs : IsSorted samples cp) (hne : samples ≠ [])
    (hn : samples.length ≤ 2 ^ 40) (hw : ∀ s ∈ samples, ∃ w : ℚ, s.weight = .fin w ∧ 0 ≤ w) (hlo : 2 ^ (-990 : Int) ≤ Spec.totalWeight (pairs samples))
    (hhi : Spec.totalWeight (pairs samples) ≤ 2 ^ (990 : Int)) (M : Int) (hM : 1 ≤ M) (hM' : M ≤ 2 ^ 63) (hv : ∀ s ∈ samples, |s.value| ≤ M) :
    ∃ r, (new binary64 samples cp).varianceF binary64 fm fused = .fin r ∧ 0 ≤ r ∧
      |r - Spec.weightedVariance (pairs samples)| ≤ samples.length * 2 ^ (-46 : Int) * (M : ℚ) ^ 2 := by
  rw [total_pairs] at hlo hhi
  obtain ⟨r, h1, h0, h2⟩ := variance_errF fm fused (M := (M : ℚ)) ⟨hw, hlo, hhi⟩ hne hn hs (by exact_mod_cast hM) (by exact_mod_cast hM')
    (fun s hm => by exact_mod_cast hv s hm)
  refine ⟨r, h1, h0, h2.trans (le_of_eq ?_)⟩
  rw [show (2 : ℚ) ^ (-46 : Int) = 128 * hulp by unfold hulp; norm_num]
  ring

/-- The computed variance is a number that binary64 represents. -/
theorem rep_varianceSumF {fused : Nat → Bool} {mean : F64} {l : List (Int × F64)} {r : ℚ} (h : varianceSumF binary64 fused mean l = .fin r) :
    binary64.rnd r = .fin r := by
  unfold varianceSumF at h
  generalize l.zipIdx = k at h
  induction k using List.reverseRecOn with
  | nil => injection h with h; subst h; exact binary64_lawful.zero
  | append_singleton t x _ =>
    rw [List.foldl_append] at h
    exact F64.rep_add h

/-- **C104.** `GetStdDev` of a weighted snapshot with at least two samples, however the compiler fuses, with any `math.Sqrt` accurate to 1 ulp: off by at most `√(8 n) 2⁻²⁴ M`. -/
theorem C104_weighted_stddev (fm fused : Nat → Bool) (sqrt : F64 → F64) (hsqrt : Spec.GoodSqrt sqrt) (samples cp : List WeightedSample) (hs : IsSorted samples cp) (h2 : 2 ≤ samples.length)
    (hn : samples.length ≤ 2 ^ 40) (hw : ∀ s ∈ samples, ∃ w : ℚ, s.weight = .fin w ∧ 0 ≤ w) (hlo : 2 ^ (-990 : Int) ≤ Spec.totalWeight (pairs samples))
    (hhi : Spec.totalWeight (pairs samples) ≤ 2 ^ (990 : Int)) (M : Int) (hM : 1 ≤ M) (hM' : M ≤ 2 ^ 63) (hv : ∀ s ∈ samples, |s.value| ≤ M) :
    ∃ x : ℚ, (new binary64 samples cp).getStdDevF binary64 fm fused sqrt = .ok (.fin x) ∧
      |(x : ℝ) - Real.sqrt (Spec.weightedVariance (pairs samples))| ≤ Real.sqrt (8 * samples.length) * 2 ^ (-24 : Int) * M := by
  have hne : samples ≠ [] := by rintro rfl; simp at h2
  rw [total_pairs] at hlo hhi
  have hU : Usable samples := ⟨hw, hlo, hhi⟩
  have hMq : (1 : ℚ) ≤ M := by exact_mod_cast hM
  have hvq : ∀ s ∈ samples, |(s.value : ℚ)| ≤ M := fun s hm => by exact_mod_cast hv s hm
  obtain ⟨r, h1, h0, h3⟩ := variance_errF fm fused (M := (M : ℚ)) hU hne hn hs hMq (by exact_mod_cast hM') hvq
  have hmb := mean_bound hU hvq
  have hsh : ∀ s ∈ samples, 0 ≤ wt s / (samples.map wt).sum := fun s hm => div_nonneg (hU.wt hm).2 hU.pos.le
  have hV0 : 0 ≤ Spec.weightedVariance (pairs samples) := by
    rw [variance_pairs (List.Perm.refl samples)]
    apply List.sum_nonneg
    simp only [List.mem_map]
    rintro x ⟨s, hm, rfl⟩
    exact mul_nonneg (hsh s hm) (sq_nonneg _)
  have hV1 : Spec.weightedVariance (pairs samples) ≤ 9 * (M : ℚ) ^ 2 := by
    rw [variance_pairs (List.Perm.refl samples)]
    have h4 : (samples.map fun s => wt s / (samples.map wt).sum * ((s.value : ℚ) - Spec.weightedMean (pairs samples)) ^ 2).sum ≤
        (samples.map fun s => 4 * (M : ℚ) ^ 2 * (wt s / (samples.map wt).sum)).sum := by
      apply List.sum_le_sum
      intro s hm
      rw [mul_comm]
      apply mul_le_mul_of_nonneg_right _ (hsh s hm)
      have h5 : |(s.value : ℚ) - Spec.weightedMean (pairs samples)| ≤ 2 * M := (abs_sub _ _).trans (by linarith [hvq s hm])
      calc ((s.value : ℚ) - Spec.weightedMean (pairs samples)) ^ 2 = |(s.value : ℚ) - Spec.weightedMean (pairs samples)| ^ 2 := (sq_abs _).symm
        _ ≤ (2 * M) ^ 2 := pow_le_pow_left₀ (abs_nonneg _) h5 2
        _ = 4 * (M : ℚ) ^ 2 := by ring
    refine h4.trans ?_
    rw [List.sum_map_mul_left, sum_shares hU]
    nlinarith [sq_nonneg (M : ℚ)]
  have hn40 : (samples.length : ℚ) ≤ 2 ^ 40 := by exact_mod_cast hn
  have hn2 : (2 : ℚ) ≤ samples.length := by exact_mod_cast h2
  obtain ⟨x, e1, e2⟩ := stddev_err hsqrt (rep_varianceSumF h1) h0 hV0 (by linarith : (0 : ℚ) ≤ M) (N := 8 * samples.length) (by linarith) hV1 (by
      refine h3.trans (le_of_eq ?_)
      rw [show (2 : ℚ) ^ (-49 : Int) = 16 * hulp by unfold hulp; norm_num]
      ring) (by linarith [show 8 * (2 : ℚ) ^ 40 ≤ 2 ^ 47 by norm_num])
  refine ⟨x, ?_, ?_⟩
  · unfold getStdDevF
    have := (length_weights binary64 samples cp hs.1.length_eq).1
    rw [if_neg (by omega), h1, e1]
  · push_cast at e2
    exact e2

/-- The hypotheses are met by a list of samples with different weights, with a tie; the first addition for the mean and the second one for the variance are fused. -/
example : ∃ r, (new binary64 sampleCase sampleSorted).varianceF binary64 (· == 0) (· == 1) = .fin r ∧ 0 ≤ r ∧
    |r - Spec.weightedVariance (pairs sampleCase)| ≤ sampleCase.length * 2 ^ (-46 : Int) * ((30 : Int) : ℚ) ^ 2 := by
  have ht : Spec.totalWeight (pairs sampleCase) = 4 := by simp [Spec.totalWeight, pairs, sampleCase, wt]; norm_num
  refine C104_weighted_variance (· == 0) (· == 1) sampleCase sampleSorted sampleCase_ok.2.1 (by decide) (le_trans (show sampleCase.length ≤ 10 by decide) (by norm_num)) ?_ ?_ ?_ 30 (by norm_num) (by norm_num) (by decide)
  · intro s hs
    obtain ⟨w, e, h, _⟩ := sampleCase_ok.1 s hs
    exact ⟨w, e, h.le⟩
  · rw [ht]
    exact le_trans (zpow_le_zpow_right₀ (by norm_num) (by norm_num : (-990 : Int) ≤ 0)) (by norm_num)
  · rw [ht]
    exact le_trans (by norm_num : (4 : ℚ) ≤ 2 ^ (2 : Int)) (zpow_le_zpow_right₀ (by norm_num) (by norm_num))

namespace UniformSnapshot

/-- The rounded interpolation step. -/
theorem step_errF (su : Bool) {M : ℚ} (hM : 1 ≤ M) (hM' : M ≤ 2 ^ 63) {a b : Int} (ha : |(a : ℚ)| ≤ M) (hb : |(b : ℚ)| ≤ M) (hab : a ≤ b) {f : ℚ} (f1 : |f| ≤ 2) :
    ∃ r, F64.add binary64 (F64.ofInt binary64 a) (F64.mul (binary64.product su) (binary64.rnd f) (F64.ofInt binary64 (b - a))) = .fin r ∧
      |r - (a + f * (b - a))| ≤ 19 * (hulp * M) := by
  have hu0 := hulp_pos
  have hus := hulp_small
  have huM : hulp * M ≤ M / 1000000 := by
    rw [div_eq_inv_mul]
    exact mul_le_mul_of_nonneg_right (hus.trans (by norm_num)) (by linarith)
  have huM0 : 0 ≤ hulp * M := by positivity
  have hd0 : (0 : ℚ) ≤ (b : ℚ) - a := by have : (a : ℚ) ≤ b := by exact_mod_cast hab
                                         linarith
  have hd1 : (b : ℚ) - a ≤ 2 * M := by have := abs_le.1 ha; have := abs_le.1 hb; linarith
  obtain ⟨da, hda, ea⟩ := ofInt_rel (n := a) (by
    have : |(a : ℚ)| ≤ 2 ^ 64 := ha.trans (hM'.trans (by norm_num))
    exact_mod_cast this)
  obtain ⟨dd, hdd, ed⟩ := ofInt_rel (n := b - a) (by
    have : |((b - a : Int) : ℚ)| ≤ 2 ^ 64 := by
      push_cast
      rw [abs_of_nonneg hd0]
      linarith [show (2 : ℚ) * 2 ^ 63 = 2 ^ 64 by norm_num]
    exact_mod_cast this)
  obtain ⟨f', ef, hf⟩ := rnd_err' (q := f) (B := 2) f1 (by norm_num) (by norm_num)
  have hf' : |f' - f| ≤ hulp * 2 := hf
  push_cast at ed
  have h1 : |(a : ℚ) * (1 + da) - a| ≤ hulp * M := by
    have e : (a : ℚ) * (1 + da) - a = da * a := by ring
    rw [e, abs_mul]
    exact mul_le_mul hda ha (abs_nonneg _) hu0.le
  have h2 : |((b : ℚ) - a) * (1 + dd) - (b - a)| ≤ hulp * (2 * M) := by
    have e : ((b : ℚ) - a) * (1 + dd) - (b - a) = dd * (b - a) := by ring
    rw [e, abs_mul]
    exact mul_le_mul hdd (by rw [abs_of_nonneg hd0]; exact hd1) (abs_nonneg _) hu0.le
  have h3 : |f' * (((b : ℚ) - a) * (1 + dd)) - f * (b - a)| ≤ 8.2 * (hulp * M) := by
    have e : f' * (((b : ℚ) - a) * (1 + dd)) - f * (b - a) = (f' - f) * (((b : ℚ) - a) * (1 + dd)) + f * (((b : ℚ) - a) * (1 + dd) - (b - a)) := by ring
    rw [e]
    refine (abs_add_le _ _).trans ?_
    have hbig : |((b : ℚ) - a) * (1 + dd)| ≤ 2.05 * M := by
      have e : ((b : ℚ) - a) * (1 + dd) = (((b : ℚ) - a) * (1 + dd) - (b - a)) + (b - a) := by ring
      rw [e]
      refine (abs_add_le _ _).trans ?_
      rw [abs_of_nonneg hd0]
      linarith
    have k1 : |(f' - f) * (((b : ℚ) - a) * (1 + dd))| ≤ hulp * 2 * (2.05 * M) := by
      rw [abs_mul]; exact mul_le_mul hf' hbig (abs_nonneg _) (by linarith)
    have k2 : |f * (((b : ℚ) - a) * (1 + dd) - (b - a))| ≤ 2 * (hulp * (2 * M)) := by
      rw [abs_mul]; exact mul_le_mul f1 h2 (abs_nonneg _) (by norm_num)
    linarith
  have hfd : |f * ((b : ℚ) - a)| ≤ 4 * M := by
    rw [abs_mul, abs_of_nonneg hd0]
    calc |f| * ((b : ℚ) - a) ≤ 2 * (2 * M) := mul_le_mul f1 hd1 hd0 (by norm_num)
      _ = 4 * M := by ring
  have h4 : |f' * (((b : ℚ) - a) * (1 + dd))| ≤ 4.01 * M := by
    have e : f' * (((b : ℚ) - a) * (1 + dd)) = (f' * (((b : ℚ) - a) * (1 + dd)) - f * (b - a)) + f * (b - a) := by ring
    rw [e]
    refine (abs_add_le _ _).trans ?_
    linarith
  obtain ⟨m, em, hm⟩ := product_rnd su h4 (le_trans (by norm_num) (by linarith : (1 : ℚ) ≤ 4.01 * M)) (by
    calc 4.01 * M ≤ 5 * 2 ^ 63 := by linarith
      _ ≤ 2 ^ (200 : Int) := by norm_num)
  have hm' : |m - f' * (((b : ℚ) - a) * (1 + dd))| ≤ hulp * (4.01 * M) := hm
  have h5 : |(a * (1 + da) + m) - (a + f * (b - a))| ≤ 13.4 * (hulp * M) := by
    have e : ((a : ℚ) * (1 + da) + m) - (a + f * (b - a)) =
        (a * (1 + da) - a) + ((m - f' * (((b : ℚ) - a) * (1 + dd))) + (f' * (((b : ℚ) - a) * (1 + dd)) - f * (b - a))) := by ring
    rw [e]
    refine (abs_add_le _ _).trans ?_
    have := abs_add_le (m - f' * (((b : ℚ) - a) * (1 + dd))) (f' * (((b : ℚ) - a) * (1 + dd)) - f * (b - a))
    linarith
  have h6 : |(a : ℚ) * (1 + da) + m| ≤ 5.1 * M := by
    have e : (a : ℚ) * (1 + da) + m = ((a * (1 + da) + m) - (a + f * (b - a))) + (a + f * (b - a)) := by ring
    rw [e]
    refine (abs_add_le _ _).trans ?_
    have := abs_add_le (a : ℚ) (f * (b - a))
    linarith
  obtain ⟨r, er, hr⟩ := rnd_err' h6 (le_trans (by norm_num) (by linarith : (1 : ℚ) ≤ 5.1 * M)) (by
    calc 5.1 * M ≤ 6 * 2 ^ 63 := by linarith
      _ ≤ 2 ^ (200 : Int) := by norm_num)
  have hr' : |r - ((a : ℚ) * (1 + da) + m)| ≤ hulp * (5.1 * M) := hr
  refine ⟨r, ?_, ?_⟩
  · rw [ea, ed, ef]
    simp only [F64.mul, F64.add]
    rw [em]
    exact er
  · have e : r - (a + f * (b - a)) = (r - (a * (1 + da) + m)) + (((a : ℚ) * (1 + da) + m) - (a + f * (b - a))) := by ring
    rw [e]
    refine (abs_add_le _ _).trans ?_
    linarith

end UniformSnapshot
open UniformSnapshot

/-- **C104.** However the compiler fuses, a percentile of a uniform snapshot in binary64, for any fraction `c` (rounded to a `float64`), is the interpolated value at
position `c (n + 1)` of the sorted values, up to `(n + 4) 2⁻⁵⁰` of the largest magnitude: twice the bound of `C94_uniform`. -/
theorem C104_percentile_accurate (fr su : Bool) (vs sorted : List Int) (hs : sorted.Pairwise (· ≤ ·)) (hp : sorted.Perm vs) (hne : vs ≠ []) (hn : vs.length + 1 < 2 ^ 53) (M : Int) (hM : 1 ≤ M)
    (hM' : M ≤ 2 ^ 63) (hv : ∀ v ∈ vs, |v| ≤ M) (hd : ∀ a ∈ vs, ∀ b ∈ vs, b - a < 2 ^ 63) (c : ℚ) (h0 : 0 ≤ c) (h1 : c ≤ 1) :
    ∃ r : ℚ, (new vs).getValueF binary64 fr su (binary64.rnd c) = .ok (.fin r) ∧
      |r - Spec.interpolated sorted (c * (vs.length + 1))| ≤ (vs.length + 4) * 2 ^ (-50 : Int) * M := by
  have hval : (new vs).values = sorted := by
    refine List.Perm.eq_of_pairwise (le := (· ≤ ·)) (fun a b _ _ h h' => le_antisymm h h') (sorted_new vs) hs ((perm_new vs).trans hp.symm)
  have hl : sorted.length = vs.length := hp.length_eq
  have hsne : sorted ≠ [] := by rintro rfl; exact hne (by simpa using hp.symm)
  have hu0 := hulp_pos
  have hus := hulp_small
  have hMq : (1 : ℚ) ≤ M := by exact_mod_cast hM
  have hMq' : (M : ℚ) ≤ 2 ^ 63 := by exact_mod_cast hM'
  have hv' : ∀ v ∈ sorted, |(v : ℚ)| ≤ M := fun v h => by exact_mod_cast hv v (hp.mem_iff.1 h)
  have hn0 : (0 : ℚ) ≤ vs.length := by positivity
  have hnq : (vs.length : ℚ) + 1 < 2 ^ 53 := by exact_mod_cast hn
  have hone : binary64.rnd 1 = .fin 1 := by have := binary64_int (n := 1) (by norm_num); exact_mod_cast this
  obtain ⟨q, e1, e2⟩ := rnd_err' (q := c) (B := 1) (by rw [abs_of_nonneg h0]; exact h1) (by norm_num) (by norm_num)
  have e2' : |q - c| ≤ hulp := by have : |q - c| ≤ hulp * 1 := e2
                                  linarith
  have hq0 : 0 ≤ q := by
    have := binary64_lawful.mono 0 c h0
    rw [binary64_lawful.zero, e1] at this; exact this
  have hq1 : q ≤ 1 := by
    have := binary64_lawful.mono c 1 h1
    rw [hone, e1] at this; exact this
  have hprod0 : 0 ≤ q * ((vs.length : ℚ) + 1) := by positivity
  obtain ⟨p', e3, e4⟩ := rnd_err' (q := q * ((vs.length : ℚ) + 1)) (B := vs.length + 1) (by
      rw [abs_of_nonneg hprod0]; nlinarith) (le_trans (by norm_num) (by linarith : (1 : ℚ) ≤ vs.length + 1)) (hnq.le.trans (by norm_num))
  have e4' : |p' - q * ((vs.length : ℚ) + 1)| ≤ hulp * (vs.length + 1) := e4
  have hp0 : 0 ≤ p' := by
    have := binary64_lawful.mono 0 _ hprod0
    rw [binary64_lawful.zero, e3] at this; exact this
  have hlen1 : binary64.rnd (((vs.length : Int) + 1 : Int) : ℚ) = .fin (((vs.length : Int) + 1 : Int) : ℚ) := binary64_int (by
    rw [abs_of_nonneg (by omega)]; exact_mod_cast hn)
  have hpos : (new vs).position binary64 (binary64.rnd c) = .fin p' := by
    unfold position UniformSnapshot.size
    rw [length_new, e1]
    unfold F64.ofInt
    rw [hlen1]
    simp only [F64.mul]
    push_cast
    exact e3
  have hpp : |p' - c * ((vs.length : ℚ) + 1)| ≤ 2 * hulp * (vs.length + 1) := by
    have e : p' - c * ((vs.length : ℚ) + 1) = (p' - q * (vs.length + 1)) + (q - c) * (vs.length + 1) := by ring
    rw [e]
    refine (abs_add_le _ _).trans ?_
    rw [abs_mul, abs_of_nonneg (by linarith : (0 : ℚ) ≤ vs.length + 1)]
    have := mul_le_mul_of_nonneg_right e2' (by linarith : (0 : ℚ) ≤ (vs.length : ℚ) + 1)
    linarith
  have hpbig : p' < 2 ^ 62 := by
    have h5 := (abs_le.1 e4').2
    have h6 : q * ((vs.length : ℚ) + 1) ≤ 1 * (vs.length + 1) := mul_le_mul_of_nonneg_right hq1 (by linarith)
    have h7 : hulp * ((vs.length : ℚ) + 1) ≤ 1 * (vs.length + 1) := mul_le_mul_of_nonneg_right (hus.trans (by norm_num)) (by linarith)
    have : (2 : ℚ) * 2 ^ 53 < 2 ^ 62 := by norm_num
    linarith
  have hlip := Interp.lip hsne hs hv' p' (c * (vs.length + 1))
  have hgood : badQuantile (binary64.rnd c) = false := by rw [e1]; exact (bad_fin q).2 ⟨hq0, hq1⟩
  have hnpos : 0 < (new vs).values.length := by rw [hval]; exact List.length_pos_iff.2 hsne
  have htr : truncInt ((new vs).position binary64 (binary64.rnd c)) = ⌊p'⌋ := by rw [hpos]; exact trunc_small hp0 hpbig
  have key : ∃ r, (new vs).getValueF binary64 fr su (binary64.rnd c) = .ok (.fin r) ∧ |r - Spec.interpolated sorted p'| ≤ 19 * (hulp * M) + 2 * M * (hulp * (vs.length + 1)) := by
    have hN0 : 0 ≤ 2 * (M : ℚ) * (hulp * (vs.length + 1)) := by positivity
    have huM0 : 0 ≤ hulp * (M : ℚ) := by positivity
    rcases getValueF_cases binary64 fr su (new vs) hgood hnpos with ⟨h, e⟩ | ⟨h, h', e⟩ | ⟨i, hi, p, hpp', h, hf, e⟩
    · rw [htr] at h
      have hlt : p' < 1 := by
        have := Int.lt_floor_add_one p'
        have h2 : (⌊p'⌋ : ℚ) + 1 ≤ 1 := by exact_mod_cast (by omega : ⌊p'⌋ + 1 ≤ 1)
        linarith
      obtain ⟨r, er, hr⟩ := ofInt_err hMq' (hv' (new vs).values[0] (by rw [← hval]; exact List.getElem_mem _))
      refine ⟨r, by rw [e, er], ?_⟩
      unfold Spec.interpolated
      rw [if_pos hlt]
      have : (new vs).values[0] = sorted.headD 0 := by
        simp only [hval]
        cases sorted with
        | nil => exact absurd rfl hsne
        | cons => rfl
      rw [this] at hr
      linarith
    · rw [htr] at h h'
      have hge : ¬ p' < 1 := by
        have := Int.floor_le p'
        have h2 : (1 : ℚ) ≤ ⌊p'⌋ := by exact_mod_cast h
        intro h3; linarith
      have hge' : (sorted.length : ℚ) ≤ p' := by
        have := Int.floor_le p'
        have h2 : ((sorted.length : Int) : ℚ) ≤ ⌊p'⌋ := by
          rw [hval] at h'
          exact_mod_cast h'
        push_cast at h2
        linarith
      obtain ⟨r, er, hr⟩ := ofInt_err hMq' (hv' ((new vs).values[(new vs).values.length - 1]) (by rw [← hval]; exact List.getElem_mem _))
      refine ⟨r, by rw [e, er], ?_⟩
      unfold Spec.interpolated
      rw [if_neg hge, if_pos hge']
      have : (new vs).values[(new vs).values.length - 1] = sorted.getLastD 0 := by
        simp only [hval]
        rw [List.getLastD_eq_getLast?, List.getLast?_eq_some_getLast hsne, List.getLast_eq_getElem]
        rfl
      rw [this] at hr
      linarith
    · rw [hpos, F64.fin.injEq] at hpp'
      subst hpp'
      have e5 : (new vs).values[i] = sorted[i]'(by rw [← hval]; omega) := by simp only [hval]
      have e6 : (new vs).values[i + 1] = sorted[i + 1]'(by rw [← hval]; omega) := by simp only [hval]
      rw [e5, e6] at e
      have hi' : i + 1 < sorted.length := by rw [← hval]; exact hi
      have m1 : sorted[i] ∈ sorted := List.getElem_mem _
      have m2 : sorted[i + 1] ∈ sorted := List.getElem_mem _
      have hab : sorted[i] ≤ sorted[i + 1] := sorted_get hs (by omega) hi' (by omega)
      have hw := hd _ (hp.mem_iff.1 m1) _ (hp.mem_iff.1 m2)
      rw [i64_of_in (by unfold InI64; constructor <;> omega)] at e
      have hfl := Int.floor_le p'
      have hfl' := Int.lt_floor_add_one p'
      rw [hf] at hfl hfl'
      have hfrac : ∃ f : ℚ, (new vs).fractionF binary64 fr (binary64.rnd c) = binary64.rnd f ∧ |f - (p' - ((i : Int) + 1 : Int))| ≤ hulp * (vs.length + 1) := by
        cases fr with
        | false => exact ⟨_, fraction_false hpos hf, by rw [sub_self, abs_zero]; positivity⟩
        | true =>
          have hN : F64.ofInt binary64 ((new vs).size + 1) = .fin ((vs.length : ℚ) + 1) := by
            unfold F64.ofInt UniformSnapshot.size
            rw [length_new, hlen1]
            push_cast
            rfl
          rw [e1] at hpos ⊢
          refine ⟨_, fraction_true hN hpos hf, ?_⟩
          rw [show q * ((vs.length : ℚ) + 1) - ((i : Int) + 1 : Int) - (p' - ((i : Int) + 1 : Int)) = -(p' - q * (vs.length + 1)) by ring, abs_neg]
          exact e4'
      obtain ⟨f, ef, hff⟩ := hfrac
      rw [ef] at e
      have hN1 : hulp * ((vs.length : ℚ) + 1) ≤ 1 := by
        calc hulp * ((vs.length : ℚ) + 1) ≤ hulp * 2 ^ 53 := mul_le_mul_of_nonneg_left hnq.le hu0.le
          _ = 1 := by unfold hulp; norm_num
      have hf2 : |f| ≤ 2 := by
        have := abs_le.1 hff
        rw [abs_le]; constructor <;> linarith
      obtain ⟨r, er, hr⟩ := step_errF su hMq hMq' (hv' _ m1) (hv' _ m2) hab hf2
      refine ⟨r, by rw [e, er], ?_⟩
      have hd0 : (0 : ℚ) ≤ (sorted[i + 1] : ℚ) - sorted[i] := by
        have : (sorted[i] : ℚ) ≤ sorted[i + 1] := by exact_mod_cast hab
        linarith
      have hd1 : (sorted[i + 1] : ℚ) - sorted[i] ≤ 2 * M := by
        have := abs_le.1 (hv' _ m1); have := abs_le.1 (hv' _ m2); linarith
      have hdiff : |(f - (p' - ((i : Int) + 1 : Int))) * ((sorted[i + 1] : ℚ) - sorted[i])| ≤ 2 * M * (hulp * (vs.length + 1)) := by
        rw [abs_mul, abs_of_nonneg hd0, mul_comm]
        exact mul_le_mul hd1 hff (abs_nonneg _) (by linarith)
      unfold Spec.interpolated
      push_cast at hfl hfl'
      have hi0 : (0 : ℚ) ≤ i := by positivity
      have hle : (i : ℚ) + 1 + 1 ≤ sorted.length := by exact_mod_cast hi'
      rw [if_neg (by linarith), if_neg (by intro h; linarith), hf]
      have t1 : ((i : Int) + 1).toNat = i + 1 := by omega
      rw [t1]
      have t2 : ∀ (j : Nat) (h : j < sorted.length), sorted.getD j 0 = sorted[j] := fun j h => by rw [List.getD_eq_getElem?_getD, List.getElem?_eq_getElem h]; rfl
      rw [t2 _ (show i + 1 - 1 < sorted.length by omega), t2 _ hi']
      simp only [Nat.add_sub_cancel]
      have e7 : r - ((sorted[i] : ℚ) + (p' - ((i : Int) + 1 : Int)) * (sorted[i + 1] - sorted[i])) =
        (r - (sorted[i] + f * (sorted[i + 1] - sorted[i]))) + (f - (p' - ((i : Int) + 1 : Int))) * (sorted[i + 1] - sorted[i]) := by ring
      rw [e7]
      exact (abs_add_le _ _).trans (add_le_add hr hdiff)
  obtain ⟨r, er, hr⟩ := key
  refine ⟨r, er, ?_⟩
  have e : r - Spec.interpolated sorted (c * (vs.length + 1)) =
      (r - Spec.interpolated sorted p') + (Spec.interpolated sorted p' - Spec.interpolated sorted (c * (vs.length + 1))) := by ring
  rw [e]
  refine (abs_add_le _ _).trans ?_
  have h8 : 2 * (M : ℚ) * |p' - c * ((vs.length : ℚ) + 1)| ≤ 2 * M * (2 * hulp * (vs.length + 1)) := mul_le_mul_of_nonneg_left hpp (by linarith)
  rw [show (2 : ℚ) ^ (-50 : Int) = 8 * hulp by unfold hulp; norm_num]
  have huM0 : 0 ≤ hulp * (M : ℚ) := by positivity
  have hnM : 0 ≤ 2 * (M : ℚ) * (hulp * vs.length) := by positivity
  calc |r - Spec.interpolated sorted p'| + |Spec.interpolated sorted p' - Spec.interpolated sorted (c * (vs.length + 1))|
      ≤ (19 * (hulp * M) + 2 * M * (hulp * (vs.length + 1))) + 2 * M * (2 * hulp * (vs.length + 1)) := add_le_add hr (hlip.trans h8)
    _ ≤ (vs.length + 4) * (8 * hulp) * M := by
        linarith [show (vs.length + 4) * (8 * hulp) * (M : ℚ) = 2 * M * (hulp * (vs.length + 1)) + 2 * M * (2 * hulp * (vs.length + 1)) + 26 * (hulp * M) + 2 * M * (hulp * vs.length) by ring]

/-- The 95th percentile that `C104_percentile_negative_refuted` is about: it is negative, but not by much. -/
example (fr su : Bool) : ∃ r : ℚ, (new (1000000 :: List.replicate 38 0)).getValueF binary64 fr su (binary64.rnd (95 / 100)) = .ok (.fin r) ∧
    |r - Spec.interpolated (List.replicate 38 0 ++ [1000000]) (95 / 100 * ((39 : ℕ) + 1))| ≤ ((39 : ℕ) + 4) * 2 ^ (-50 : Int) * (1000000 : Int) :=
  C104_percentile_accurate fr su (1000000 :: List.replicate 38 0) (List.replicate 38 0 ++ [1000000]) (by decide) (by decide) (by decide) (by simp) 1000000 (by norm_num)
    (by norm_num) (by decide) (by decide) (95 / 100) (by norm_num) (by norm_num)

end GoMetrics
