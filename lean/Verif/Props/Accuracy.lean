import Verif.Spec.Statistics
import Verif.Proofs.VarianceError
import Verif.Props.UniformSnapshot
import Verif.Props.BucketReservoir
import Verif.Props.CompassRates
/-! # C93 — accuracy of the reported means, rates and deviations in binary64 -/
namespace GoMetrics
open Rounding

/-- **C93.** The mean of a uniform snapshot in binary64: relative error at most `2⁻⁵¹`, for any values whose sum fits an `int64`. -/
theorem C93_uniform_mean (vs : List Int) (hne : vs ≠ []) (hlen : vs.length < 2 ^ 63) (hsum : InI64 vs.sum) :
    ∃ r, (UniformSnapshot.new vs).getMean binary64 = .fin r ∧ |r - Spec.mean vs| ≤ 2 ^ (-51 : Int) * |Spec.mean vs| := by
  have hsz : (UniformSnapshot.new vs).size = (vs.length : Int) := by unfold UniformSnapshot.size; rw [UniformSnapshot.length_new]
  have hlpos : 0 < vs.length := List.length_pos_iff.2 hne
  have hs : (UniformSnapshot.new vs).sum = vs.sum := by rw [UniformSnapshot.sum_new, i64_of_in hsum]
  obtain ⟨k, hk, ek⟩ := div_rel (s := vs.sum) (c := (vs.length : Int)) (by unfold InI64 at hsum; rw [abs_le]; constructor <;> omega)
    (by rw [abs_of_nonneg (by omega)]; omega) (by omega)
  refine ⟨(vs.sum : ℚ) / vs.length * k, ?_, ?_⟩
  · unfold UniformSnapshot.getMean
    rw [if_neg (by omega), hs, hsz, ek]
    norm_cast
  · have h := rel_of_factor (q := (vs.sum : ℚ) / vs.length) hk
    have e : 4 * hulp = 2 ^ (-51 : Int) := by unfold hulp; norm_num
    rw [e] at h
    exact h

/-- **C93.** The mean of a bucket snapshot in binary64: relative error at most `2⁻⁵¹`, for any two `int64`s, the number of durations not 0. -/
theorem C93_bucket_mean (count total : Int) (hc : InI64 count) (ht : InI64 total) (h0 : count ≠ 0) :
    ∃ r, (BucketSnapshot.mk count total).getMean binary64 = .ok (.fin r) ∧ |r - (total : ℚ) / count| ≤ 2 ^ (-51 : Int) * |(total : ℚ) / count| := by
  obtain ⟨k, hk, ek⟩ := div_rel (s := total) (c := count) (by unfold InI64 at ht; rw [abs_le]; constructor <;> omega)
    (by unfold InI64 at hc; rw [abs_le]; constructor <;> omega) h0
  refine ⟨(total : ℚ) / count * k, ?_, ?_⟩
  · unfold BucketSnapshot.getMean
    rw [if_neg h0]
    simp only [ek]
  · have h := rel_of_factor (q := (total : ℚ) / count) hk
    have e : 4 * hulp = 2 ^ (-51 : Int) := by unfold hulp; norm_num
    rwa [e] at h

/-- **C93.** The mean rate of a compass in binary64, after any history of fewer than `2⁶³` calls, with any reservoir: the number of recorded calls divided by the
elapsed time (times 10⁹), with a relative error of at most `2⁻⁵⁰`. -/
theorem C93_mean_rate {σ X : Type} (S : ReservoirImpl σ X) (r0 : σ) (n : Nat) (I maxErr maxAdd : Int) (ne : Compass.NewEnv) (hI : I ≠ 0)
    (h : List (Compass.Env X × Compass.Op)) (hl : h.length < 2 ^ 63) (tick : Int) (ht : 0 < tick - ne.now) (ht' : tick - ne.now < 2 ^ 63) :
    ∃ r, (Compass.run binary64 S (Compass.new r0 n I maxErr maxAdd ne) h).getMeanRate binary64 tick = .fin r ∧
      |r - ((Spec.records h).length : ℚ) / (tick - ne.now : Int) * 1000000000| ≤
        2 ^ (-50 : Int) * |((Spec.records h).length : ℚ) / (tick - ne.now : Int) * 1000000000| := by
  have hrl : (Spec.records h).length < 2 ^ 63 := lt_of_le_of_lt (by unfold Spec.records; exact List.length_filter_le _ _) hl
  have e1 : i64 ((Spec.records h).length : Int) = ((Spec.records h).length : Int) := i64_of_in (by unfold InI64; omega)
  have e2 : i64 (tick - ne.now) = tick - ne.now := i64_of_in (by unfold InI64; omega)
  rw [C27_formula binary64 S r0 n I maxErr maxAdd ne hI h tick]
  simp only [e1, e2]
  by_cases h0 : (Spec.records h).length = 0
  · rw [if_pos (Or.inl (by omega))]
    exact ⟨0, rfl, by rw [h0]; simp⟩
  rw [if_neg (by omega)]
  generalize hcg : ((Spec.records h).length : Int) = c at *
  have hcq : ((Spec.records h).length : ℚ) = (c : ℚ) := by rw [← hcg]; norm_cast
  rw [hcq]
  generalize tick - ne.now = t at *
  have hc1 : 1 ≤ c := by omega
  have hc2 : c < 2 ^ 63 := by omega
  obtain ⟨k, hk, ek⟩ := div_rel (s := c) (c := t) (by rw [abs_le]; constructor <;> omega) (by rw [abs_le]; constructor <;> omega) (by omega)
  have hk' : |k - 1| ≤ 1 / 1000 := hk.trans (by have := hulp_small; linarith)
  have hk'' := abs_le.1 hk'
  have hcq1 : (1 : ℚ) ≤ c := by exact_mod_cast hc1
  have hcq2 : (c : ℚ) ≤ 2 ^ 63 := by exact_mod_cast hc2.le
  have htq1 : (1 : ℚ) ≤ t := by exact_mod_cast ht
  have htq2 : (t : ℚ) ≤ 2 ^ 63 := by exact_mod_cast ht'.le
  have hq1 : (2 : ℚ) ^ (-63 : Int) ≤ (c : ℚ) / t := by
    rw [le_div_iff₀ (by linarith)]
    calc (2 : ℚ) ^ (-63 : Int) * t ≤ 2 ^ (-63 : Int) * 2 ^ 63 := by gcongr
      _ = 1 := by norm_num
      _ ≤ c := hcq1
  have hq2 : (c : ℚ) / t ≤ 2 ^ 63 := by
    rw [div_le_iff₀ (by linarith)]
    nlinarith
  have hG : F64.ofInt binary64 1000000000 = .fin 1000000000 := by
    have := binary64_int (n := 1000000000) (by norm_num)
    exact_mod_cast this
  rw [ek, hG]
  generalize (c : ℚ) / t = q at *
  have hqp : 0 < q := lt_of_lt_of_le (by positivity) hq1
  have hqk : 0 < q * k * 1000000000 := by have : 0 < k := by linarith
                                          positivity
  obtain ⟨d, hd, ed⟩ := rnd_rel (q := q * k * 1000000000) (Or.inr (by
      rw [abs_of_pos hqk]
      calc (2 : ℚ) ^ (-200 : Int) ≤ 2 ^ (-63 : Int) * (1 / 2) * 1000000000 := by norm_num
        _ ≤ q * k * 1000000000 := by gcongr; linarith)) (by
      rw [abs_of_pos hqk]
      calc q * k * 1000000000 ≤ 2 ^ 63 * 2 * 1000000000 := by gcongr <;> linarith
        _ ≤ 2 ^ (200 : Int) := by norm_num)
  refine ⟨q * k * 1000000000 * (1 + d), ed, ?_⟩
  have hf : |k * (1 + d) - 1| ≤ 2 ^ (-50 : Int) := by
    have e : k * (1 + d) - 1 = (k - 1) + k * d := by ring
    rw [e]
    refine (abs_add_le _ _).trans ?_
    rw [abs_mul, abs_of_pos (by linarith : 0 < k)]
    have h2 : k * |d| ≤ 2 * hulp := mul_le_mul (by linarith) hd (abs_nonneg _) (by norm_num)
    have e8 : (2 : ℚ) ^ (-50 : Int) = 8 * hulp := by unfold hulp; norm_num
    rw [e8]
    have := hulp_pos
    linarith
  have := rel_of_factor (q := q * 1000000000) hf
  convert this using 2
  ring

namespace UniformSnapshot

theorem sum_map_diff {α : Type} (l : List α) (f g : α → ℚ) (e : ℚ) (h : ∀ a ∈ l, |f a - g a| ≤ e) : |(l.map f).sum - (l.map g).sum| ≤ l.length * e := by
  induction l with
  | nil => simp
  | cons a t ih =>
    simp only [List.map_cons, List.sum_cons, List.length_cons]
    have h1 := h a (by simp)
    have h2 := ih (fun b hb => h b (by simp [hb]))
    have e1 : f a + (t.map f).sum - (g a + (t.map g).sum) = (f a - g a) + ((t.map f).sum - (t.map g).sum) := by ring
    rw [e1]
    refine (abs_add_le _ _).trans ?_
    push_cast
    linarith

theorem sum_abs_le {α : Type} (l : List α) (f : α → ℚ) (e : ℚ) (h : ∀ a ∈ l, |f a| ≤ e) : (l.map fun a => |f a|).sum ≤ l.length * e := by
  induction l with
  | nil => simp
  | cons a t ih =>
    simp only [List.map_cons, List.sum_cons, List.length_cons]
    have h1 := h a (by simp)
    have h2 := ih (fun b hb => h b (by simp [hb]))
    push_cast
    linarith

/-- Sums of squares are not negative, whatever the values. -/
theorem diffSum_nonneg' {R : Rounding} (hR : R.Lawful) (m : ℚ) (vs : List Int) (acc : F64) (hacc : F64.le (.fin 0) acc) :
    F64.le (.fin 0) (vs.foldl (fun s v => F64.add R s (F64.mul R (F64.sub R (F64.ofInt R v) (.fin m)) (F64.sub R (F64.ofInt R v) (.fin m)))) acc) := by
  induction vs generalizing acc with
  | nil => exact hacc
  | cons v t ih =>
    refine ih _ (le_add_nonneg hR hacc (sq_nonneg' hR ?_))
    have := hR.not_nan (v : ℚ)
    unfold F64.ofInt
    cases hx : R.rnd (v : ℚ) with
    | nan => exact absurd hx this
    | inf s => simp [F64.sub, F64.neg, F64.add]
    | fin x => exact hR.not_nan _

theorem variance_err (vs : List Int) (h2 : 2 ≤ vs.length) (hlen : vs.length ≤ 2 ^ 46) (hsum : InI64 vs.sum) (M : Int) (hM : 1 ≤ M) (hM' : M ≤ 2 ^ 63)
    (hv : ∀ v ∈ vs, |v| ≤ M) :
    ∃ r, (new vs).variance binary64 = .fin r ∧ 0 ≤ r ∧ |r - Spec.variance vs| ≤ ((vs.length : ℚ) + 8) * 2 ^ (-49 : Int) * (M : ℚ) ^ 2 := by
  have hu0 := hulp_pos
  have hus := hulp_small
  have hne : vs ≠ [] := by rintro rfl; simp at h2
  obtain ⟨m', em, hm'⟩ := C93_uniform_mean vs hne (by omega) hsum
  have hsz : (new vs).size = (vs.length : Int) := by unfold size; rw [length_new]
  have hMq : (1 : ℚ) ≤ M := by exact_mod_cast hM
  have hMq' : (M : ℚ) ≤ 2 ^ 63 := by exact_mod_cast hM'
  have hn2 : (2 : ℚ) ≤ vs.length := by exact_mod_cast h2
  have hn46 : (vs.length : ℚ) ≤ 2 ^ 46 := by exact_mod_cast hlen
  have hmean : |Spec.mean vs| ≤ M := by
    obtain ⟨b1, b2⟩ := sum_bounds (vs := vs) (lo := -M) (hi := M) (fun v hvm => abs_le.1 (hv v hvm))
    have c1 : -(M : ℚ) * vs.length ≤ vs.sum := by exact_mod_cast b1
    have c2 : (vs.sum : ℚ) ≤ M * vs.length := by exact_mod_cast b2
    unfold Spec.mean
    rw [abs_le, le_div_iff₀ (by linarith), div_le_iff₀ (by linarith)]
    exact ⟨c1, c2⟩
  have e51 : (2 : ℚ) ^ (-51 : Int) = 4 * hulp := by unfold hulp; norm_num
  have e49 : (2 : ℚ) ^ (-49 : Int) = 16 * hulp := by unfold hulp; norm_num
  rw [e51] at hm'
  rw [e49]
  have hE : |m' - Spec.mean vs| ≤ 4 * (hulp * M) := by
    refine hm'.trans ?_
    rw [mul_assoc]
    gcongr
  generalize hmu : Spec.mean vs = m at *
  have hE' : 4 * (hulp * (M : ℚ)) ≤ M / 1000 := by
    have : hulp * (M : ℚ) ≤ 1 / 1000000 * M := mul_le_mul_of_nonneg_right (hus.trans (by norm_num)) (by linarith)
    linarith
  have hterm := fun v (hvm : v ∈ vs) => square_err (M := (M : ℚ)) (m := m) (m' := m') hMq hMq' hmean hE hE' (v := v) (by exact_mod_cast hv v hvm)
  have : ∃ g : Int → ℚ, ∀ v ∈ vs, F64.mul binary64 (F64.sub binary64 (F64.ofInt binary64 v) (.fin m')) (F64.sub binary64 (F64.ofInt binary64 v) (.fin m')) = .fin (g v) ∧
      |g v - ((v : ℚ) - m) ^ 2| ≤ 4.01 * M * (4 * (hulp * M) + 4 * (hulp * M)) + 4.05 * (hulp * (M : ℚ) ^ 2) ∧ |g v| ≤ 4.06 * (M : ℚ) ^ 2 := by
    classical
    refine ⟨fun v => if h : v ∈ vs then (hterm v h).choose else 0, fun v h => ?_⟩
    simp only [dif_pos h]
    exact (hterm v h).choose_spec
  obtain ⟨g, hg⟩ := this
  have hlen' : (new vs).values.length = vs.length := length_new vs
  have hM2 : 1 ≤ (M : ℚ) ^ 2 := one_le_pow₀ hMq
  have hM2' : (M : ℚ) ^ 2 ≤ 2 ^ 126 := by
    calc (M : ℚ) ^ 2 ≤ (2 ^ 63) ^ 2 := pow_le_pow_left₀ (by linarith) hMq' 2
      _ = 2 ^ 126 := by norm_num
  have hP : 2 ≤ (vs.length : ℚ) * (M : ℚ) ^ 2 := by nlinarith
  have hP' : (vs.length : ℚ) * (M : ℚ) ^ 2 ≤ 2 ^ 46 * 2 ^ 126 := mul_le_mul hn46 hM2' (by positivity) (by positivity)
  have hnu : (vs.length : ℚ) * hulp ≤ 1 / 110 := by
    calc (vs.length : ℚ) * hulp ≤ 2 ^ 46 * hulp := mul_le_mul_of_nonneg_right hn46 hu0.le
      _ ≤ 1 / 110 := by unfold hulp; norm_num
  obtain ⟨S, eS, hS⟩ := sum_err (C := vs.length * (4.06 * (M : ℚ) ^ 2)) (le_trans (zpow_le_zpow_right₀ (by norm_num) (by norm_num : (-990 : Int) ≤ 0)) (by rw [zpow_zero]; linarith))
    (le_trans (b := 2 ^ (200 : Int)) (by
      calc vs.length * (4.06 * (M : ℚ) ^ 2) = 4.06 * (vs.length * (M : ℚ) ^ 2) := by ring
        _ ≤ 5 * (2 ^ 46 * 2 ^ 126) := mul_le_mul (by norm_num) hP' (by linarith) (by norm_num)
        _ ≤ 2 ^ (200 : Int) := by norm_num) (zpow_le_zpow_right₀ (by norm_num) (by norm_num)))
    (fun v => F64.mul binary64 (F64.sub binary64 (F64.ofInt binary64 v) (.fin m')) (F64.sub binary64 (F64.ofInt binary64 v) (.fin m'))) g (new vs).values
    (fun v hvm => (hg v (mem_new.1 hvm)).1) 0 (by rw [hlen', zero_add]; exact hnu) 0 0 (by simp) (by
      rw [abs_zero, zero_add, ← hlen']
      exact sum_abs_le _ _ _ fun v hvm => (hg v (mem_new.1 hvm)).2.2)
  rw [hlen', zero_add, zero_add] at hS
  have hsumg : ((new vs).values.map g).sum = (vs.map g).sum := ((perm_new vs).map g).sum_eq
  rw [hsumg] at hS
  have hdiff := sum_map_diff vs g (fun v : Int => ((v : ℚ) - m) ^ 2) _ (fun v hvm => (hg v hvm).2.1)
  have hS0 : 0 ≤ S := by
    have := diffSum_nonneg' binary64_lawful m' (new vs).values (.fin 0) (by simp [F64.le])
    rw [eS] at this
    exact this
  have hT : |S - (vs.map fun v : Int => ((v : ℚ) - m) ^ 2).sum| ≤ (4.2 * vs.length + 37) * (hulp * (vs.length * (M : ℚ) ^ 2)) := by
    have e : S - (vs.map fun v : Int => ((v : ℚ) - m) ^ 2).sum = (S - (vs.map g).sum) + ((vs.map g).sum - (vs.map fun v : Int => ((v : ℚ) - m) ^ 2).sum) := by ring
    rw [e]
    refine (abs_add_le _ _).trans ((add_le_add hS hdiff).trans ?_)
    have hz : 0 ≤ hulp * (vs.length * (M : ℚ) ^ 2) := by positivity
    have e2 : (vs.length : ℚ) * (hulp * (1.01 * (vs.length * (4.06 * (M : ℚ) ^ 2)))) + vs.length * (4.01 * M * (4 * (hulp * M) + 4 * (hulp * M)) + 4.05 * (hulp * (M : ℚ) ^ 2)) =
      (1.01 * 4.06 * vs.length + (4.01 * 8 + 4.05)) * (hulp * (vs.length * (M : ℚ) ^ 2)) := by ring
    rw [e2]
    apply mul_le_mul_of_nonneg_right _ hz
    linarith
  have hQ : (vs.map fun v : Int => ((v : ℚ) - m) ^ 2).sum ≤ vs.length * (4 * (M : ℚ) ^ 2) := by
    have h4 : ∀ v ∈ vs, |((v : ℚ) - m) ^ 2| ≤ 4 * (M : ℚ) ^ 2 := by
      intro v hvm
      have h1 : |(v : ℚ)| ≤ M := by exact_mod_cast hv v hvm
      have h5 : |(v : ℚ) - m| ≤ 2 * M := (abs_sub _ _).trans (by linarith)
      rw [abs_pow]
      calc |(v : ℚ) - m| ^ 2 ≤ (2 * M) ^ 2 := pow_le_pow_left₀ (abs_nonneg _) h5 2
        _ = 4 * (M : ℚ) ^ 2 := by ring
    refine le_trans ?_ (sum_abs_le vs _ _ h4)
    exact List.sum_le_sum fun v _ => le_abs_self _
  have hn1 : (0 : ℚ) < (vs.length : ℚ) - 1 := by linarith
  have hn1' : (vs.length : ℚ) ≤ 2 * ((vs.length : ℚ) - 1) := by linarith
  have hdec : F64.ofInt binary64 ((vs.length : Int) - 1) = .fin ((vs.length : ℚ) - 1) := by
    have := binary64_int (n := (vs.length : Int) - 1) (by rw [abs_lt]; constructor <;> omega)
    unfold F64.ofInt
    rw [this]
    push_cast
    rfl
  set V := (vs.map fun v : Int => ((v : ℚ) - m) ^ 2).sum with hV
  have hSq : |S / ((vs.length : ℚ) - 1)| ≤ 9 * (M : ℚ) ^ 2 := by
    rw [abs_of_nonneg (div_nonneg hS0 hn1.le), div_le_iff₀ hn1]
    have h1 := (abs_le.1 hT).2
    have h3 : (4.2 * (vs.length : ℚ) + 37) * (hulp * (vs.length * (M : ℚ) ^ 2)) ≤ 1 / 10 * (vs.length * (M : ℚ) ^ 2) := by
      rw [← mul_assoc]
      apply mul_le_mul_of_nonneg_right _ (by linarith)
      nlinarith
    have h4 : (vs.length : ℚ) * (M : ℚ) ^ 2 ≤ 2 * ((vs.length : ℚ) - 1) * (M : ℚ) ^ 2 := mul_le_mul_of_nonneg_right hn1' (by linarith)
    nlinarith
  obtain ⟨r, e1, e2⟩ := rnd_err' hSq (le_trans (by norm_num) (by linarith : (1 : ℚ) ≤ 9 * (M : ℚ) ^ 2)) (by
    calc 9 * (M : ℚ) ^ 2 ≤ 9 * 2 ^ 126 := by linarith
      _ ≤ 2 ^ (200 : Int) := by norm_num)
  have e2' : |r - S / ((vs.length : ℚ) - 1)| ≤ hulp * (9 * (M : ℚ) ^ 2) := e2
  refine ⟨r, ?_, ?_, ?_⟩
  · unfold variance diffSum
    rw [em, eS, hsz, hdec]
    simp only [F64.div]
    rw [if_neg hn1.ne', e1]
  · have := binary64_lawful.mono 0 (S / ((vs.length : ℚ) - 1)) (div_nonneg hS0 hn1.le)
    rw [binary64_lawful.zero, e1] at this
    exact this
  · unfold Spec.variance
    rw [hmu, ← hV]
    have e : r - V / ((vs.length : ℚ) - 1) = (r - S / ((vs.length : ℚ) - 1)) + (S - V) / ((vs.length : ℚ) - 1) := by ring
    rw [e]
    refine (abs_add_le _ _).trans ?_
    have h5 : |(S - V) / ((vs.length : ℚ) - 1)| ≤ (4.2 * vs.length + 37) * (hulp * (2 * (M : ℚ) ^ 2)) := by
      rw [abs_div, abs_of_pos hn1, div_le_iff₀ hn1]
      refine hT.trans ?_
      have h6 : (vs.length : ℚ) * (M : ℚ) ^ 2 ≤ 2 * (M : ℚ) ^ 2 * ((vs.length : ℚ) - 1) := by nlinarith
      calc (4.2 * (vs.length : ℚ) + 37) * (hulp * (vs.length * (M : ℚ) ^ 2)) ≤ (4.2 * vs.length + 37) * (hulp * (2 * (M : ℚ) ^ 2 * ((vs.length : ℚ) - 1))) := by gcongr
        _ = _ := by ring
    refine (add_le_add e2' h5).trans ?_
    have hz : 0 ≤ hulp * (M : ℚ) ^ 2 := by positivity
    have e7 : hulp * (9 * (M : ℚ) ^ 2) + (4.2 * (vs.length : ℚ) + 37) * (hulp * (2 * (M : ℚ) ^ 2)) = (8.4 * vs.length + 83) * (hulp * (M : ℚ) ^ 2) := by ring
    have e8 : ((vs.length : ℚ) + 8) * (16 * hulp) * (M : ℚ) ^ 2 = (16 * vs.length + 128) * (hulp * (M : ℚ) ^ 2) := by ring
    rw [e7, e8]
    apply mul_le_mul_of_nonneg_right _ hz
    linarith

end UniformSnapshot

/-- **C93.** The variance of a uniform snapshot in binary64, for `n` values, 2 ≤ n ≤ 2⁴⁶, of magnitude at most `M` whose sum fits an `int64`: off by at most
`(n + 8) 2⁻⁴⁹ M²`. -/
theorem C93_uniform_variance (vs : List Int) (h2 : 2 ≤ vs.length) (hlen : vs.length ≤ 2 ^ 46) (hsum : InI64 vs.sum) (M : Int) (hM : 1 ≤ M) (hM' : M ≤ 2 ^ 63)
    (hv : ∀ v ∈ vs, |v| ≤ M) :
    ∃ r, (UniformSnapshot.new vs).variance binary64 = .fin r ∧ |r - Spec.variance vs| ≤ ((vs.length : ℚ) + 8) * 2 ^ (-49 : Int) * (M : ℚ) ^ 2 := by
  obtain ⟨r, h1, _, h3⟩ := UniformSnapshot.variance_err vs h2 hlen hsum M hM hM' hv
  exact ⟨r, h1, h3⟩

theorem sqrt_diff {a b : ℝ} (hb : 0 ≤ b) : |Real.sqrt a - Real.sqrt b| ≤ Real.sqrt |a - b| := by
  rw [abs_le]
  constructor
  · have h : Real.sqrt b ≤ Real.sqrt a + Real.sqrt |a - b| := by
      rw [Real.sqrt_le_left (by positivity)]
      have h1 := Real.sqrt_nonneg a
      have h2 := Real.sq_sqrt (abs_nonneg (a - b))
      have h3 := Real.sqrt_nonneg |a - b|
      have h4 : a ≤ Real.sqrt a ^ 2 := by
        rcases le_total 0 a with h | h
        · rw [Real.sq_sqrt h]
        · exact h.trans (sq_nonneg _)
      have h5 := neg_abs_le (a - b)
      nlinarith
    linarith
  · have h : Real.sqrt a ≤ Real.sqrt b + Real.sqrt |a - b| := by
      rw [Real.sqrt_le_left (by positivity)]
      have h1 := Real.sqrt_nonneg b
      have h2 := Real.sq_sqrt (abs_nonneg (a - b))
      have h3 := Real.sqrt_nonneg |a - b|
      have h4 := Real.sq_sqrt hb
      have h5 := le_abs_self (a - b)
      nlinarith
    linarith

/-- Results of divisions are numbers that binary64 represents. -/
theorem F64.rep_div {x y : F64} {r : ℚ} (h : F64.div binary64 x y = .fin r) : binary64.rnd r = .fin r := by
  cases x <;> cases y <;> simp only [F64.div, reduceCtorEq] at h
  · injection h with h; subst h; exact binary64_lawful.zero
  · split at h
    · split at h <;> simp at h
    · exact binary64_lawful.idem _ _ h

/-- Results of additions are numbers that binary64 represents. -/
theorem F64.rep_add {x y : F64} {r : ℚ} (h : F64.add binary64 x y = .fin r) : binary64.rnd r = .fin r := by
  cases x <;> cases y <;> simp only [F64.add, reduceCtorEq] at h
  · split at h <;> simp at h
  · exact binary64_lawful.idem _ _ h

/-- From variances to deviations. -/
theorem stddev_err {sqrt : F64 → F64} (hsqrt : Spec.GoodSqrt sqrt) {r V N M : ℚ} (hrep : binary64.rnd r = .fin r) (hr : 0 ≤ r) (hV : 0 ≤ V) (hM : 0 ≤ M) (hN : 8 ≤ N) (hVM : V ≤ 9 * M ^ 2)
    (h : |r - V| ≤ N * 2 ^ (-49 : Int) * M ^ 2) (hN' : N ≤ 2 ^ 47) :
    ∃ s : ℚ, sqrt (.fin r) = .fin s ∧ |(s : ℝ) - Real.sqrt V| ≤ Real.sqrt N * 2 ^ (-24 : Int) * M := by
  obtain ⟨s, e1, e2⟩ := hsqrt r hrep hr
  refine ⟨s, e1, ?_⟩
  have hVr : (0 : ℝ) ≤ V := by exact_mod_cast hV
  have hMr : (0 : ℝ) ≤ M := by exact_mod_cast hM
  have hNr : (8 : ℝ) ≤ N := by exact_mod_cast hN
  have hNr' : (N : ℝ) ≤ 2 ^ 47 := by exact_mod_cast hN'
  have hVMr : (V : ℝ) ≤ 9 * M ^ 2 := by exact_mod_cast hVM
  have hrV : |(r : ℝ) - V| ≤ N * 2 ^ (-49 : Int) * M ^ 2 := by
    have : ((|r - V| : ℚ) : ℝ) ≤ ((N * 2 ^ (-49 : Int) * M ^ 2 : ℚ) : ℝ) := by exact_mod_cast h
    push_cast at this
    exact this
  have hd := sqrt_diff (a := (r : ℝ)) hVr
  have hsq : Real.sqrt |(r : ℝ) - V| ≤ 0.72 * (Real.sqrt N * 2 ^ (-24 : Int) * M) := by
    rw [Real.sqrt_le_left (by positivity)]
    refine hrV.trans ?_
    have e : (0.72 * (Real.sqrt N * 2 ^ (-24 : Int) * M)) ^ 2 = Real.sqrt N ^ 2 * (0.72 ^ 2 * (2 ^ (-24 : Int)) ^ 2) * (M : ℝ) ^ 2 := by ring
    rw [e, Real.sq_sqrt (by linarith)]
    gcongr
    norm_num
  have hsV : Real.sqrt V ≤ 3 * M := by
    rw [Real.sqrt_le_left (by positivity)]
    nlinarith
  have hsN : 1 ≤ Real.sqrt N := by rw [Real.one_le_sqrt]; linarith
  have hsN' : Real.sqrt N ≤ 2 ^ (24 : Int) := by
    rw [Real.sqrt_le_left (by positivity)]
    exact hNr'.trans (by norm_num)
  set A := Real.sqrt N * 2 ^ (-24 : Int) * M with hA
  have hAM : A ≤ M := by
    rw [hA]
    calc Real.sqrt N * 2 ^ (-24 : Int) * M ≤ 2 ^ (24 : Int) * 2 ^ (-24 : Int) * M := by gcongr
      _ = M := by norm_num
  have hMA : 2 ^ (-24 : Int) * (M : ℝ) ≤ A := by
    rw [hA]
    apply mul_le_mul_of_nonneg_right _ hMr
    have : (0 : ℝ) < 2 ^ (-24 : Int) := by positivity
    nlinarith
  have hsr : Real.sqrt r ≤ 4 * M := by
    have := (abs_le.1 hd).2
    linarith
  have h52 : (2 : ℝ) ^ (-52 : Int) * Real.sqrt r ≤ 0.1 * A := by
    calc (2 : ℝ) ^ (-52 : Int) * Real.sqrt r ≤ 2 ^ (-52 : Int) * (4 * M) := by gcongr
      _ ≤ 0.1 * (2 ^ (-24 : Int) * M) := by
          have : (2 : ℝ) ^ (-52 : Int) * 4 ≤ 0.1 * 2 ^ (-24 : Int) := by norm_num
          nlinarith
      _ ≤ 0.1 * A := mul_le_mul_of_nonneg_left hMA (by norm_num)
  have e : (s : ℝ) - Real.sqrt V = (s - Real.sqrt r) + (Real.sqrt r - Real.sqrt V) := by ring
  rw [e]
  refine (abs_add_le _ _).trans ?_
  have hA0 : 0 ≤ A := by positivity
  have f := add_le_add (e2.trans h52) (hd.trans hsq)
  refine f.trans ?_
  clear_value A
  clear hA hAM hMA
  linarith

theorem Spec.variance_bounds {vs : List Int} (h2 : 2 ≤ vs.length) {M : Int} (hv : ∀ v ∈ vs, |v| ≤ M) : 0 ≤ Spec.variance vs ∧ Spec.variance vs ≤ 8 * (M : ℚ) ^ 2 := by
  have hn2 : (2 : ℚ) ≤ vs.length := by exact_mod_cast h2
  have hM0 : 0 ≤ M := by
    obtain ⟨v, hvm⟩ := List.exists_mem_of_length_pos (show 0 < vs.length by omega)
    exact (abs_nonneg v).trans (hv v hvm)
  have hMq : (0 : ℚ) ≤ M := by exact_mod_cast hM0
  have hmean : |Spec.mean vs| ≤ M := by
    obtain ⟨b1, b2⟩ := UniformSnapshot.sum_bounds (vs := vs) (lo := -M) (hi := M) (fun v hvm => abs_le.1 (hv v hvm))
    have c1 : -(M : ℚ) * vs.length ≤ vs.sum := by exact_mod_cast b1
    have c2 : (vs.sum : ℚ) ≤ M * vs.length := by exact_mod_cast b2
    unfold Spec.mean
    rw [abs_le, le_div_iff₀ (by linarith), div_le_iff₀ (by linarith)]
    exact ⟨c1, c2⟩
  have h4 : ∀ v ∈ vs, |((v : ℚ) - Spec.mean vs) ^ 2| ≤ 4 * (M : ℚ) ^ 2 := by
    intro v hvm
    have h1 : |(v : ℚ)| ≤ M := by exact_mod_cast hv v hvm
    have h5 : |(v : ℚ) - Spec.mean vs| ≤ 2 * M := (abs_sub _ _).trans (by linarith)
    rw [abs_pow]
    calc |(v : ℚ) - Spec.mean vs| ^ 2 ≤ (2 * M) ^ 2 := pow_le_pow_left₀ (abs_nonneg _) h5 2
      _ = 4 * (M : ℚ) ^ 2 := by ring
  have hs := UniformSnapshot.sum_abs_le vs _ _ h4
  have hs' : (vs.map fun v : Int => ((v : ℚ) - Spec.mean vs) ^ 2).sum ≤ (vs.map fun v : Int => |((v : ℚ) - Spec.mean vs) ^ 2|).sum :=
    List.sum_le_sum fun v _ => le_abs_self _
  unfold Spec.variance
  refine ⟨div_nonneg (List.sum_nonneg ?_) (by linarith), ?_⟩
  · simp only [List.mem_map]
    rintro x ⟨v, _, rfl⟩
    exact sq_nonneg _
  · rw [div_le_iff₀ (by linarith)]
    have : 0 ≤ (M : ℚ) ^ 2 := sq_nonneg _
    nlinarith

/-- **C93.** `GetStdDev` of a uniform snapshot in binary64, with any `math.Sqrt` accurate to 1 ulp: off by at most `√(n + 8) 2⁻²⁴ M`. -/
theorem C93_uniform_stddev (sqrt : F64 → F64) (hsqrt : Spec.GoodSqrt sqrt) (vs : List Int) (h2 : 2 ≤ vs.length) (hlen : vs.length ≤ 2 ^ 46) (hsum : InI64 vs.sum)
    (M : Int) (hM : 1 ≤ M) (hM' : M ≤ 2 ^ 63) (hv : ∀ v ∈ vs, |v| ≤ M) :
    ∃ s : ℚ, (UniformSnapshot.new vs).getStdDev binary64 sqrt = .fin s ∧
      |(s : ℝ) - Real.sqrt (Spec.variance vs)| ≤ Real.sqrt (vs.length + 8) * 2 ^ (-24 : Int) * M := by
  obtain ⟨r, h1, h0, h3⟩ := UniformSnapshot.variance_err vs h2 hlen hsum M hM hM' hv
  obtain ⟨b1, b2⟩ := Spec.variance_bounds h2 hv
  have hMq : (1 : ℚ) ≤ M := by exact_mod_cast hM
  have hn46 : (vs.length : ℚ) ≤ 2 ^ 46 := by exact_mod_cast hlen
  obtain ⟨s, e1, e2⟩ := stddev_err hsqrt (F64.rep_div h1) h0 b1 (by linarith : (0 : ℚ) ≤ M) (N := vs.length + 8) (by linarith [Nat.cast_nonneg (α := ℚ) vs.length]) (by nlinarith) h3
    (by linarith [show (2 : ℚ) ^ 46 + 8 ≤ 2 ^ 47 by norm_num])
  refine ⟨s, ?_, ?_⟩
  · unfold UniformSnapshot.getStdDev
    have hsz : (UniformSnapshot.new vs).size = (vs.length : Int) := by unfold UniformSnapshot.size; rw [UniformSnapshot.length_new]
    rw [if_neg (by omega), h1, e1]
  · push_cast at e2
    exact e2

/-- The hypotheses are met by large values, for which nothing is exact any more; the mean and the variance are what one expects. -/
example : ([4611686018427387905, 3, -4611686018427387904] : List Int).sum = 4 ∧ InI64 ([4611686018427387905, 3, -4611686018427387904] : List Int).sum ∧
    (∀ v ∈ ([4611686018427387905, 3, -4611686018427387904] : List Int), |v| ≤ 4611686018427387905) ∧ Spec.mean [1, 2, 6] = 3 ∧ Spec.variance [1, 2, 6] = 7 := by
  refine ⟨by decide, by decide, by decide, ?_, ?_⟩
  · norm_num [Spec.mean]
  · norm_num [Spec.mean, Spec.variance]

/-- A square root accurate to 1 ulp exists. -/
example : ∃ sqrt, Spec.GoodSqrt sqrt := by
  have h : ∀ x : ℚ, ∃ y : ℚ, 0 ≤ x → |(y : ℝ) - Real.sqrt x| ≤ 2 ^ (-52 : Int) * Real.sqrt x := by
    intro x
    rcases lt_or_ge 0 x with hx | hx
    · have hxr : (0 : ℝ) < x := by exact_mod_cast hx
      have h0 : (0 : ℝ) < 2 ^ (-52 : Int) * Real.sqrt x := by positivity
      obtain ⟨y, h1, h2⟩ := exists_rat_btwn (show Real.sqrt x < Real.sqrt x + 2 ^ (-52 : Int) * Real.sqrt x by linarith)
      exact ⟨y, fun _ => by rw [abs_le]; constructor <;> linarith⟩
    · refine ⟨0, fun h0 => ?_⟩
      have : x = 0 := le_antisymm hx h0
      rw [this]; simp
  choose f hf using h
  exact ⟨fun x => match x with | .fin q => .fin (f q) | _ => .nan, fun x _ h0 => ⟨f x, rfl, hf x h0⟩⟩

end GoMetrics
