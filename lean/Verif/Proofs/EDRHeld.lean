import Verif.Props.EDRAccuracy
import Verif.Props.PercentileAccuracy
/-! # The weights a snapshot is computed from, and the exact ones -/
namespace GoMetrics
open Rounding
namespace EDR

/-- What is known of the samples of a snapshot: each belongs to an update. -/
structure Held (a : ℚ) (L : Int) (K : ℕ) (l : List (WeightedSample × Rec)) : Prop where
  near : ∀ p ∈ l, Near a L K p.1 p.2
  top : ∀ p ∈ l, a * (p.2.ts - L) ≤ 600
  few : l.length ≤ 2 ^ 40
  young : K ≤ 2 ^ 30
  recent : ∃ p ∈ l, a * (L - p.2.ts) ≤ 600

/-- The exact weight, relative to the landmark. -/
noncomputable def exactWt (a : ℚ) (L : Int) (p : WeightedSample × Rec) : ℝ := Real.exp (a * (p.2.ts - L))
/-- The computed one. -/
def compWt (p : WeightedSample × Rec) : ℝ := (WeightedSnapshot.wt p.1 : ℝ)

variable {a : ℚ} {L : Int} {K : ℕ} {l : List (WeightedSample × Rec)}

theorem exactWt_pos (a : ℚ) (L : Int) (p : WeightedSample × Rec) : 0 < exactWt a L p := Real.exp_pos _

theorem Held.perm (H : Held a L K l) {l' : List (WeightedSample × Rec)} (hp : l'.Perm l) : Held a L K l' := by
  refine ⟨fun p h => H.near p (hp.subset h), fun p h => H.top p (hp.subset h), by rw [hp.length_eq]; exact H.few, H.young, ?_⟩
  obtain ⟨p, h1, h2⟩ := H.recent
  exact ⟨p, hp.symm.subset h1, h2⟩

theorem Held.wt (H : Held a L K l) {p : WeightedSample × Rec} (hp : p ∈ l) : p.1.weight = .fin (WeightedSnapshot.wt p.1) ∧ 0 ≤ WeightedSnapshot.wt p.1 ∧
    |compWt p - exactWt a L p| ≤ (K + 1) * 2 ^ (-40 : Int) * exactWt a L p + K * 2 ^ (-1074 : Int) := by
  obtain ⟨-, w, e1, e2, e3⟩ := H.near p hp
  have : WeightedSnapshot.wt p.1 = w := by unfold WeightedSnapshot.wt; rw [e1]
  unfold compWt
  rw [this]
  exact ⟨e1, e2, e3⟩

/-- The sum of the deviations of the weights. -/
noncomputable def devs (a : ℚ) (L : Int) (l : List (WeightedSample × Rec)) : ℝ := (l.map fun p => |compWt p - exactWt a L p|).sum

theorem Held.total_lo (H : Held a L K l) : (2 : ℝ) ^ (-870 : Int) ≤ (l.map (exactWt a L)).sum := by
  obtain ⟨p0, hp0, hrec⟩ := H.recent
  refine le_trans (exp_neg_600.trans ?_) (List.single_le_sum (l := l.map (exactWt a L)) (by
    intro x hx
    obtain ⟨p, -, rfl⟩ := List.mem_map.1 hx
    exact (exactWt_pos a L p).le) (exactWt a L p0) (List.mem_map_of_mem hp0))
  apply Real.exp_le_exp.2
  have : (a : ℝ) * (L - p0.2.ts) ≤ 600 := by exact_mod_cast hrec
  linarith

theorem Held.total_pos (H : Held a L K l) : 0 < (l.map (exactWt a L)).sum := lt_of_lt_of_le (by positivity) H.total_lo

theorem Held.total_hi (H : Held a L K l) : (l.map (exactWt a L)).sum ≤ 2 ^ (40 : Int) * 2 ^ (870 : Int) := by
  have hnr : (l.length : ℝ) ≤ 2 ^ 40 := by exact_mod_cast H.few
  refine (List.sum_le_sum (f := exactWt a L) (g := fun _ => (2 : ℝ) ^ (870 : Int)) fun p hp => ?_).trans ?_
  · refine le_trans (Real.exp_le_exp.2 ?_) exp_600
    exact_mod_cast H.top p hp
  · simp only [List.map_const', List.sum_replicate, nsmul_eq_mul]
    exact mul_le_mul_of_nonneg_right (by exact_mod_cast hnr) (by positivity)

theorem Held.kε (H : Held a L K l) : ((K : ℝ) + 2) * 2 ^ (-40 : Int) ≤ 1 / 3 := by
  have hKr : (K : ℝ) ≤ 2 ^ 30 := by exact_mod_cast H.young
  have : ((K : ℝ) + 2) * 2 ^ (-40 : Int) ≤ (2 ^ 30 + 2) * 2 ^ (-40 : Int) := mul_le_mul_of_nonneg_right (by linarith) (by positivity)
  exact this.trans (by norm_num)

theorem Held.devs_le (H : Held a L K l) : devs a L l ≤ (K + 2) * 2 ^ (-40 : Int) * (l.map (exactWt a L)).sum := by
  have hKr : (K : ℝ) ≤ 2 ^ 30 := by exact_mod_cast H.young
  have hnr : (l.length : ℝ) ≤ 2 ^ 40 := by exact_mod_cast H.few
  have hD : devs a L l ≤ (K + 1) * 2 ^ (-40 : Int) * (l.map (exactWt a L)).sum + l.length * (K * 2 ^ (-1074 : Int)) := by
    refine (List.sum_le_sum fun p hp => (H.wt hp).2.2).trans (le_of_eq ?_)
    exact sum_lin_map l (exactWt a L) _ _
  have hκ : (l.length : ℝ) * (K * 2 ^ (-1074 : Int)) ≤ 2 ^ (-40 : Int) * (l.map (exactWt a L)).sum := by
    have e1 : (l.length : ℝ) * (K * 2 ^ (-1074 : Int)) ≤ 2 ^ (40 : Int) * (2 ^ (30 : Int) * 2 ^ (-1074 : Int)) := by
      apply mul_le_mul
      · exact_mod_cast hnr
      · exact mul_le_mul_of_nonneg_right (by exact_mod_cast hKr) (by positivity)
      · positivity
      · positivity
    have e2 : (2 : ℝ) ^ (40 : Int) * (2 ^ (30 : Int) * 2 ^ (-1074 : Int)) = 2 ^ (-1004 : Int) := by
      rw [← zpow_add₀ (by norm_num), ← zpow_add₀ (by norm_num)]; congr 1
    have e3 : (2 : ℝ) ^ (-1004 : Int) ≤ 2 ^ (-40 : Int) * 2 ^ (-870 : Int) := by
      rw [← zpow_add₀ (by norm_num)]; exact zpow_le_zpow_right₀ (by norm_num) (by norm_num)
    exact e1.trans (e2.le.trans (e3.trans (mul_le_mul_of_nonneg_left H.total_lo (by positivity))))
  refine hD.trans ((add_le_add_right hκ _).trans (le_of_eq ?_))
  ring

theorem Held.devs_third (H : Held a L K l) : devs a L l ≤ 1 / 3 * (l.map (exactWt a L)).sum :=
  H.devs_le.trans (mul_le_mul_of_nonneg_right H.kε H.total_pos.le)

theorem devs_nonneg (a : ℚ) (L : Int) (l : List (WeightedSample × Rec)) : 0 ≤ devs a L l := by
  apply List.sum_nonneg
  intro x hx
  obtain ⟨p, -, rfl⟩ := List.mem_map.1 hx
  exact abs_nonneg _

theorem devs_append (a : ℚ) (L : Int) (l l' : List (WeightedSample × Rec)) : devs a L (l ++ l') = devs a L l + devs a L l' := by
  unfold devs; rw [List.map_append, List.sum_append]

theorem sums_close (a : ℚ) (L : Int) (l : List (WeightedSample × Rec)) : |(l.map compWt).sum - (l.map (exactWt a L)).sum| ≤ devs a L l := by
  have := abs_sum_le l fun p => compWt p - exactWt a L p
  rwa [show (l.map fun p => compWt p - exactWt a L p).sum = (l.map compWt).sum - (l.map (exactWt a L)).sum from sum_sub_map l compWt (exactWt a L)] at this

/-- The same for a part of the samples. -/
theorem prefix_close (a : ℚ) (L : Int) (l : List (WeightedSample × Rec)) (k : ℕ) :
    |((l.take k).map compWt).sum - ((l.take k).map (exactWt a L)).sum| ≤ devs a L l := by
  refine (sums_close a L (l.take k)).trans ?_
  conv_rhs => rw [← List.take_append_drop k l, devs_append]
  linarith [devs_nonneg a L (l.drop k)]

theorem Held.comp_lo (H : Held a L K l) : (2 : ℝ) ^ (-990 : Int) ≤ (l.map compWt).sum := by
  have e1 : (2 : ℝ) ^ (-990 : Int) ≤ 2 ^ (-1 : Int) * 2 ^ (-870 : Int) := by
    rw [← zpow_add₀ (by norm_num)]; exact zpow_le_zpow_right₀ (by norm_num) (by norm_num)
  refine e1.trans ((mul_le_mul_of_nonneg_left H.total_lo (by positivity)).trans ?_)
  have h1 := (abs_le.1 (sums_close a L l)).1
  have h2 := H.devs_third
  have h3 := H.total_pos
  clear e1
  norm_num
  linarith

theorem Held.comp_hi (H : Held a L K l) : (l.map compWt).sum ≤ 2 ^ (990 : Int) := by
  have e2 : (2 : ℝ) ^ (1 : Int) * (2 ^ (40 : Int) * 2 ^ (870 : Int)) ≤ 2 ^ (990 : Int) := by
    rw [← zpow_add₀ (by norm_num), ← zpow_add₀ (by norm_num)]; exact zpow_le_zpow_right₀ (by norm_num) (by norm_num)
  refine le_trans ?_ ((mul_le_mul_of_nonneg_left H.total_hi (by positivity)).trans e2)
  have h1 := (abs_le.1 (sums_close a L l)).2
  have h2 := H.devs_third
  have h3 := H.total_pos
  clear e2
  norm_num
  linarith

theorem Held.comp_pos (H : Held a L K l) : 0 < (l.map compWt).sum := lt_of_lt_of_le (by positivity) H.comp_lo

theorem wtsum_cast (l : List (WeightedSample × Rec)) : (((l.map Prod.fst).map WeightedSnapshot.wt).sum : ℝ) = (l.map compWt).sum := by
  rw [List.map_map, Rat.cast_list_sum, List.map_map]; rfl

theorem total_cast (l : List (WeightedSample × Rec)) : ((Spec.totalWeight (WeightedSnapshot.pairs (l.map Prod.fst)) : ℚ) : ℝ) = (l.map compWt).sum := by
  rw [WeightedSnapshot.total_pairs, wtsum_cast]

/-- The hypotheses of C93 and C94. -/
theorem Held.usable (H : Held a L K l) : (∀ s ∈ l.map Prod.fst, ∃ w : ℚ, s.weight = .fin w ∧ 0 ≤ w) ∧
    2 ^ (-990 : Int) ≤ Spec.totalWeight (WeightedSnapshot.pairs (l.map Prod.fst)) ∧ Spec.totalWeight (WeightedSnapshot.pairs (l.map Prod.fst)) ≤ 2 ^ (990 : Int) := by
  refine ⟨?_, ?_, ?_⟩
  · intro s hs
    obtain ⟨p, hp, rfl⟩ := List.mem_map.1 hs
    exact ⟨_, (H.wt hp).1, (H.wt hp).2.1⟩
  · refine (Rat.cast_le (K := ℝ)).1 ?_
    rw [total_cast, Rat.cast_zpow, Rat.cast_ofNat]
    exact H.comp_lo
  · refine (Rat.cast_le (K := ℝ)).1 ?_
    rw [total_cast, Rat.cast_zpow, Rat.cast_ofNat]
    exact H.comp_hi

/-- Weights relative to the landmark and absolute ones. -/
theorem exactWt_split (a : ℚ) (L : Int) (p : WeightedSample × Rec) : exactWt a L p = Real.exp (a * p.2.ts) * Real.exp (-(a * L)) := by
  unfold exactWt
  rw [← Real.exp_add, mul_sub, sub_eq_add_neg]

theorem decayedTotal_eq (a : ℚ) (L : Int) (l : List (WeightedSample × Rec)) :
    decayedTotal a (l.map Prod.snd) * Real.exp (-(a * L)) = (l.map (exactWt a L)).sum := by
  unfold decayedTotal
  rw [List.map_map, ← List.sum_map_mul_right]
  refine congrArg List.sum (List.map_congr_left fun p _ => ?_)
  simp only [Function.comp, exactWt_split]

/-- An average does not depend on the landmark. -/
theorem average_eq (a : ℚ) (L : Int) (l : List (WeightedSample × Rec)) (f : Rec → ℝ) :
    ((l.map Prod.snd).map fun e => f e * Real.exp (a * e.ts)).sum / decayedTotal a (l.map Prod.snd) = (l.map fun p => f p.2 * exactWt a L p).sum / (l.map (exactWt a L)).sum := by
  have hE0 : Real.exp (-(a * L)) ≠ 0 := (Real.exp_pos _).ne'
  rw [← mul_div_mul_right _ _ hE0, decayedTotal_eq, List.map_map, ← List.sum_map_mul_right]
  congr 1
  refine congrArg List.sum (List.map_congr_left fun p _ => ?_)
  simp only [Function.comp, exactWt_split]; ring

/-- A variance is the mean of the squares minus the square of the mean. -/
theorem var_identity {α : Type} (l : List α) (v w : α → ℝ) (hw : (l.map w).sum ≠ 0) :
    (l.map fun x => (v x - (l.map fun x => v x * w x).sum / (l.map w).sum) ^ 2 * w x).sum / (l.map w).sum =
      (l.map fun x => v x ^ 2 * w x).sum / (l.map w).sum - ((l.map fun x => v x * w x).sum / (l.map w).sum) ^ 2 := by
  set S := (l.map w).sum with hS
  set m := (l.map fun x => v x * w x).sum / S with hm
  have hm' : (l.map fun x => v x * w x).sum = m * S := by rw [hm]; exact (div_mul_cancel₀ _ hw).symm
  have e : (l.map fun x => (v x - m) ^ 2 * w x).sum = (l.map fun x => v x ^ 2 * w x).sum - 2 * m * (l.map fun x => v x * w x).sum + m ^ 2 * (l.map w).sum := by
    clear_value m
    clear hm hm' hw hS
    clear S
    induction l with
    | nil => simp
    | cons x t ih => simp only [List.map_cons, List.sum_cons, ih]; ring
  rw [hm', ← hS] at e
  rw [e]
  clear_value m S
  field_simp
  ring

/-- The variance for weights that are slightly off. -/
theorem var_shift {α : Type} (l : List α) (v w W : α → ℝ) {M δ : ℝ} (hv : ∀ x ∈ l, |v x| ≤ M) (hw : ∀ x ∈ l, 0 ≤ w x) (hW : ∀ x ∈ l, 0 ≤ W x)
    (hWs : 0 < (l.map W).sum) (hws : 0 < (l.map w).sum) (hδ : 2 * (l.map fun x => |w x - W x|).sum / (l.map w).sum ≤ δ) :
    |(l.map fun x => (v x - (l.map fun x => v x * w x).sum / (l.map w).sum) ^ 2 * w x).sum / (l.map w).sum -
      (l.map fun x => (v x - (l.map fun x => v x * W x).sum / (l.map W).sum) ^ 2 * W x).sum / (l.map W).sum| ≤ 3 * δ * M ^ 2 := by
  have hM0 : 0 ≤ M := by
    cases l with
    | nil => simp at hWs
    | cons x t => exact (abs_nonneg _).trans (hv x (by simp))
  have bound : ∀ u : α → ℝ, (∀ x ∈ l, 0 ≤ u x) → 0 < (l.map u).sum → |(l.map fun x => v x * u x).sum / (l.map u).sum| ≤ M := by
    intro u hu hus
    rw [abs_div, abs_of_pos hus, div_le_iff₀ hus, ← List.sum_map_mul_left]
    refine (abs_sum_le l fun x => v x * u x).trans (List.sum_le_sum fun x hx => ?_)
    rw [abs_mul, abs_of_nonneg (hu x hx)]
    exact mul_le_mul_of_nonneg_right (hv x hx) (hu x hx)
  have h1 := mean_shift l v w W (M := M) hv hW hWs rfl hws le_rfl
  have h2 := mean_shift l (fun x => v x ^ 2) w W (M := M ^ 2) (by
    intro x hx
    rw [abs_of_nonneg (sq_nonneg _), ← sq_abs]
    exact pow_le_pow_left₀ (abs_nonneg _) (hv x hx) 2) hW hWs rfl hws le_rfl
  rw [var_identity l v w hws.ne', var_identity l v W hWs.ne']
  have b1 := bound w hw hws
  have b2 := bound W hW hWs
  have e1 : 2 * M * (l.map fun x => |w x - W x|).sum / (l.map w).sum ≤ M * δ := by
    have := mul_le_mul_of_nonneg_left hδ hM0
    rw [show 2 * M * (l.map fun x => |w x - W x|).sum / (l.map w).sum = M * (2 * (l.map fun x => |w x - W x|).sum / (l.map w).sum) by ring]
    exact this
  have e2 : 2 * M ^ 2 * (l.map fun x => |w x - W x|).sum / (l.map w).sum ≤ M ^ 2 * δ := by
    have := mul_le_mul_of_nonneg_left hδ (sq_nonneg M)
    rw [show 2 * M ^ 2 * (l.map fun x => |w x - W x|).sum / (l.map w).sum = M ^ 2 * (2 * (l.map fun x => |w x - W x|).sum / (l.map w).sum) by ring]
    exact this
  replace h1 := h1.trans e1
  replace h2 := h2.trans e2
  generalize (l.map fun x => v x * w x).sum / (l.map w).sum = m at *
  generalize (l.map fun x => v x * W x).sum / (l.map W).sum = m' at *
  have e3 : |m ^ 2 - m' ^ 2| ≤ M * δ * (2 * M) := by
    rw [show m ^ 2 - m' ^ 2 = (m - m') * (m + m') by ring, abs_mul]
    refine mul_le_mul h1 ((abs_add_le _ _).trans (by linarith)) (abs_nonneg _) ((abs_nonneg _).trans h1)
  generalize (l.map fun x => v x ^ 2 * w x).sum / (l.map w).sum = s at *
  generalize (l.map fun x => v x ^ 2 * W x).sum / (l.map W).sum = s' at *
  rw [show s - m ^ 2 - (s' - m' ^ 2) = (s - s') - (m ^ 2 - m' ^ 2) by ring]
  refine (abs_sub _ _).trans ((add_le_add h2 e3).trans (le_of_eq ?_))
  ring

/-- The relative deviation. -/
theorem Held.rel (H : Held a L K l) : 2 * devs a L l / (l.map compWt).sum ≤ 3 * (K + 1) * 2 ^ (-39 : Int) := by
  have h1 := H.devs_le
  have h2 : (l.map (exactWt a L)).sum * (2 / 3) ≤ (l.map compWt).sum := by
    have := (abs_le.1 (sums_close a L l)).1
    have := H.devs_third
    linarith
  rw [div_le_iff₀ H.comp_pos]
  have hW := H.total_pos
  generalize (l.map (exactWt a L)).sum = W at *
  generalize (l.map compWt).sum = S at *
  have hK : (0 : ℝ) ≤ K := Nat.cast_nonneg K
  rw [show (2 : ℝ) ^ (-39 : Int) = 2 * 2 ^ (-40 : Int) by norm_num]
  have hε : (0 : ℝ) < 2 ^ (-40 : Int) := by positivity
  generalize (2 : ℝ) ^ (-40 : Int) = ε at *
  have h3 : 3 * (K + 1) * (2 * ε) * (W * (2 / 3)) ≤ 3 * (K + 1) * (2 * ε) * S := mul_le_mul_of_nonneg_left h2 (by positivity)
  have h5 : 0 ≤ ε * W := by positivity
  nlinarith

end EDR
end GoMetrics
