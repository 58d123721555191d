import Verif.Spec.CompassDecay
import Verif.Props.CompassEstimate
import Verif.Props.EDRAccuracyMore
import Verif.Props.EDRTop
/-! # C120: the decaying statistics of a compass, in float64 -/
namespace GoMetrics
open Rounding Spec
open Compass hiding new

/-- The default decay rate as the program stores it: the `float64` next to 0.015. -/
theorem defaultAlpha_fin : ∃ a : ℚ, binary64.rnd (15 / 1000) = .fin a ∧ |a - 15 / 1000| ≤ 2 ^ (-59 : Int) := by
  obtain ⟨a, h1, -, h2⟩ := rnd_near (q := 15 / 1000) (by norm_num) (le_trans (by norm_num : (15 / 1000 : ℚ) ≤ 2 ^ (0 : Int)) (zpow_le_zpow_right₀ (by norm_num) (by norm_num)))
  refine ⟨a, h1, h2.trans ?_⟩
  have : (2 : ℚ) ^ (-1075 : Int) ≤ 2 ^ (-100 : Int) := zpow_le_zpow_right₀ (by norm_num) (by norm_num)
  refine (add_le_add le_rfl this).trans ?_
  norm_num

theorem sampling_append (h h' : List TCall) : sampling (h ++ h') = sampling h ++ sampling h' := by
  induction h with
  | nil => rfl
  | cons o h ih =>
    cases o with
    | snapshot env => simp only [List.cons_append, sampling, ih]
    | call env op =>
      have e : ∀ l, sampling (.call env op :: l) = match op.duration? with | some d => .updateN env.x.edr d :: sampling l | none => sampling l := fun _ => rfl
      rw [List.cons_append, e, e]
      cases op.duration? with
      | none => exact ih
      | some d => simp only [ih, List.cons_append]

/-- The landmark of a decaying reservoir is the second of a reading of the clock. -/
theorem startTime_mem (A : EDR.Arith) (h : List EDR.Op) (r : EDR) : (EDR.run A r h).startTime = r.startTime ∨ ∃ t ∈ EDR.readings h, (EDR.run A r h).startTime = t.tdiv 1000 := by
  induction h generalizing r with
  | nil => exact .inl rfl
  | cons o h ih =>
    have hresc : ∀ tick t, (EDR.rescaleIfNeeded A r tick t).startTime = r.startTime ∨ (EDR.rescaleIfNeeded A r tick t).startTime = t.tdiv 1000 := by
      intro tick t
      unfold EDR.rescaleIfNeeded
      by_cases hc : r.nextScaleTime ≤ tick
      · rw [if_pos hc]
        right
        unfold EDR.rescaleLocked
        simp only
        split <;> rfl
      · rw [if_neg hc]; exact .inl rfl
    have hrec : ∀ (r : EDR) p v w, (EDR.record r p v w).state.startTime = r.startTime := by
      intro r p v w
      unfold EDR.record
      simp only
      split
      · rfl
      · split
        · rfl
        · split
          · rfl
          · split <;> rfl
    have hrun : EDR.run A r (o :: h) = EDR.run A (EDR.step A r o).state h := rfl
    rw [hrun]
    cases o with
    | getSnapshot tick t =>
      rcases ih (EDR.step A r (.getSnapshot tick t)).state with h1 | ⟨t', h1, h2⟩
      · rcases hresc tick t with h2 | h2
        · exact .inl (h1.trans h2)
        · exact .inr ⟨t, by simp [EDR.readings], h1.trans h2⟩
      · exact .inr ⟨t', by simp [EDR.readings, h1], h2⟩
    | updateN env v =>
      rcases ih (EDR.step A r (.updateN env v)).state with h1 | ⟨t', h1, h2⟩
      · have h3 : (EDR.step A r (.updateN env v)).state.startTime = (EDR.rescaleIfNeeded A r env.tick env.scaleTime).startTime := hrec _ _ _ _
        rcases hresc env.tick env.scaleTime with h2 | h2
        · exact .inl (h1.trans (h3.trans h2))
        · exact .inr ⟨env.scaleTime, by simp [EDR.readings], h1.trans (h3.trans h2)⟩
      · exact .inr ⟨t', by simp [EDR.readings, h1], h2⟩

section
variable (R : Rounding) (A : EDR.Arith) (hR : A.R = binary64) (hA : A.Lawful) (hE : EDR.GoodExp A.exp) (rtype : Int) (h0 : rtype ≠ 0) (h1 : rtype ≠ 1) (n : Nat)
  (I maxErr maxAdd : Int) (ne : NewEnv) (re : ResEnv) (hI : 1000000000 ≤ I) (h : List TCall) (env : SnapEnv) (hours : Nat) (hh : hours ≤ 2 ^ 30)
  (hs : Steady re.time re.tick (h ++ [.snapshot env]) hours) (hd : Drawn h) (hn : (h.length : Int) + 1 < 9223372036854775808)
  (hcp : ∀ r, (trun R A (newWithType A rtype n I maxErr maxAdd ne re) h).reservoir = .edr r → WeightedSnapshot.IsSorted (EDR.afterSnapshot A r env.tick env.scaleTime).getValues env.sorted)

theorem default_bounds {a : ℚ} (ha : |a - 15 / 1000| ≤ 2 ^ (-59 : Int)) : 0 ≤ a ∧ a * (3605 + ((36000000 : Int) : ℚ) / 1000) ≤ 600 ∧ a * 39600 ≤ 600 := by
  have := abs_le.1 ha
  norm_num at this
  refine ⟨?_, ?_, ?_⟩ <;> norm_num <;> linarith

include hs in
theorem steady_facts : (∀ t ∈ EDR.readings (sampling h ++ [.getSnapshot env.tick env.scaleTime]), InI64 t) ∧
    (re.time :: EDR.readings (sampling h ++ [.getSnapshot env.tick env.scaleTime])).IsChain (fun s t => s ≤ t ∧ t ≤ s + 36000000) ∧
    (re.time :: EDR.readings (sampling h)).Pairwise (· ≤ ·) ∧
    (∀ s ∈ re.time :: EDR.readings (sampling h ++ [.getSnapshot env.tick env.scaleTime]), s ≤ env.scaleTime) := by
  have e : sampling (h ++ [.snapshot env]) = sampling h ++ [.getSnapshot env.tick env.scaleTime] := sampling_append _ _
  have f1 := hs.fits
  have f2 := hs.pauses
  rw [e] at f1 f2
  have f3 : (re.time :: EDR.readings (sampling h ++ [.getSnapshot env.tick env.scaleTime])).Pairwise (· ≤ ·) := (f2.imp fun _ _ h => h.1).pairwise
  rw [readings_append] at f3
  have f4 : ((re.time :: EDR.readings (sampling h)) ++ [env.scaleTime]).Pairwise (· ≤ ·) := f3
  rw [List.pairwise_append] at f4
  refine ⟨f1, f2, f4.1, ?_⟩
  rw [readings_append]
  intro s hsm
  have : s ∈ (re.time :: EDR.readings (sampling h)) ++ [env.scaleTime] := hsm
  rcases List.mem_append.1 this with hx | hx
  · exact f4.2.2 s hx _ (List.mem_singleton_self _)
  · rw [List.mem_singleton.1 hx]

include hs in
/-- The landmark after a snapshot is not later than the snapshot. -/
theorem landmark_le (alpha : F64) : (EDR.afterSnapshot A (EDR.run A (EDR.new 1028 alpha re.time re.tick) (sampling h)) env.tick env.scaleTime).startTime ≤ env.scaleTime.tdiv 1000 := by
  obtain ⟨-, -, -, f4⟩ := steady_facts re h env hours hs
  have hsnoc : EDR.run A (EDR.new 1028 alpha re.time re.tick) (sampling h ++ [.getSnapshot env.tick env.scaleTime]) =
      EDR.afterSnapshot A (EDR.run A (EDR.new 1028 alpha re.time re.tick) (sampling h)) env.tick env.scaleTime := by
    rw [EDR.run_snoc]; rfl
  rw [← hsnoc]
  have hdiv : ∀ s t : Int, s ≤ t → s.tdiv 1000 ≤ t.tdiv 1000 := fun s t h => Int.tdiv_le_tdiv (by norm_num) h
  rcases startTime_mem A (sampling h ++ [.getSnapshot env.tick env.scaleTime]) (EDR.new 1028 alpha re.time re.tick) with e | ⟨t, ht, e⟩
  · rw [e]; exact hdiv _ _ (f4 _ (by simp))
  · rw [e]; exact hdiv _ _ (f4 _ (List.mem_cons_of_mem _ ht))

include hs hA hd hn in
theorem held_le {a : ℚ} (ha : 0 ≤ a) : ((EDR.afterSnapshot A (EDR.run A (EDR.new 1028 (.fin a) re.time re.tick) (sampling h)) env.tick env.scaleTime).getValues.length : Int) ≤ 1028 := by
  obtain ⟨f1, f2, -, -⟩ := steady_facts re h env hours hs
  have hsl := sampling_length h
  have hsnoc : EDR.run A (EDR.new 1028 (.fin a) re.time re.tick) (sampling h ++ [.getSnapshot env.tick env.scaleTime]) =
      EDR.afterSnapshot A (EDR.run A (EDR.new 1028 (.fin a) re.time re.tick) (sampling h)) env.tick env.scaleTime := by
    rw [EDR.run_snoc]; rfl
  rw [← hsnoc]
  refine (EDR.C63_forward_clock A hA 1028 (by norm_num) a ha re.time re.tick (sampling h ++ [.getSnapshot env.tick env.scaleTime]) hs.start f1
    ((f2.imp fun _ _ h => h.1).pairwise) ?_ ?_).1
  · intro u hu
    have : EDR.draws (sampling h ++ [.getSnapshot env.tick env.scaleTime]) = EDR.draws (sampling h) := by
      generalize sampling h = l
      induction l with
      | nil => rfl
      | cons o l ih => cases o <;> simp [EDR.draws, ih]
    rw [this] at hu
    exact hd u hu
  · rw [List.length_append]; simp only [List.length_singleton]; push_cast; omega

/-- The values of a snapshot are those of the samples it was made of. -/
theorem snapshot_perm (r : EDR) (tick t : Int) (cp : List WeightedSample) (hso : WeightedSnapshot.IsSorted (EDR.afterSnapshot A r tick t).getValues cp) :
    (EDR.getSnapshot A r tick t cp).getValues.Perm ((EDR.afterSnapshot A r tick t).getValues.map (·.value)) := by
  unfold EDR.getSnapshot WeightedSnapshot.getValues
  generalize (EDR.afterSnapshot A _ _ _).getValues = vs at *
  unfold WeightedSnapshot.new
  by_cases hz : vs.length = 0
  · rw [if_pos hz, List.length_eq_zero_iff.1 hz]; exact List.Perm.refl _
  · rw [if_neg hz]; exact hso.1.map _

theorem recent_enough {a : ℚ} (b0 : 0 ≤ a) (b2 : a * 39600 ≤ 600) {x : EDR.Rec}
    (hL : (EDR.afterSnapshot A (EDR.run A (EDR.new 1028 (.fin a) re.time re.tick) (sampling h)) env.tick env.scaleTime).startTime ≤ env.scaleTime.tdiv 1000)
    (hrec : env.scaleTime.tdiv 1000 - x.ts ≤ 39600) :
    a * (((EDR.afterSnapshot A (EDR.run A (EDR.new 1028 (.fin a) re.time re.tick) (sampling h)) env.tick env.scaleTime).startTime : ℚ) - x.ts) ≤ 600 := by
  have h2 : ((EDR.afterSnapshot A (EDR.run A (EDR.new 1028 (.fin a) re.time re.tick) (sampling h)) env.tick env.scaleTime).startTime : Int) - x.ts ≤ 39600 := by omega
  have h3 : (((EDR.afterSnapshot A (EDR.run A (EDR.new 1028 (.fin a) re.time re.tick) (sampling h)) env.tick env.scaleTime).startTime : ℚ) - x.ts) ≤ 39600 := by exact_mod_cast h2
  exact (mul_le_mul_of_nonneg_left h3 b0).trans b2

theorem small_enough {held : List EDR.Rec} (hlen : held.length ≤ 1028) : (held.length : ℝ) * 2 ^ (-50 : Int) ≤ 2 ^ (-39 : Int) := by
  have : (held.length : ℝ) ≤ 2048 := by exact_mod_cast (by omega : held.length ≤ 2048)
  have h50 : (held.length : ℝ) * 2 ^ (-50 : Int) ≤ 2048 * 2 ^ (-50 : Int) := mul_le_mul_of_nonneg_right this (by positivity)
  have : (2048 : ℝ) * 2 ^ (-50 : Int) = 2 ^ (-39 : Int) := by norm_num
  linarith

theorem values_bounded {h : List TCall} {M : Int} (hv : ∀ d ∈ durations h, |d| ≤ M) : ∀ x ∈ EDR.recs (sampling h), |x.value| ≤ M := by
  intro x hx
  apply hv
  rw [← durations_sampling]
  have : ∀ l : List EDR.Op, EDR.recorded l = (EDR.recs l).map (·.value) := by
    intro l
    induction l with
    | nil => rfl
    | cons o l ih => cases o <;> simp [EDR.recorded, EDR.recs, ih]
  rw [this]
  exact List.mem_map.2 ⟨x, hx, rfl⟩

include hs hR hA hE hh hd hn h0 h1 hI hcp

/-- **C120.** A compass of any type but the bucket and the uniform one, in float64, whose clocks go on as clocks do: the snapshot is made of at most 1028 different measurements, in ascending order of the
durations. If one of them was made in the last eleven hours, `GetMean` of the snapshot is the mean of their durations in which one of second `ts` counts `exp(a ts)` - `a` the `float64` next to 0.015 -,
up to `2⁻³⁹ + 3 (hours + 1) 2⁻³⁹` of the largest duration `M`. -/
theorem C120_mean (M : Int) (hM : 1 ≤ M) (hM' : M ≤ 2 ^ 63) (hv : ∀ d ∈ durations h, |d| ≤ M) :
    ∃ (a : ℚ) (s : WeightedSnapshot) (held : List EDR.Rec), A.R.rnd (15 / 1000) = .fin a ∧ |a - 15 / 1000| ≤ 2 ^ (-59 : Int) ∧
      (trun R A (newWithType A rtype n I maxErr maxAdd ne re) h).getSnapshot A env = some (.weighted s) ∧ held.Subperm (measured h) ∧ held.length ≤ 1028 ∧
      s.getValues.Perm (held.map (·.value)) ∧
      (HasRecent env.scaleTime held → ∃ m : ℚ, s.getMean A.R = .ok (.fin m) ∧ |(m : ℝ) - EDR.decayedMean a held| ≤ (2 ^ (-39 : Int) + 3 * (hours + 1) * 2 ^ (-39 : Int)) * M) := by
  obtain ⟨a, ea, ha⟩ := defaultAlpha_fin
  obtain ⟨b0, b1, b2⟩ := default_bounds ha
  obtain ⟨f1, f2, -, -⟩ := steady_facts re h env hours hs
  have hres := edr_reservoir R A rtype h0 h1 n I maxErr maxAdd ne re hI h
  rw [hR, ea] at hres
  have hso := hcp _ hres
  have hsl := sampling_length h
  have e : sampling (h ++ [.snapshot env]) = sampling h ++ [.getSnapshot env.tick env.scaleTime] := sampling_append _ _
  have hl := held_le A hA re h env hours hs hd hn b0
  have hL := landmark_le A re h env hours hs (.fin a)
  obtain ⟨held, g1, g2, g3⟩ := EDR.C109_mean A hR hA hE 1028 (by norm_num) a b0 re.time re.tick (sampling h) env.tick env.scaleTime 36000000 (by norm_num) b1 hours hh hs.start
    f1 (by rw [← e]; exact hs.over) f2 (by rw [← e]; exact hs.agree) hd (by omega) M hM hM' (values_bounded hv) env.sorted hso (by omega)
  have hlen : held.length ≤ 1028 := by
    have := congrArg List.length g2
    rw [List.length_map, List.length_map] at this
    omega
  refine ⟨a, _, held, by rw [hR]; exact ea, ha, by unfold getSnapshot; rw [hres], g1, hlen, ?_, ?_⟩
  · rw [← g2]
    exact snapshot_perm A _ _ _ _ hso
  · rintro ⟨x, hx, hrec⟩
    obtain ⟨m, hm1, hm2⟩ := g3 ⟨x, hx, recent_enough A re h env b0 b2 hL hrec⟩
    refine ⟨m, hm1, hm2.trans ?_⟩
    have hMr : (0 : ℝ) ≤ M := by exact_mod_cast (by omega : (0 : Int) ≤ M)
    refine mul_le_mul_of_nonneg_right ?_ hMr
    have := small_enough hlen
    linarith

/-- **C120.** And for every fraction `c`, rounded to a `float64`, `GetValue` returns the duration of one of them such that those before it have at most the fraction `c` of the total weight, and those up to
and including it at least that - up to `2⁻³⁹ + 3 (hours + 1) 2⁻³⁹`. -/
theorem C120_percentile :
    ∃ (a : ℚ) (s : WeightedSnapshot) (held : List EDR.Rec), A.R.rnd (15 / 1000) = .fin a ∧ |a - 15 / 1000| ≤ 2 ^ (-59 : Int) ∧
      (trun R A (newWithType A rtype n I maxErr maxAdd ne re) h).getSnapshot A env = some (.weighted s) ∧ held.Subperm (measured h) ∧ held.length ≤ 1028 ∧
      s.getValues = held.map (·.value) ∧ held.Pairwise (fun d e => d.value ≤ e.value) ∧
      (HasRecent env.scaleTime held → ∀ c : ℚ, 0 ≤ c → c ≤ 1 → ∃ (k : Nat) (hk : k < held.length), s.getValue A.R (A.R.rnd c) = .ok (F64.ofInt A.R held[k].value) ∧
        EDR.decayedTotal a (held.take k) ≤ (c + 2 ^ (-39 : Int) + 3 * (hours + 1) * 2 ^ (-39 : Int)) * EDR.decayedTotal a held ∧
        (c - 2 ^ (-39 : Int) - 3 * (hours + 1) * 2 ^ (-39 : Int)) * EDR.decayedTotal a held ≤ EDR.decayedTotal a (held.take (k + 1))) := by
  obtain ⟨a, ea, ha⟩ := defaultAlpha_fin
  obtain ⟨b0, b1, b2⟩ := default_bounds ha
  obtain ⟨f1, f2, -, -⟩ := steady_facts re h env hours hs
  have hres := edr_reservoir R A rtype h0 h1 n I maxErr maxAdd ne re hI h
  rw [hR, ea] at hres
  have hso := hcp _ hres
  have hsl := sampling_length h
  have e : sampling (h ++ [.snapshot env]) = sampling h ++ [.getSnapshot env.tick env.scaleTime] := sampling_append _ _
  have hl := held_le A hA re h env hours hs hd hn b0
  have hL := landmark_le A re h env hours hs (.fin a)
  obtain ⟨held, g1, g2, g2', g3⟩ := EDR.C109_percentile A hR hA hE 1028 (by norm_num) a b0 re.time re.tick (sampling h) env.tick env.scaleTime 36000000 (by norm_num) b1 hours hh hs.start
    f1 (by rw [← e]; exact hs.over) f2 (by rw [← e]; exact hs.agree) hd (by omega) env.sorted hso (by omega)
  have hlen : held.length ≤ 1028 := by
    have h5 := congrArg List.length g2
    rw [List.length_map] at h5
    have h6 := (snapshot_perm A (EDR.run A (EDR.new 1028 (.fin a) re.time re.tick) (sampling h)) env.tick env.scaleTime env.sorted hso).length_eq
    rw [List.length_map] at h6
    omega
  refine ⟨a, _, held, by rw [hR]; exact ea, ha, by unfold getSnapshot; rw [hres], g1, hlen, g2, g2', ?_⟩
  rintro ⟨x, hx, hrec⟩ c c0 c1
  obtain ⟨k, hk, m1, m2, m3⟩ := g3 ⟨x, hx, recent_enough A re h env b0 b2 hL hrec⟩ c c0 c1
  have h50 := small_enough hlen
  have hT : 0 ≤ EDR.decayedTotal a held := List.sum_nonneg fun y hy => by
    obtain ⟨z, -, rfl⟩ := List.mem_map.1 hy
    exact (Real.exp_pos _).le
  exact ⟨k, hk, m1, m2.trans (mul_le_mul_of_nonneg_right (by linarith) hT), (mul_le_mul_of_nonneg_right (by linarith) hT).trans m3⟩

/-- **C120.** And with a `math.Sqrt` accurate to 1 ulp `GetStdDev` is their standard deviation with these weights, up to `(2⁻¹⁷ + 3 √(2 (hours + 1)) 2⁻²⁰) M`. -/
theorem C120_stddev (sqrt : F64 → F64) (hsqrt : Spec.GoodSqrt sqrt) (M : Int) (hM : 1 ≤ M) (hM' : M ≤ 2 ^ 63) (hv : ∀ d ∈ durations h, |d| ≤ M) :
    ∃ (a : ℚ) (s : WeightedSnapshot) (held : List EDR.Rec), A.R.rnd (15 / 1000) = .fin a ∧ |a - 15 / 1000| ≤ 2 ^ (-59 : Int) ∧
      (trun R A (newWithType A rtype n I maxErr maxAdd ne re) h).getSnapshot A env = some (.weighted s) ∧ held.Subperm (measured h) ∧ held.length ≤ 1028 ∧
      s.getValues.Perm (held.map (·.value)) ∧
      (HasRecent env.scaleTime held → ∃ x : ℚ, s.getStdDev A.R sqrt = .ok (.fin x) ∧
        |(x : ℝ) - Real.sqrt (EDR.decayedVariance a held)| ≤ (2 ^ (-17 : Int) + 3 * Real.sqrt (2 * (hours + 1)) * 2 ^ (-20 : Int)) * M) := by
  obtain ⟨a, ea, ha⟩ := defaultAlpha_fin
  obtain ⟨b0, b1, b2⟩ := default_bounds ha
  obtain ⟨f1, f2, -, -⟩ := steady_facts re h env hours hs
  have hres := edr_reservoir R A rtype h0 h1 n I maxErr maxAdd ne re hI h
  rw [hR, ea] at hres
  have hso := hcp _ hres
  have hsl := sampling_length h
  have e : sampling (h ++ [.snapshot env]) = sampling h ++ [.getSnapshot env.tick env.scaleTime] := sampling_append _ _
  have hl := held_le A hA re h env hours hs hd hn b0
  have hL := landmark_le A re h env hours hs (.fin a)
  obtain ⟨held, g1, g2, g3⟩ := EDR.C109_stddev A hR hA hE sqrt hsqrt 1028 (by norm_num) a b0 re.time re.tick (sampling h) env.tick env.scaleTime 36000000 (by norm_num) b1 hours hh hs.start
    f1 (by rw [← e]; exact hs.over) f2 (by rw [← e]; exact hs.agree) hd (by omega) M hM hM' (values_bounded hv) env.sorted hso (by omega)
  have hlen : held.length ≤ 1028 := by
    have := congrArg List.length g2
    rw [List.length_map, List.length_map] at this
    omega
  refine ⟨a, _, held, by rw [hR]; exact ea, ha, by unfold getSnapshot; rw [hres], g1, hlen, ?_, ?_⟩
  · rw [← g2]
    exact snapshot_perm A _ _ _ _ hso
  · rintro ⟨x, hx, hrec⟩
    obtain ⟨m, hm1, hm2⟩ := g3 ⟨x, hx, recent_enough A re h env b0 b2 hL hrec⟩
    refine ⟨m, hm1, hm2.trans ?_⟩
    have hMr : (0 : ℝ) ≤ M := by exact_mod_cast (by omega : (0 : Int) ≤ M)
    refine mul_le_mul_of_nonneg_right ?_ hMr
    have h8 : Real.sqrt (8 * held.length) ≤ 128 := by
      rw [Real.sqrt_le_left (by norm_num)]
      have : (held.length : ℝ) ≤ 2048 := by exact_mod_cast (by omega : held.length ≤ 2048)
      linarith
    have h9 := mul_le_mul_of_nonneg_right h8 (show (0 : ℝ) ≤ 2 ^ (-24 : Int) by positivity)
    have : (128 : ℝ) * 2 ^ (-24 : Int) = 2 ^ (-17 : Int) := by norm_num
    linarith
end

section
variable (A : EDR.Arith) (hR : A.R = binary64) (hA : A.Lawful) (hE : EDR.GoodExp A.exp) (size : Int) (hsz : 1 ≤ size) (a : ℚ) (ha : 0 ≤ a) (time tick : Int) (h : List EDR.Op) (ht : InI64 time)
  (hτ : InI64 (tick + 3600000000000)) (hr : ∀ t ∈ EDR.readings h, InI64 t) (hticks : ∀ x ∈ EDR.ticks h, x < tick + 3600000000000) (hn : (h.length : Int) < 9223372036854775808)
  (L : List EDR.Rec) (hL : EDR.recs h = L) (hv : (L.map (·.value)).Nodup) (hspan : ∀ e ∈ L, |a * (e.ts - time.tdiv 1000 : Int)| ≤ 600)

theorem recorded_recs (h : List EDR.Op) : EDR.recorded h = (EDR.recs h).map (·.value) := by
  induction h with
  | nil => rfl
  | cons o l ih => cases o <;> simp [EDR.recorded, EDR.recs, ih]

theorem seconds_recs (h : List EDR.Op) : EDR.seconds h = (EDR.recs h).map (·.ts) := by
  induction h with
  | nil => rfl
  | cons o l ih => cases o <;> simp [EDR.seconds, EDR.recs, ih]

include hR hA hE hsz ha ht hτ hr hticks hn hL hv hspan

theorem old_recs (i : Fin L.length) (newer : Finset (Fin L.length)) (hi : i ∉ newer) (d : Nat) (hd : ∀ j ∈ newer, L[i].ts + d ≤ L[j].ts) (hnew : size ≤ newer.card) :
    ((EDR.chance L.length 9007199254740992 (fun us => L[i].value ∈ EDR.holding A size (.fin a) time tick (EDR.redraw h (EDR.gridDraws us))) : ℚ) : ℝ) ≤
      newer.card / (2 * (newer.card - size + 1)) * (Real.exp (-(a * d)) * (1 + 2 ^ (-39 : Int))) + 5 * L.length ^ 2 / 9007199254740992 := by
  have e1 := recorded_recs h
  have e2 := seconds_recs h
  rw [hL] at e1 e2
  have hlen : (EDR.recorded h).length = L.length := by rw [e1, List.length_map]
  have hvi : ∀ (k : Nat) (h1 : k < (EDR.recorded h).length) (h2 : k < L.length), (EDR.recorded h)[k] = L[k].value := by
    intro k h1 h2; simp only [e1, List.getElem_map]
  have hsi : ∀ (k : Nat) (h1 : k < (EDR.seconds h).length) (h2 : k < L.length), (EDR.seconds h)[k] = L[k].ts := by
    intro k h1 h2; simp only [e2, List.getElem_map]
  have key := fun (i : Fin (EDR.recorded h).length) => C115_old A hR hA hE size hsz a ha time tick h ht hτ hr hticks (by rw [e1]; exact hv) hn (by
    intro s hs
    rw [e2] at hs
    obtain ⟨e, he, rfl⟩ := List.mem_map.1 hs
    exact hspan e he) i
  suffices H : ∀ (m : Nat) (_ : (EDR.recorded h).length = m) (hm : L.length = m) (i : Fin m) (newer : Finset (Fin m)), i ∉ newer →
      (∀ j ∈ newer, (L[(i : Nat)]'(by rw [hm]; exact i.2)).ts + d ≤ (L[(j : Nat)]'(by rw [hm]; exact j.2)).ts) → size ≤ newer.card →
      ((EDR.chance m 9007199254740992 (fun us => (L[(i : Nat)]'(by rw [hm]; exact i.2)).value ∈ EDR.holding A size (.fin a) time tick (EDR.redraw h (EDR.gridDraws us))) : ℚ) : ℝ) ≤
        newer.card / (2 * (newer.card - size + 1)) * (Real.exp (-(a * d)) * (1 + 2 ^ (-39 : Int))) + 5 * m ^ 2 / 9007199254740992 from
    H _ hlen rfl i newer hi hd hnew
  intro m hm' hm i newer hi hd hnew
  subst hm'
  have := key i newer hi d (fun j hj => by
    rw [Fin.getElem_fin, Fin.getElem_fin, hsi _ _ (by rw [hm]; exact i.2), hsi _ _ (by rw [hm]; exact j.2)]; exact hd j hj) hnew
  rw [Fin.getElem_fin, hvi _ i.2 (by rw [hm]; exact i.2)] at this
  exact this

theorem new_recs (j : Fin L.length) (older : Finset (Fin L.length)) (hj : j ∉ older) (d : Nat) (hd : ∀ i ∈ older, L[i].ts + d ≤ L[j].ts) (others : Nat)
    (ho : L.length = 1 + older.card + others) (hs : (others : Int) < size) :
    ((EDR.chance L.length 9007199254740992 (fun us => L[j].value ∉ EDR.holding A size (.fin a) time tick (EDR.redraw h (EDR.gridDraws us))) : ℚ) : ℝ) ≤
      older.card / (2 * (size - others)) * (Real.exp (-(a * d)) * (1 + 2 ^ (-39 : Int))) + 5 * L.length ^ 2 / 9007199254740992 := by
  have e1 := recorded_recs h
  have e2 := seconds_recs h
  rw [hL] at e1 e2
  have hlen : (EDR.recorded h).length = L.length := by rw [e1, List.length_map]
  have hvi : ∀ (k : Nat) (h1 : k < (EDR.recorded h).length) (h2 : k < L.length), (EDR.recorded h)[k] = L[k].value := by
    intro k h1 h2; simp only [e1, List.getElem_map]
  have hsi : ∀ (k : Nat) (h1 : k < (EDR.seconds h).length) (h2 : k < L.length), (EDR.seconds h)[k] = L[k].ts := by
    intro k h1 h2; simp only [e2, List.getElem_map]
  have key := fun (i : Fin (EDR.recorded h).length) => C115_new A hR hA hE size hsz a ha time tick h ht hτ hr hticks (by rw [e1]; exact hv) hn (by
    intro s hs
    rw [e2] at hs
    obtain ⟨e, he, rfl⟩ := List.mem_map.1 hs
    exact hspan e he) i
  suffices H : ∀ (m : Nat) (_ : (EDR.recorded h).length = m) (hm : L.length = m) (j : Fin m) (older : Finset (Fin m)), j ∉ older →
      (∀ i ∈ older, (L[(i : Nat)]'(by rw [hm]; exact i.2)).ts + d ≤ (L[(j : Nat)]'(by rw [hm]; exact j.2)).ts) → m = 1 + older.card + others →
      ((EDR.chance m 9007199254740992 (fun us => (L[(j : Nat)]'(by rw [hm]; exact j.2)).value ∉ EDR.holding A size (.fin a) time tick (EDR.redraw h (EDR.gridDraws us))) : ℚ) : ℝ) ≤
        older.card / (2 * (size - others)) * (Real.exp (-(a * d)) * (1 + 2 ^ (-39 : Int))) + 5 * m ^ 2 / 9007199254740992 from
    H _ hlen rfl j older hj hd ho
  intro m hm' hm j older hj hd ho
  subst hm'
  have := key j older hj d (fun i hi => by
    rw [Fin.getElem_fin, Fin.getElem_fin, hsi _ _ (by rw [hm]; exact i.2), hsi _ _ (by rw [hm]; exact j.2)]; exact hd i hi) others ho hs
  rw [Fin.getElem_fin, hvi _ j.2 (by rw [hm]; exact j.2)] at this
  exact this
end

section
variable (R : Rounding) (A : EDR.Arith) (hR : A.R = binary64) (hA : A.Lawful) (hE : EDR.GoodExp A.exp) (rtype : Int) (h0 : rtype ≠ 0) (h1 : rtype ≠ 1) (n : Nat)
  (I maxErr maxAdd : Int) (ne : NewEnv) (re : ResEnv) (hI : 1000000000 ≤ I) (h : List TCall) (env : SnapEnv)
  (hf : FirstHour re.time re.tick (h ++ [.snapshot env])) (hn : (h.length : Int) + 1 < 9223372036854775808) (hv : ((measured h).map (·.value)).Nodup)
  (cp : (Fin (measured h).length → Fin 9007199254740992) → List WeightedSample)
  (hcp : ∀ us r, (trun R A (newWithType A rtype n I maxErr maxAdd ne re) (redrawn h (EDR.gridDraws us))).reservoir = .edr r →
    WeightedSnapshot.IsSorted (EDR.afterSnapshot A r env.tick env.scaleTime).getValues (cp us))

theorem measured_snapshot : measured (h ++ [.snapshot env]) = measured h := by
  unfold measured
  rw [sampling_append]
  generalize sampling h = l
  induction l with
  | nil => rfl
  | cons o l ih => cases o <;> simp only [List.cons_append, EDR.recs, ih]

theorem measured_length : (measured h).length = (durations h).length := by
  rw [← durations_sampling, recorded_recs, List.length_map]; rfl

include h0 h1 hI hcp in
theorem mem_snapshot {a : ℚ} (ea : A.R.rnd (15 / 1000) = .fin a) (us : Fin (measured h).length → Fin 9007199254740992) (v : Int) :
    v ∈ valuesIn ((trun R A (newWithType A rtype n I maxErr maxAdd ne re) (redrawn h (EDR.gridDraws us))).getSnapshot A { env with sorted := cp us }) ↔
      v ∈ EDR.holding A 1028 (.fin a) re.time re.tick (EDR.redraw (sampling (h ++ [.snapshot env])) (EDR.gridDraws us)) := by
  have hres := edr_reservoir R A rtype h0 h1 n I maxErr maxAdd ne re hI (redrawn h (EDR.gridDraws us))
  have hs := hcp us _ hres
  have hgl : (EDR.gridDraws us).length = (durations h).length := by rw [← measured_length]; simp [EDR.gridDraws]
  have e : sampling (h ++ [.snapshot env]) = sampling h ++ [.getSnapshot env.tick env.scaleTime] := sampling_append _ _
  unfold getSnapshot
  rw [hres, e]
  rw [sampling_redrawn h _ hgl, ea] at hs ⊢
  unfold EDR.holding
  rw [redraw_append_snapshot _ _ (by rw [durations_sampling]; exact hgl), EDR.run_snoc]
  exact (snapshot_perm A _ _ _ _ hs).mem_iff

include hR hA hE h0 h1 hI hf hn hv hcp

/-- **C120.** How a compass forgets, in its first hour, in float64 and with the random numbers of `rand.Float64`: a duration recorded at least `d` seconds before at least 1028 others, `newer` of them, is still
in a snapshot with a chance of at most `newer / (2 (newer - 1027))` times `e^(-a d)`, up to `2⁻³⁹` relatively and `5 n² / 2⁵³` for ties. -/
theorem C120_forgets (i : Fin (measured h).length) (newer : Finset (Fin (measured h).length)) (hi : i ∉ newer) (d : Nat)
    (hd : ∀ j ∈ newer, (measured h)[i].ts + d ≤ (measured h)[j].ts) (hnew : 1028 ≤ newer.card) :
    ∃ a : ℚ, A.R.rnd (15 / 1000) = .fin a ∧ |a - 15 / 1000| ≤ 2 ^ (-59 : Int) ∧
      ((EDR.chance (measured h).length 9007199254740992 (fun us => (measured h)[i].value ∈
        valuesIn ((trun R A (newWithType A rtype n I maxErr maxAdd ne re) (redrawn h (EDR.gridDraws us))).getSnapshot A { env with sorted := cp us })) : ℚ) : ℝ) ≤
      newer.card / (2 * (newer.card - 1027)) * (Real.exp (-(a * d)) * (1 + 2 ^ (-39 : Int))) + 5 * (measured h).length ^ 2 / 9007199254740992 := by
  obtain ⟨a, ea, ha⟩ := defaultAlpha_fin
  obtain ⟨b0, b1, b2⟩ := default_bounds ha
  refine ⟨a, by rw [hR]; exact ea, ha, ?_⟩
  simp only [mem_snapshot R A rtype h0 h1 n I maxErr maxAdd ne re hI h env cp hcp (hR ▸ ea)]
  have hsl := sampling_length (h ++ [.snapshot env])
  rw [List.length_append, List.length_singleton] at hsl
  have key := old_recs A hR hA hE 1028 (by norm_num) a b0 re.time re.tick (sampling (h ++ [TCall.snapshot env])) hf.start hf.ends hf.fits hf.within (by omega) (measured h)
    (measured_snapshot h env) hv (by
      intro e he
      have h39 := hf.off e (by rw [measured_snapshot]; exact he)
      rw [abs_mul, abs_of_nonneg b0]
      refine le_trans (mul_le_mul_of_nonneg_left ?_ b0) b2
      exact_mod_cast h39) i newer hi d hd (by exact_mod_cast hnew)
  refine key.trans (le_of_eq ?_)
  push_cast
  ring

/-- **C120.** And one that all but `others < 1028` others are at least `d` seconds older than - `older` of them - is in the snapshot, except with a chance of at most `older / (2 (1028 - others))` times
`e^(-a d)`, up to the same errors. -/
theorem C120_keeps (j : Fin (measured h).length) (older : Finset (Fin (measured h).length)) (hj : j ∉ older) (d : Nat)
    (hd : ∀ i ∈ older, (measured h)[i].ts + d ≤ (measured h)[j].ts) (others : Nat) (ho : (measured h).length = 1 + older.card + others) (hs : others < 1028) :
    ∃ a : ℚ, A.R.rnd (15 / 1000) = .fin a ∧ |a - 15 / 1000| ≤ 2 ^ (-59 : Int) ∧
      ((EDR.chance (measured h).length 9007199254740992 (fun us => (measured h)[j].value ∉
        valuesIn ((trun R A (newWithType A rtype n I maxErr maxAdd ne re) (redrawn h (EDR.gridDraws us))).getSnapshot A { env with sorted := cp us })) : ℚ) : ℝ) ≤
      older.card / (2 * (1028 - others)) * (Real.exp (-(a * d)) * (1 + 2 ^ (-39 : Int))) + 5 * (measured h).length ^ 2 / 9007199254740992 := by
  obtain ⟨a, ea, ha⟩ := defaultAlpha_fin
  obtain ⟨b0, b1, b2⟩ := default_bounds ha
  refine ⟨a, by rw [hR]; exact ea, ha, ?_⟩
  simp only [mem_snapshot R A rtype h0 h1 n I maxErr maxAdd ne re hI h env cp hcp (hR ▸ ea)]
  have hsl := sampling_length (h ++ [.snapshot env])
  rw [List.length_append, List.length_singleton] at hsl
  have key := new_recs A hR hA hE 1028 (by norm_num) a b0 re.time re.tick (sampling (h ++ [TCall.snapshot env])) hf.start hf.ends hf.fits hf.within (by omega) (measured h)
    (measured_snapshot h env) hv (by
      intro e he
      have h39 := hf.off e (by rw [measured_snapshot]; exact he)
      rw [abs_mul, abs_of_nonneg b0]
      refine le_trans (mul_le_mul_of_nonneg_left ?_ b0) b2
      exact_mod_cast h39) j older hj d hd others ho (by exact_mod_cast hs)
  refine key.trans (le_of_eq ?_)
  push_cast
  ring
end

/-- A call at `ms` milliseconds, by both clocks, with the random number 1/2. -/
def callAt (ms : Int) (op : Op) : TCall := .call ⟨0, ms, ⟨⟨ms * 1000000, ms, ms, .fin (1 / 2)⟩, ms, [7]⟩, ms, ms, ms, ms, ms⟩ op

/-- A call every half hour, a failure in between, and a question for the rate. -/
def halfHourly : List TCall := [callAt 1000 (.update 5000000), callAt 1800000 (.updateWithError 9000000 false "e1" ""), callAt 3600000 .readRate, callAt 5400000 (.update 7000000)]

/-- A snapshot after two and a half hours. -/
def lateSnapshot (cp : List WeightedSample) : SnapEnv := ⟨9000000000000, 9000000, cp, ⟨0, 0, 0, 0, 0⟩⟩

theorem halfHourly_steady (cp : List WeightedSample) : Steady 0 0 (halfHourly ++ [.snapshot (lateSnapshot cp)]) 3 ∧ Drawn halfHourly := by
  have e : sampling (halfHourly ++ [.snapshot (lateSnapshot cp)]) = [.updateN ⟨1000000000, 1000, 1000, .fin (1 / 2)⟩ 5000000, .updateN ⟨1800000000000, 1800000, 1800000, .fin (1 / 2)⟩ 9000000,
    .updateN ⟨5400000000000, 5400000, 5400000, .fin (1 / 2)⟩ 7000000, .getSnapshot 9000000000000 9000000] := rfl
  constructor
  · constructor
    · decide
    · rw [e]; decide
    · rw [e]; decide
    · rw [e]; simp only [EDR.readings, List.isChain_cons_cons]; norm_num
    · rw [e]; unfold EDR.Agree; decide
  · intro u hu
    have : EDR.draws (sampling halfHourly) = [.fin (1 / 2), .fin (1 / 2), .fin (1 / 2)] := rfl
    rw [this] at hu
    simp only [List.mem_cons, List.not_mem_nil, or_false, or_self] at hu
    exact ⟨1 / 2, hu, by norm_num, by norm_num⟩

/-- A sort that sorts exists for every list of samples. -/
theorem sorted_exists (l : List WeightedSample) : ∃ cp, WeightedSnapshot.IsSorted l cp := by
  refine ⟨l.mergeSort (fun a b => decide (a.value ≤ b.value)), List.mergeSort_perm _ _, ?_⟩
  have := List.pairwise_mergeSort (le := fun a b : WeightedSample => decide (a.value ≤ b.value)) (by intro a b c; simp; omega) (by intro a b; simp; omega) l
  exact this.imp (by simp)

/-- The hypotheses of `C120_mean`, `C120_percentile` and `C120_stddev` are met: three durations in an hour and a half, and a snapshot an hour later. -/
example : ∃ (cp : List WeightedSample) (a : ℚ) (s : WeightedSnapshot) (held : List EDR.Rec), binary64.rnd (15 / 1000) = .fin a ∧ |a - 15 / 1000| ≤ 2 ^ (-59 : Int) ∧
    (trun binary64 EDR.good (newWithType EDR.good 2 60 1000000000 20 20 ⟨0, 0, 0⟩ ⟨0, 0, 0⟩) halfHourly).getSnapshot EDR.good (lateSnapshot cp) = some (.weighted s) ∧
    held.Subperm [⟨1, 1 / 2, 5000000⟩, ⟨1800, 1 / 2, 9000000⟩, ⟨5400, 1 / 2, 7000000⟩] ∧ held.length ≤ 1028 ∧ s.getValues.Perm (held.map (·.value)) ∧
    (HasRecent 9000000 held → ∃ m : ℚ, s.getMean binary64 = .ok (.fin m) ∧ |(m : ℝ) - EDR.decayedMean a held| ≤ (2 ^ (-39 : Int) + 3 * ((3 : Nat) + 1) * 2 ^ (-39 : Int)) * (9000000 : Int)) := by
  have hres := edr_reservoir binary64 EDR.good 2 (by norm_num) (by norm_num) 60 1000000000 20 20 ⟨0, 0, 0⟩ ⟨0, 0, 0⟩ (by norm_num) halfHourly
  obtain ⟨cp, hcp⟩ := sorted_exists (EDR.afterSnapshot EDR.good (EDR.run EDR.good (EDR.new 1028 (EDR.good.R.rnd (15 / 1000)) 0 0) (sampling halfHourly)) 9000000000000 9000000).getValues
  refine ⟨cp, ?_⟩
  obtain ⟨hs, hd⟩ := halfHourly_steady cp
  exact C120_mean binary64 EDR.good rfl EDR.good_lawful EDR.good_exp 2 (by norm_num) (by norm_num) 60 1000000000 20 20 ⟨0, 0, 0⟩ ⟨0, 0, 0⟩ (by norm_num) halfHourly (lateSnapshot cp) 3
    (by norm_num) hs hd (by decide) (by
      intro r hr
      rw [hres] at hr
      simp only [AnyReservoir.edr.injEq] at hr
      subst hr
      exact hcp) 9000000 (by norm_num) (by norm_num) (by decide)

/-- All three measurements are recent enough. -/
example : HasRecent 9000000 [⟨1, 1 / 2, 5000000⟩, ⟨1800, 1 / 2, 9000000⟩, ⟨5400, 1 / 2, 7000000⟩] := ⟨⟨5400, 1 / 2, 7000000⟩, by simp, by decide⟩

/-- `m` different durations, one in each of the first `m` seconds. -/
def eachSecond : Nat → List TCall
  | 0 => []
  | m + 1 => eachSecond m ++ [callAt (m * 1000) (.update m)]

theorem eachSecond_facts (m : Nat) : (eachSecond m).length = m ∧ measured (eachSecond m) = (List.range m).map (fun k : Nat => (⟨k, 1 / 2, k⟩ : EDR.Rec)) ∧
    (∀ t ∈ EDR.readings (sampling (eachSecond m)), 0 ≤ t ∧ t < m * 1000) ∧ (∀ t ∈ EDR.ticks (sampling (eachSecond m)), 0 ≤ t ∧ t < m * 1000000000) := by
  induction m with
  | zero => exact ⟨rfl, rfl, by simp [eachSecond, sampling, EDR.readings], by simp [eachSecond, sampling, EDR.ticks]⟩
  | succ m ih =>
    obtain ⟨i1, i2, i3, i4⟩ := ih
    have e : sampling (eachSecond (m + 1)) = sampling (eachSecond m) ++ [.updateN ⟨m * 1000 * 1000000, m * 1000, m * 1000, .fin (1 / 2)⟩ m] := by
      rw [eachSecond, sampling_append]; rfl
    refine ⟨by rw [eachSecond, List.length_append, i1]; rfl, ?_, ?_, ?_⟩
    · have hrecs : ∀ l l' : List EDR.Op, EDR.recs (l ++ l') = EDR.recs l ++ EDR.recs l' := by
        intro l l'
        induction l with
        | nil => rfl
        | cons o l ih => cases o <;> simp [EDR.recs, ih]
      unfold measured at i2 ⊢
      rw [e, hrecs, i2, List.range_succ, List.map_append]
      simp [EDR.recs, EDR.rat]
    · rw [e, readings_append]
      intro t ht
      simp only [EDR.readings, List.mem_append, List.mem_cons, List.not_mem_nil, or_false] at ht
      rcases ht with ht | rfl | rfl
      · have := i3 t ht; push_cast; omega
      · push_cast; omega
      · push_cast; omega
    · rw [e, EDR.ticks_append]
      intro t ht
      simp only [EDR.ticks, List.mem_append, List.mem_cons, List.not_mem_nil, or_false] at ht
      rcases ht with ht | rfl
      · have := i4 t ht; push_cast; omega
      · push_cast; omega

/-- The hypotheses of `C120_forgets` and `C120_keeps` are met: a duration in each of the first 3000 seconds, and a snapshot then. -/
example (env : SnapEnv) (he : env.tick = 3000000000000) (he' : env.scaleTime = 3000000) : FirstHour 0 0 (eachSecond 3000 ++ [.snapshot env]) ∧
    ((eachSecond 3000).length : Int) + 1 < 9223372036854775808 ∧ ((measured (eachSecond 3000)).map (·.value)).Nodup ∧
    ∃ (i : Fin (measured (eachSecond 3000)).length) (newer : Finset (Fin (measured (eachSecond 3000)).length)), i ∉ newer ∧ 1028 ≤ newer.card ∧
      ∀ j ∈ newer, (measured (eachSecond 3000))[i].ts + (600 : Nat) ≤ (measured (eachSecond 3000))[j].ts := by
  obtain ⟨f1, f2, f3, f4⟩ := eachSecond_facts 3000
  have e : sampling (eachSecond 3000 ++ [.snapshot env]) = sampling (eachSecond 3000) ++ [.getSnapshot 3000000000000 3000000] := by
    rw [sampling_append, ← he, ← he']; rfl
  refine ⟨⟨by decide, by decide, ?_, ?_, ?_⟩, by rw [f1]; norm_num, ?_, ?_⟩
  · rw [e, readings_append]
    intro t ht
    rcases List.mem_append.1 ht with ht | ht
    · have := f3 t ht; unfold InI64; push_cast at this; omega
    · simp only [EDR.readings, List.mem_singleton] at ht; subst ht; decide
  · rw [e, EDR.ticks_append]
    intro t ht
    rcases List.mem_append.1 ht with ht | ht
    · have := f4 t ht; push_cast at this; omega
    · simp only [EDR.ticks, List.mem_singleton] at ht; subst ht; decide
  · rw [measured_snapshot, f2]
    intro x hx
    obtain ⟨k, hk, rfl⟩ := List.mem_map.1 hx
    rw [List.mem_range] at hk
    show |(k : Int) - 0| ≤ 39600
    rw [abs_le]; omega
  · rw [f2, List.map_map]
    exact List.nodup_range.map (fun a b h => by simpa using h)
  · have hlen : (measured (eachSecond 3000)).length = 3000 := by rw [f2, List.length_map, List.length_range]
    have hts : ∀ k (hk : k < (measured (eachSecond 3000)).length), (measured (eachSecond 3000))[k].ts = k := by
      intro k hk
      simp only [f2, List.getElem_map, List.getElem_range]
    refine ⟨⟨0, by omega⟩, Finset.univ.filter fun j => 1000 ≤ (j : Nat), by simp, ?_, ?_⟩
    · have : (Finset.range 1028).card ≤ (Finset.univ.filter fun j : Fin (measured (eachSecond 3000)).length => 1000 ≤ (j : Nat)).card := by
        refine Finset.card_le_card_of_injOn (fun k => if hk : k + 1000 < (measured (eachSecond 3000)).length then ⟨k + 1000, hk⟩ else ⟨0, by omega⟩) ?_ ?_
        · intro k hk
          have hk' : k < 1028 := by simpa using hk
          simp only [dif_pos (show k + 1000 < (measured (eachSecond 3000)).length by omega)]
          simp
        · intro k hk k' hk' hkk
          have h1 : k < 1028 := by simpa using hk
          have h2 : k' < 1028 := by simpa using hk'
          simp only [dif_pos (show k + 1000 < (measured (eachSecond 3000)).length by omega), dif_pos (show k' + 1000 < (measured (eachSecond 3000)).length by omega), Fin.mk.injEq] at hkk
          omega
      rwa [Finset.card_range] at this
    · intro j hj
      have hj' : 1000 ≤ (j : Nat) := by simpa using hj
      rw [Fin.getElem_fin, Fin.getElem_fin, hts, hts]
      show ((0 : Nat) : Int) + _ ≤ _
      push_cast
      omega

end GoMetrics
