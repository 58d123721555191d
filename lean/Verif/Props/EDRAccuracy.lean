import Verif.Proofs.EDRAccuracyRun
import Verif.Props.EDRFloat
import Verif.Props.EDRStats
import Verif.Props.WeightedAccuracy
/-! # C109: the weights and the mean of a decaying reservoir in binary64 -/
namespace GoMetrics
open Rounding
namespace EDR

theorem ticks_append (h h' : List Op) : ticks (h ++ h') = ticks h ++ ticks h' := by
  induction h with
  | nil => rfl
  | cons o h ih => cases o <;> simp [ticks, ih]

/-- What the snapshot finds, with its updates. -/
theorem snapshot_matched {A : Arith} {a : ℚ} {size tick time G : Int} {K : ℕ} (S : Setup A a size tick time G K) (h : List Op) (tick' time' : Int)
    (ht : InI64 time) (hτ : InI64 (tick + 3600000000000)) (hn : (h.length : Int) + 1 < 9223372036854775808)
    (hc : Clocks tick time G K time (h ++ [.getSnapshot tick' time'])) (hu : ∀ u ∈ draws h, IsDraw u) :
    ∃ l : List (WeightedSample × Rec), (afterSnapshot A (run A (new size (.fin a) time tick) h) tick' time').getValues = l.map Prod.fst ∧
      (l.map Prod.snd).Subperm (recs h) ∧
      ∀ p ∈ l, Near a (afterSnapshot A (run A (new size (.fin a) time tick) h) tick' time').startTime K p.1 p.2 ∧
        a * (p.2.ts - (afterSnapshot A (run A (new size (.fin a) time tick) h) tick' time').startTime) ≤ 600 := by
  have hdr : draws (h ++ [.getSnapshot tick' time']) = draws h := by rw [draws_append]; simp [draws]
  have hrc : recs (h ++ [.getSnapshot tick' time']) = recs h := by rw [recs_append]; simp [recs]
  obtain ⟨n', k', last', hI⟩ := runInv_run S (h ++ [.getSnapshot tick' time']) _ 0 0 [] time (runInv_new S ht hτ)
    (by simp only [List.length_append, List.length_singleton]; push_cast; omega) hc (by rw [hdr]; exact hu)
  have hrun : run A (new size (.fin a) time tick) (h ++ [.getSnapshot tick' time']) = afterSnapshot A (run A (new size (.fin a) time tick) h) tick' time' := by
    simp only [run, List.foldl_append, List.foldl_cons, List.foldl_nil]; rfl
  rw [hrun, hrc, List.nil_append] at hI
  obtain ⟨l, h1, h2, h3⟩ := hI.matched
  refine ⟨l, (getValues_eq hI.B.keys).trans h1, h2, fun p hp => ⟨(h3 p hp).1.mono hI.kle, (h3 p hp).2⟩⟩

/-- **C109.** binary64 and a `math.Exp` accurate to 1 ulp. The two clocks run forward and agree to a second; there is never a pause of more than `G` milliseconds
between readings, with `a (3605 + G/1000) ≤ 600` (for the default rate 0.015: ten hours); the reservoir is at most `K ≤ 2³⁰` hours old. Then every sample
that a `GetSnapshot` call finds belongs to an update of its own - a different one for every sample -, has its value, and its weight is the exact `exp(a (ts - L))`,
`ts` the second of the update and `L` the landmark, up to a relative error of `(K + 1) 2⁻⁴⁰` and `K` times the smallest positive number `2⁻¹⁰⁷⁴`. -/
theorem C109_weights (A : Arith) (hR : A.R = binary64) (hA : A.Lawful) (hE : GoodExp A.exp) (size : Int) (hsz : 1 ≤ size) (a : ℚ) (ha : 0 ≤ a) (time tick : Int)
    (h : List Op) (tick' time' : Int) (G : Int) (hG0 : 0 ≤ G) (hG : a * (3605 + (G : ℚ) / 1000) ≤ 600) (K : ℕ) (hK : K ≤ 2 ^ 30)
    (ht : InI64 time) (hi : ∀ t ∈ readings (h ++ [.getSnapshot tick' time']), InI64 t)
    (hτ : ∀ τ ∈ tick :: ticks (h ++ [.getSnapshot tick' time']), InI64 (τ + 3600000000000) ∧ τ ≤ tick + K * 3600000000000)
    (hc : (time :: readings (h ++ [.getSnapshot tick' time'])).IsChain fun s t => s ≤ t ∧ t ≤ s + G)
    (hag : Agree tick time (h ++ [.getSnapshot tick' time'])) (hu : ∀ u ∈ draws h, IsDraw u) (hn : (h.length : Int) + 1 < 9223372036854775808) :
    let r' := afterSnapshot A (run A (new size (.fin a) time tick) h) tick' time'
    ∃ held : List Rec, held.Subperm (recs h) ∧ List.Forall₂ (fun s e => s.value = e.value ∧ ∃ w : ℚ, s.weight = .fin w ∧ 0 ≤ w ∧
      |(w : ℝ) - Real.exp (a * (e.ts - r'.startTime))| ≤ (K + 1) * 2 ^ (-40 : Int) * Real.exp (a * (e.ts - r'.startTime)) + K * 2 ^ (-1074 : Int)) r'.getValues held := by
  intro r'
  obtain ⟨l, h1, h2, h3⟩ := snapshot_matched ⟨hR, hA, hE, ha, hsz, hG, hG0, hK⟩ h tick' time' ht (hτ tick (by simp)).1 hn
    ⟨hi, hc, hag, fun τ h => hτ τ (List.mem_cons_of_mem _ h)⟩ hu
  refine ⟨l.map Prod.snd, h2, ?_⟩
  rw [show r'.getValues = l.map Prod.fst from h1, List.forall₂_map_left_iff, List.forall₂_map_right_iff]
  exact List.forall₂_same.2 fun p hp => (h3 p hp).1

/-- The numbers behind `C109_mean`. -/
theorem mean_numbers {n K ε κ W S D M : ℝ} (hn : 0 ≤ n) (hS : 0 < S) (hM : 0 ≤ M) (hD : D ≤ (K + 1) * ε * W + n * κ) (hκ : n * κ ≤ ε * W) (hSW : W - D ≤ S)
    (hK : 0 ≤ K) (hε : 0 < ε) (hKε : (K + 2) * ε ≤ 1 / 3) (hW : 0 < W) : 2 * M * D / S ≤ (K + 1) * (4 * ε) * (3 / 2) * M := by
  have h1 : D ≤ (K + 2) * ε * W := by nlinarith
  have h2 : W * (2 / 3) ≤ S := by nlinarith
  rw [div_le_iff₀ hS]
  have h3 : (K + 1) * (4 * ε) * (3 / 2) * M * (W * (2 / 3)) ≤ (K + 1) * (4 * ε) * (3 / 2) * M * S := by
    apply mul_le_mul_of_nonneg_left h2
    positivity
  refine le_trans ?_ h3
  have h4 : 2 * M * D ≤ 2 * M * ((K + 2) * ε * W) := mul_le_mul_of_nonneg_left h1 (by linarith)
  refine h4.trans ?_
  have h5 : 0 ≤ M * (ε * W) := by positivity
  nlinarith

theorem sum_sub_map {α : Type} (l : List α) (f g : α → ℝ) : (l.map fun p => f p - g p).sum = (l.map f).sum - (l.map g).sum := by
  induction l with
  | nil => simp
  | cons x t ih => simp only [List.map_cons, List.sum_cons, ih]; ring

theorem sum_lin_map {α : Type} (l : List α) (f : α → ℝ) (c d : ℝ) : (l.map fun p => c * f p + d).sum = c * (l.map f).sum + l.length * d := by
  induction l with
  | nil => simp
  | cons x t ih => simp only [List.map_cons, List.sum_cons, ih, List.length_cons]; push_cast; ring

theorem exp_neg_600 : (2 : ℝ) ^ (-870 : Int) ≤ Real.exp (-600) := by
  rw [Real.exp_neg, zpow_neg]
  exact inv_anti₀ (Real.exp_pos _) exp_600

/-- **C109.** The same setting: if moreover one of the updates held is at most `600/a` seconds older than the landmark (for the default rate: eleven hours), then `GetMean`
of the snapshot is the average of the values of the updates held, each counting `exp(a ts)`, off by at most `(n 2⁻⁵⁰ + 3 (K + 1) 2⁻³⁹) M`, for `n ≤ 2⁴⁰` samples and values
of magnitude at most `M`. -/
theorem C109_mean (A : Arith) (hR : A.R = binary64) (hA : A.Lawful) (hE : GoodExp A.exp) (size : Int) (hsz : 1 ≤ size) (a : ℚ) (ha : 0 ≤ a) (time tick : Int)
    (h : List Op) (tick' time' : Int) (G : Int) (hG0 : 0 ≤ G) (hG : a * (3605 + (G : ℚ) / 1000) ≤ 600) (K : ℕ) (hK : K ≤ 2 ^ 30)
    (ht : InI64 time) (hi : ∀ t ∈ readings (h ++ [.getSnapshot tick' time']), InI64 t)
    (hτ : ∀ τ ∈ tick :: ticks (h ++ [.getSnapshot tick' time']), InI64 (τ + 3600000000000) ∧ τ ≤ tick + K * 3600000000000)
    (hc : (time :: readings (h ++ [.getSnapshot tick' time'])).IsChain fun s t => s ≤ t ∧ t ≤ s + G)
    (hag : Agree tick time (h ++ [.getSnapshot tick' time'])) (hu : ∀ u ∈ draws h, IsDraw u) (hn : (h.length : Int) + 1 < 9223372036854775808)
    (M : Int) (hM : 1 ≤ M) (hM' : M ≤ 2 ^ 63) (hv : ∀ e ∈ recs h, |e.value| ≤ M) (cp : List WeightedSample)
    (hcp : WeightedSnapshot.IsSorted (afterSnapshot A (run A (new size (.fin a) time tick) h) tick' time').getValues cp)
    (hlen : (afterSnapshot A (run A (new size (.fin a) time tick) h) tick' time').getValues.length ≤ 2 ^ 40) :
    let r' := afterSnapshot A (run A (new size (.fin a) time tick) h) tick' time'
    let snap := getSnapshot A (run A (new size (.fin a) time tick) h) tick' time' cp
    ∃ held : List Rec, held.Subperm (recs h) ∧ r'.getValues.map (·.value) = held.map (·.value) ∧
      ((∃ e ∈ held, a * (r'.startTime - e.ts) ≤ 600) → ∃ m : ℚ, snap.getMean A.R = .ok (.fin m) ∧
        |(m : ℝ) - (held.map fun e => (e.value : ℝ) * Real.exp (a * e.ts)).sum / (held.map fun e => Real.exp (a * e.ts)).sum| ≤
          (held.length * 2 ^ (-50 : Int) + 3 * (K + 1) * 2 ^ (-39 : Int)) * M) := by
  intro r' snap
  obtain ⟨l, h1, h2, h3⟩ := snapshot_matched ⟨hR, hA, hE, ha, hsz, hG, hG0, hK⟩ h tick' time' ht (hτ tick (by simp)).1 hn
    ⟨hi, hc, hag, fun τ h => hτ τ (List.mem_cons_of_mem _ h)⟩ hu
  have h1' : r'.getValues = l.map Prod.fst := h1
  refine ⟨l.map Prod.snd, h2, ?_, ?_⟩
  · rw [h1', List.map_map, List.map_map]
    exact List.map_congr_left fun p hp => (h3 p hp).1.1
  rintro ⟨e, he, hrec⟩
  obtain ⟨p0, hp0, rfl⟩ := List.mem_map.1 he
  have hlen' : l.length ≤ 2 ^ 40 := by
    have : r'.getValues.length ≤ 2 ^ 40 := hlen
    rw [h1', List.length_map] at this
    exact this
  -- the weights
  set L := r'.startTime with hL
  have hwt : ∀ p ∈ l, p.1.weight = .fin (WeightedSnapshot.wt p.1) ∧ 0 ≤ WeightedSnapshot.wt p.1 ∧
      |(WeightedSnapshot.wt p.1 : ℝ) - Real.exp (a * (p.2.ts - L))| ≤ (K + 1) * 2 ^ (-40 : Int) * Real.exp (a * (p.2.ts - L)) + K * 2 ^ (-1074 : Int) := by
    intro p hp
    obtain ⟨⟨-, w, e1, e2, e3⟩, -⟩ := h3 p hp
    have : WeightedSnapshot.wt p.1 = w := by unfold WeightedSnapshot.wt; rw [e1]
    rw [this]
    exact ⟨e1, e2, e3⟩
  set W : WeightedSample × Rec → ℝ := fun p => Real.exp (a * (p.2.ts - L)) with hW
  set w : WeightedSample × Rec → ℝ := fun p => (WeightedSnapshot.wt p.1 : ℝ) with hw
  have hWpos : ∀ p, 0 < W p := fun p => Real.exp_pos _
  have hWtop : ∀ p ∈ l, W p ≤ 2 ^ (870 : Int) := by
    intro p hp
    refine le_trans (Real.exp_le_exp.2 ?_) exp_600
    exact_mod_cast (h3 p hp).2
  have hW0 : (2 : ℝ) ^ (-870 : Int) ≤ (l.map W).sum := by
    refine le_trans (exp_neg_600.trans ?_) (List.single_le_sum (l := l.map W) (by
      intro x hx
      obtain ⟨p, -, rfl⟩ := List.mem_map.1 hx
      exact (hWpos p).le) (W p0) (List.mem_map_of_mem hp0))
    apply Real.exp_le_exp.2
    have : (a : ℝ) * (L - p0.2.ts) ≤ 600 := by exact_mod_cast hrec
    linarith
  have hWs : 0 < (l.map W).sum := lt_of_lt_of_le (by positivity) hW0
  -- sums of the deviations
  have hKr : (K : ℝ) ≤ 2 ^ 30 := by exact_mod_cast hK
  have hnr : (l.length : ℝ) ≤ 2 ^ 40 := by exact_mod_cast hlen'
  have hD : (l.map fun p => |w p - W p|).sum ≤ (K + 1) * 2 ^ (-40 : Int) * (l.map W).sum + l.length * (K * 2 ^ (-1074 : Int)) := by
    refine (List.sum_le_sum fun p hp => (hwt p hp).2.2).trans (le_of_eq ?_)
    exact sum_lin_map l W _ _
  have hSW : (l.map W).sum - (l.map fun p => |w p - W p|).sum ≤ (l.map w).sum := by
    have := abs_sum_le l fun p => w p - W p
    rw [show (l.map fun p => w p - W p).sum = (l.map w).sum - (l.map W).sum from sum_sub_map l w W] at this
    have := (abs_le.1 this).1
    generalize (l.map fun p => |w p - W p|).sum = D at *
    clear hD
    generalize (l.map w).sum = x at *
    generalize (l.map W).sum = y at *
    clear hW0
    linarith
  have hSW2 : (l.map w).sum ≤ (l.map W).sum + (l.map fun p => |w p - W p|).sum := by
    have := abs_sum_le l fun p => w p - W p
    rw [show (l.map fun p => w p - W p).sum = (l.map w).sum - (l.map W).sum from sum_sub_map l w W] at this
    have := (abs_le.1 this).2
    generalize (l.map fun p => |w p - W p|).sum = D at *
    clear hD
    generalize (l.map w).sum = x at *
    generalize (l.map W).sum = y at *
    clear hW0
    linarith
  have hKε : ((K : ℝ) + 2) * 2 ^ (-40 : Int) ≤ 1 / 3 := by
    have : ((K : ℝ) + 2) * 2 ^ (-40 : Int) ≤ (2 ^ 30 + 2) * 2 ^ (-40 : Int) := mul_le_mul_of_nonneg_right (by clear hW0 hD; linarith) (by positivity)
    exact this.trans (by norm_num)
  have hκ : (l.length : ℝ) * (K * 2 ^ (-1074 : Int)) ≤ 2 ^ (-40 : Int) * (l.map W).sum := by
    have e1 : (l.length : ℝ) * (K * 2 ^ (-1074 : Int)) ≤ 2 ^ (40 : Int) * (2 ^ (30 : Int) * 2 ^ (-1074 : Int)) := by
      apply mul_le_mul
      · exact_mod_cast hnr
      · exact mul_le_mul_of_nonneg_right (by exact_mod_cast hKr) (by positivity)
      · positivity
      · positivity
    have e2 : (2 : ℝ) ^ (40 : Int) * (2 ^ (30 : Int) * 2 ^ (-1074 : Int)) = 2 ^ (-1004 : Int) := by
      rw [← zpow_add₀ (by norm_num), ← zpow_add₀ (by norm_num)]; congr 1
    have e3 : (2 : ℝ) ^ (-1004 : Int) ≤ 2 ^ (-40 : Int) * 2 ^ (-870 : Int) := by
      rw [← zpow_add₀ (by norm_num)]; exact zpow_le_zpow_right₀ (by norm_num) (by norm_num)
    exact e1.trans (e2.le.trans (e3.trans (mul_le_mul_of_nonneg_left hW0 (by positivity))))
  have hK0 : (0 : ℝ) ≤ K := Nat.cast_nonneg K
  have hDW : (l.map fun p => |w p - W p|).sum ≤ 1 / 3 * (l.map W).sum := by
    refine hD.trans ((add_le_add_right hκ _).trans ?_)
    rw [← add_mul, show ((K : ℝ) + 1) * 2 ^ (-40 : Int) + 2 ^ (-40 : Int) = (K + 2) * 2 ^ (-40 : Int) by ring]
    exact mul_le_mul_of_nonneg_right hKε hWs.le
  have hS0 : (2 : ℝ) ^ (-990 : Int) ≤ (l.map w).sum := by
    have e1 : (2 : ℝ) ^ (-990 : Int) ≤ 2 ^ (-1 : Int) * 2 ^ (-870 : Int) := by
      rw [← zpow_add₀ (by norm_num)]; exact zpow_le_zpow_right₀ (by norm_num) (by norm_num)
    refine e1.trans ((mul_le_mul_of_nonneg_left hW0 (by positivity)).trans ?_)
    generalize (l.map fun p => |w p - W p|).sum = D at *
    clear hD hκ
    generalize (l.map w).sum = x at *
    generalize (l.map W).sum = y at *
    clear hW0 e1
    norm_num
    linarith
  have hS1 : (l.map w).sum ≤ 2 ^ (990 : Int) := by
    have e1 : (l.map W).sum ≤ 2 ^ (40 : Int) * 2 ^ (870 : Int) := by
      refine (List.sum_le_sum hWtop).trans ?_
      simp only [List.map_const', List.sum_replicate, nsmul_eq_mul]
      exact mul_le_mul_of_nonneg_right (by exact_mod_cast hnr) (by positivity)
    have e2 : (2 : ℝ) ^ (1 : Int) * (2 ^ (40 : Int) * 2 ^ (870 : Int)) ≤ 2 ^ (990 : Int) := by
      rw [← zpow_add₀ (by norm_num), ← zpow_add₀ (by norm_num)]; exact zpow_le_zpow_right₀ (by norm_num) (by norm_num)
    refine le_trans ?_ ((mul_le_mul_of_nonneg_left e1 (by positivity)).trans e2)
    generalize (l.map fun p => |w p - W p|).sum = D at *
    clear hD hκ hS0
    generalize (l.map w).sum = x at *
    generalize (l.map W).sum = y at *
    clear hW0 e1 e2
    norm_num
    linarith
  have hwsum : (((l.map Prod.fst).map WeightedSnapshot.wt).sum : ℝ) = (l.map w).sum := by
    rw [List.map_map, Rat.cast_list_sum, List.map_map]; rfl
  have htot : ((Spec.totalWeight (WeightedSnapshot.pairs r'.getValues) : ℚ) : ℝ) = (l.map w).sum := by
    rw [WeightedSnapshot.total_pairs, h1', hwsum]
  have hSp : 0 < (l.map w).sum := lt_of_lt_of_le (by positivity) hS0
  have hne : r'.getValues ≠ [] := by
    rw [h1']; intro h0
    rw [List.map_eq_nil_iff.1 h0] at hp0
    simp at hp0
  have hvals : ∀ p ∈ l, |p.1.value| ≤ M := by
    intro p hp
    rw [(h3 p hp).1.1]
    exact hv _ (h2.subset (List.mem_map_of_mem hp))
  obtain ⟨m, hm, herr⟩ := C93_weighted_mean r'.getValues cp hcp hne hlen
    (by
      rw [h1']
      intro s hs
      obtain ⟨p, hp, rfl⟩ := List.mem_map.1 hs
      exact ⟨_, (hwt p hp).1, (hwt p hp).2.1⟩)
    (by
      refine (Rat.cast_le (K := ℝ)).1 ?_
      rw [htot, Rat.cast_zpow, Rat.cast_ofNat]
      exact hS0)
    (by
      refine (Rat.cast_le (K := ℝ)).1 ?_
      rw [htot, Rat.cast_zpow, Rat.cast_ofNat]
      exact hS1) M hM hM'
    (by
      rw [h1']
      intro s hs
      obtain ⟨p, hp, rfl⟩ := List.mem_map.1 hs
      exact hvals p hp)
  refine ⟨m, ?_, ?_⟩
  · show WeightedSnapshot.getMean A.R (WeightedSnapshot.new A.R r'.getValues cp) = _
    rw [hR]; exact hm
  · -- from the computed weights to the exact ones
    have hmeanw : ((Spec.weightedMean (WeightedSnapshot.pairs r'.getValues) : ℚ) : ℝ) = (l.map fun p => (p.2.value : ℝ) * w p).sum / (l.map w).sum := by
      unfold Spec.weightedMean
      rw [Rat.cast_div, htot]
      congr 1
      rw [h1']
      unfold WeightedSnapshot.pairs
      rw [List.map_map, List.map_map, Rat.cast_list_sum, List.map_map]
      refine congrArg List.sum (List.map_congr_left fun p hp => ?_)
      simp only [Function.comp, Rat.cast_mul, Rat.cast_intCast, (h3 p hp).1.1]
      rfl
    have hshift := mean_shift l (fun p => (p.2.value : ℝ)) w W (M := (M : ℝ)) (D := (l.map fun p => |w p - W p|).sum) (Sw := (l.map w).sum)
      (by
        intro p hp
        have := hvals p hp
        rw [(h3 p hp).1.1] at this
        exact_mod_cast this) (fun p _ => (hWpos p).le) hWs rfl hSp le_rfl
    have hMr : (0 : ℝ) ≤ M := by exact_mod_cast (by omega : 0 ≤ M)
    have hnum := mean_numbers (n := l.length) (K := K) (ε := 2 ^ (-40 : Int)) (κ := K * 2 ^ (-1074 : Int)) (M := (M : ℝ)) (Nat.cast_nonneg _) hSp hMr hD hκ hSW hK0
      (by positivity) hKε hWs
    have hideal : (l.map fun p => (p.2.value : ℝ) * W p).sum / (l.map W).sum =
        ((l.map Prod.snd).map fun e => (e.value : ℝ) * Real.exp (a * e.ts)).sum / ((l.map Prod.snd).map fun e => Real.exp (a * e.ts)).sum := by
      have hE0 : Real.exp (-(a * L)) ≠ 0 := (Real.exp_pos _).ne'
      have hsplit : ∀ p, W p = Real.exp (a * p.2.ts) * Real.exp (-(a * L)) := by
        intro p
        rw [← Real.exp_add]
        show Real.exp (a * (p.2.ts - L)) = _
        rw [mul_sub, sub_eq_add_neg]
      symm
      rw [List.map_map, List.map_map, ← mul_div_mul_right _ _ hE0, ← List.sum_map_mul_right, ← List.sum_map_mul_right]
      congr 1
      · refine congrArg List.sum (List.map_congr_left fun p _ => ?_)
        simp only [Function.comp, hsplit]; ring
      · refine congrArg List.sum (List.map_congr_left fun p _ => ?_)
        simp only [Function.comp, hsplit]
    rw [← hideal, List.length_map]
    have herrR : |(m : ℝ) - (l.map fun p => (p.2.value : ℝ) * w p).sum / (l.map w).sum| ≤ l.length * 2 ^ (-50 : Int) * M := by
      rw [← hmeanw, h1']
      have := (Rat.cast_le (K := ℝ)).2 herr
      simp only [Rat.cast_abs, Rat.cast_sub, Rat.cast_mul, Rat.cast_zpow, Rat.cast_ofNat, Rat.cast_natCast, Rat.cast_intCast] at this
      rw [h1', List.length_map] at this
      exact this
    have hfin := hshift.trans hnum
    clear hshift hnum hD hκ hSW hSW2 hS0 hS1 hW0 hWtop hDW hKε hτ
    generalize (l.map fun p => (p.2.value : ℝ) * w p).sum / (l.map w).sum = x at *
    generalize (l.map fun p => (p.2.value : ℝ) * W p).sum / (l.map W).sum = y at *
    have e : (m : ℝ) - y = (m - x) + (x - y) := by ring
    rw [e, add_mul]
    refine (abs_add_le _ _).trans (add_le_add herrR (hfin.trans (le_of_eq ?_)))
    rw [show (2 : ℝ) ^ (-39 : Int) = 2 * 2 ^ (-40 : Int) by norm_num]
    ring

/-! ## The hypotheses are met -/

theorem near_exp (x : ℚ) : ∃ q : ℚ, 0 < q ∧ |(q : ℝ) - Real.exp x| ≤ 2 ^ (-60 : Int) * Real.exp x ∧ (x ≤ 0 → q ≤ 1) ∧ (0 ≤ x → 1 ≤ q) := by
  have hp := Real.exp_pos (x : ℝ)
  have hc : (0 : ℝ) < 2 ^ (-60 : Int) ∧ (2 : ℝ) ^ (-60 : Int) ≤ 1 / 2 := by constructor <;> norm_num
  generalize (2 : ℝ) ^ (-60 : Int) = c at *
  rcases le_total x 0 with h | h
  · have h1 : Real.exp x ≤ 1 := Real.exp_le_one_iff.2 (by exact_mod_cast h)
    rcases eq_or_lt_of_le h with rfl | hlt
    · refine ⟨1, by norm_num, ?_, by simp, by simp⟩
      simp [hc.1.le]
    · obtain ⟨q, q1, q2⟩ := exists_rat_btwn (show Real.exp x * (1 - c) < Real.exp x by nlinarith)
      refine ⟨q, ?_, ?_, fun _ => ?_, fun h0 => absurd h0 (not_le.2 hlt)⟩
      · have : (0 : ℝ) < q := lt_of_le_of_lt (by nlinarith) q1
        exact_mod_cast this
      · rw [abs_le]; constructor <;> nlinarith
      · have : (q : ℝ) ≤ 1 := q2.le.trans h1
        exact_mod_cast this
  · have h1 : 1 ≤ Real.exp x := Real.one_le_exp (by exact_mod_cast h)
    rcases eq_or_lt_of_le h with h0 | hlt
    · subst h0
      refine ⟨1, by norm_num, ?_, by simp, by simp⟩
      simp [hc.1.le]
    · obtain ⟨q, q1, q2⟩ := exists_rat_btwn (show Real.exp x < Real.exp x * (1 + c) by nlinarith)
      refine ⟨q, ?_, ?_, fun h0 => absurd h0 (not_le.2 hlt), fun _ => ?_⟩
      · have : (0 : ℝ) < q := hp.trans q1
        exact_mod_cast this
      · rw [abs_le]; constructor <;> nlinarith
      · have : (1 : ℝ) ≤ q := h1.trans q1.le
        exact_mod_cast this

/-- binary64 with an exponential that is accurate for moderate arguments (`good_lawful`, `good_exp`): a rational close to the exact value, rounded. -/
noncomputable def good : Arith where
  R := .binary64
  exp x := match x with
    | .nan => .nan
    | .inf true => .fin 0
    | .inf false => .inf false
    | .fin q => Rounding.binary64.rnd (near_exp q).choose

theorem good_lawful : good.Lawful where
  rnd := binary64_lawful
  ints := binary64_i64
  nonneg x := by
    rcases x with _ | s | q
    · exact F64.nonNeg_nan
    · cases s
      · exact F64.nonNeg_inf
      · exact F64.nonNeg_fin le_rfl
    · exact F64.nonNeg_rnd binary64_lawful (near_exp q).choose_spec.1.le
  not_nan x hx := by
    rcases x with _ | s | q
    · exact absurd rfl hx
    · cases s <;> simp [good]
    · exact binary64_lawful.not_nan _
  le_one x hx := by
    rcases x with _ | s | q
    · simp [F64.le] at hx
    · cases s
      · simp [F64.le] at hx
      · simp [good, F64.le]
    · have hq : q ≤ 0 := hx
      have := binary64_lawful.mono _ 1 ((near_exp q).choose_spec.2.2.1 hq)
      rwa [binary64_one] at this
  one_le x hx := by
    rcases x with _ | s | q
    · simp [F64.le] at hx
    · cases s
      · simp [good, F64.le]
      · simp [F64.le] at hx
    · have hq : 0 ≤ q := hx
      have := binary64_lawful.mono 1 _ ((near_exp q).choose_spec.2.2.2 hq)
      rwa [binary64_one] at this

theorem exp_650 : Real.exp 650 ≤ 2 ^ (957 : Int) ∧ (2 : ℝ) ^ (-957 : Int) ≤ Real.exp (-650) := by
  have h1 : Real.exp 1 ≤ 2.72 := Real.exp_one_lt_d9.le.trans (by norm_num)
  have h2 : Real.exp 20 ≤ 2 ^ 29 := by
    have : Real.exp 20 = Real.exp 1 ^ 20 := by rw [← Real.exp_nat_mul]; norm_num
    rw [this]
    exact (pow_le_pow_left₀ (Real.exp_pos 1).le h1 20).trans (by norm_num)
  have h3 : Real.exp 660 = Real.exp 20 ^ 33 := by rw [← Real.exp_nat_mul]; norm_num
  have h4 : ((2 : ℝ) ^ 29) ^ 33 = 2 ^ (957 : Int) := by
    rw [← pow_mul, show (957 : Int) = ((29 * 33 : ℕ) : Int) by norm_num, zpow_natCast]
  have h5 : Real.exp 650 ≤ 2 ^ (957 : Int) := by
    refine le_trans (Real.exp_le_exp.2 (by norm_num : (650 : ℝ) ≤ 660)) ?_
    rw [h3, ← h4]
    exact pow_le_pow_left₀ (Real.exp_pos 20).le h2 33
  refine ⟨h5, ?_⟩
  rw [Real.exp_neg, zpow_neg]
  exact inv_anti₀ (Real.exp_pos _) h5

theorem good_numbers {r q E u c η : ℝ} (hE : 0 < E) (hq : |q - E| ≤ c * E) (hr : |r - q| ≤ u * q + η) (hη : η ≤ c * E) (hu : 0 ≤ u) (hc : 0 ≤ c) (hc1 : c ≤ 1)
    (huc : 2 * c + u * c ≤ u) : |r - E| ≤ 2 * u * E := by
  have e : r - E = (r - q) + (q - E) := by ring
  rw [e]
  refine (abs_add_le _ _).trans ?_
  have h1 : q ≤ (1 + c) * E := by have := (abs_le.1 hq).2; linarith
  have h2 : u * q ≤ u * ((1 + c) * E) := mul_le_mul_of_nonneg_left h1 hu
  have h3 : (2 * c + u * c) * E ≤ u * E := mul_le_mul_of_nonneg_right huc hE.le
  nlinarith

theorem good_exp : GoodExp good.exp := by
  intro x _ hx
  obtain ⟨hq0, hq, -, -⟩ := (near_exp x).choose_spec
  have hdef : good.exp (.fin x) = binary64.rnd (near_exp x).choose := rfl
  rw [hdef]
  generalize (near_exp x).choose = q at *
  have hE := Real.exp_pos (x : ℝ)
  have hxa := abs_le.1 hx
  have hlo : (2 : ℝ) ^ (-957 : Int) ≤ Real.exp x := exp_650.2.trans (Real.exp_le_exp.2 (by exact_mod_cast hxa.1))
  have hhi : Real.exp x ≤ 2 ^ (957 : Int) := (Real.exp_le_exp.2 (by exact_mod_cast hxa.2)).trans exp_650.1
  have hq1 : q ≤ 2 ^ (1000 : Int) := by
    refine (Rat.cast_le (K := ℝ)).1 ?_
    rw [Rat.cast_zpow, Rat.cast_ofNat]
    have h1 : (q : ℝ) ≤ 2 ^ (1 : Int) * Real.exp x := by
      have := (abs_le.1 hq).2
      have h2 : (2 : ℝ) ^ (-60 : Int) * Real.exp x ≤ 1 * Real.exp x := mul_le_mul_of_nonneg_right (by norm_num) hE.le
      clear hlo hhi hdef
      generalize Real.exp (x : ℝ) = E at *
      generalize (2 : ℝ) ^ (-60 : Int) = c at *
      norm_num
      linarith
    refine h1.trans ((mul_le_mul_of_nonneg_left hhi (by positivity)).trans ?_)
    rw [← zpow_add₀ (by norm_num)]; exact zpow_le_zpow_right₀ (by norm_num) (by norm_num)
  obtain ⟨r, er, -, hr⟩ := rnd_near hq0.le hq1
  refine ⟨r, er, ?_⟩
  have hrR : |(r : ℝ) - q| ≤ 2 ^ (-53 : Int) * q + 2 ^ (-1075 : Int) := by
    have := (Rat.cast_le (K := ℝ)).2 hr
    simp only [Rat.cast_abs, Rat.cast_sub, Rat.cast_add, Rat.cast_mul, Rat.cast_zpow, Rat.cast_ofNat] at this
    exact this
  have hη : (2 : ℝ) ^ (-1075 : Int) ≤ 2 ^ (-60 : Int) * Real.exp x := by
    refine le_trans ?_ (mul_le_mul_of_nonneg_left hlo (by positivity))
    rw [← zpow_add₀ (by norm_num)]; exact zpow_le_zpow_right₀ (by norm_num) (by norm_num)
  have := good_numbers hE hq hrR hη (by positivity) (by positivity) (by norm_num) (by norm_num)
  rw [show (2 : ℝ) ^ (-52 : Int) = 2 * 2 ^ (-53 : Int) by norm_num]
  exact this

/-- Two updates, an hour and 20 minutes apart, and a snapshot half an hour later. -/
def hourly : List Op := [.updateN ⟨1000000000, 1001, 1002, .fin (1 / 2)⟩ 7, .updateN ⟨4800000000000, 4800300, 4800301, .fin (1 / 4)⟩ 9]

/-- The hypotheses of C109 are met: the default rate, pauses of up to ten hours. -/
example : good.R = binary64 ∧ good.Lawful ∧ GoodExp good.exp ∧ (3 / 200 : ℚ) * (3605 + ((36000000 : Int) : ℚ) / 1000) ≤ 600 ∧
    (∀ t ∈ readings (hourly ++ [.getSnapshot 6600000000000 6600000]), InI64 t) ∧
    (∀ τ ∈ (0 : Int) :: ticks (hourly ++ [.getSnapshot 6600000000000 6600000]), InI64 (τ + 3600000000000) ∧ τ ≤ 0 + ((2 : ℕ) : Int) * 3600000000000) ∧
    ((0 : Int) :: readings (hourly ++ [.getSnapshot 6600000000000 6600000])).IsChain (fun s t => s ≤ t ∧ t ≤ s + 36000000) ∧
    Agree 0 0 (hourly ++ [.getSnapshot 6600000000000 6600000]) ∧ (∀ u ∈ draws hourly, IsDraw u) ∧ (∀ e ∈ recs hourly, |e.value| ≤ 9) := by
  refine ⟨rfl, good_lawful, good_exp, by norm_num, by decide, by decide, ?_, by unfold Agree; decide, ?_, by decide⟩
  · simp only [readings, hourly, List.cons_append, List.nil_append, List.isChain_cons_cons]
    norm_num
  · simp only [draws, hourly, List.mem_cons, List.not_mem_nil, or_false, forall_eq_or_imp, forall_eq]
    exact ⟨⟨1 / 2, rfl, by norm_num, by norm_num⟩, 1 / 4, rfl, by norm_num, by norm_num⟩

end EDR
end GoMetrics
