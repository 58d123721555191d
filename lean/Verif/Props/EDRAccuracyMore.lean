import Verif.Proofs.EDRHeld
/-! # C109: percentiles and standard deviation of a decaying reservoir in binary64 -/
namespace GoMetrics
open Rounding
namespace EDR

theorem perm_lift {α β : Type} (f : α → β) {c m : List β} (h : c.Perm m) : ∀ l : List α, m = l.map f → ∃ l' : List α, l'.Perm l ∧ l'.map f = c := by
  induction h with
  | nil => intro l e; exact ⟨[], by rw [List.map_eq_nil_iff.1 e.symm], rfl⟩
  | cons x _ ih =>
    intro l e
    obtain ⟨p, t, rfl, rfl, rfl⟩ := List.map_eq_cons_iff.1 e.symm
    obtain ⟨l', h1, h2⟩ := ih t rfl
    exact ⟨p :: l', h1.cons p, by rw [List.map_cons, h2]⟩
  | swap x y _ =>
    intro l e
    obtain ⟨p, t, rfl, rfl, e'⟩ := List.map_eq_cons_iff.1 e.symm
    obtain ⟨q, t', rfl, rfl, rfl⟩ := List.map_eq_cons_iff.1 e'
    exact ⟨q :: p :: t', List.Perm.swap _ _ _, rfl⟩
  | trans _ _ ih1 ih2 =>
    intro l e
    obtain ⟨l2, h1, h2⟩ := ih2 l e
    obtain ⟨l1, h3, h4⟩ := ih1 l2 h2.symm
    exact ⟨l1, h3.trans h1, h4⟩

theorem subperm_of_perm_map {l l' : List (WeightedSample × Rec)} (hp : l'.Perm l) {r : List Rec} (h : (l.map Prod.snd).Subperm r) : (l'.map Prod.snd).Subperm r :=
  (hp.map Prod.snd).subperm.trans h

/-- The numbers behind `C109_percentile`. -/
theorem percentile_numbers {c ν ε W S P p D : ℝ} (hc0 : 0 ≤ c) (hc1 : c ≤ 1) (hν0 : 0 ≤ ν) (hν1 : ν ≤ 1) (hD : D ≤ ε * W) (hD0 : 0 ≤ D) (hS : |S - W| ≤ D) (hp : |p - P| ≤ D) :
    (p ≤ (c + ν) * S → P ≤ (c + ν + 3 * ε) * W) ∧ ((c - ν) * S ≤ p → (c - ν - 3 * ε) * W ≤ P) := by
  have s1 := (abs_le.1 hS).1
  have s2 := (abs_le.1 hS).2
  have p1 := (abs_le.1 hp).1
  have p2 := (abs_le.1 hp).2
  constructor
  · intro h
    have h1 : (c + ν) * S ≤ (c + ν) * (W + D) := mul_le_mul_of_nonneg_left (by linarith) (by linarith)
    have h2 : (c + ν) * D ≤ 2 * D := mul_le_mul_of_nonneg_right (by linarith) hD0
    nlinarith
  · intro h
    have h1 : |(c - ν) * (S - W)| ≤ 1 * D := by
      rw [abs_mul]
      exact mul_le_mul (abs_le.2 ⟨by linarith, by linarith⟩) hS (abs_nonneg _) (by norm_num)
    have h2 := (abs_le.1 h1).1
    nlinarith

/-- **C109.** The setting of `C109_weights`, `n ≤ 2⁴⁰` samples. The snapshot is made of different updates of the history, in ascending order of their values. If one of them is at most
`600/a` seconds older than the landmark, then for every fraction `c`, rounded to a `float64`, `GetValue` returns the value of one of them such that, with the exact weights `exp(a ts)`, those sorted before it have
at most the fraction `c` of the total weight and those up to and including it at least that - up to `n 2⁻⁵⁰ + 3 (K + 1) 2⁻³⁹`. -/
theorem C109_percentile (A : Arith) (hR : A.R = binary64) (hA : A.Lawful) (hE : GoodExp A.exp) (size : Int) (hsz : 1 ≤ size) (a : ℚ) (ha : 0 ≤ a) (time tick : Int)
    (h : List Op) (tick' time' : Int) (G : Int) (hG0 : 0 ≤ G) (hG : a * (3605 + (G : ℚ) / 1000) ≤ 600) (K : ℕ) (hK : K ≤ 2 ^ 30)
    (ht : InI64 time) (hi : ∀ t ∈ readings (h ++ [.getSnapshot tick' time']), InI64 t)
    (hτ : ∀ τ ∈ tick :: ticks (h ++ [.getSnapshot tick' time']), InI64 (τ + 3600000000000) ∧ τ ≤ tick + K * 3600000000000)
    (hc : (time :: readings (h ++ [.getSnapshot tick' time'])).IsChain fun s t => s ≤ t ∧ t ≤ s + G)
    (hag : Agree tick time (h ++ [.getSnapshot tick' time'])) (hu : ∀ u ∈ draws h, IsDraw u) (hn : (h.length : Int) + 1 < 9223372036854775808) (cp : List WeightedSample)
    (hcp : WeightedSnapshot.IsSorted (afterSnapshot A (run A (new size (.fin a) time tick) h) tick' time').getValues cp)
    (hlen : (afterSnapshot A (run A (new size (.fin a) time tick) h) tick' time').getValues.length ≤ 2 ^ 40) :
    let r' := afterSnapshot A (run A (new size (.fin a) time tick) h) tick' time'
    let snap := getSnapshot A (run A (new size (.fin a) time tick) h) tick' time' cp
    ∃ held : List Rec, held.Subperm (recs h) ∧ snap.getValues = held.map (·.value) ∧ held.Pairwise (fun d e => d.value ≤ e.value) ∧
      ((∃ e ∈ held, a * (r'.startTime - e.ts) ≤ 600) → ∀ c : ℚ, 0 ≤ c → c ≤ 1 → ∃ (k : Nat) (hk : k < held.length),
        snap.getValue A.R (A.R.rnd c) = .ok (F64.ofInt A.R held[k].value) ∧
        decayedTotal a (held.take k) ≤ (c + held.length * 2 ^ (-50 : Int) + 3 * (K + 1) * 2 ^ (-39 : Int)) * decayedTotal a held ∧
        (c - held.length * 2 ^ (-50 : Int) - 3 * (K + 1) * 2 ^ (-39 : Int)) * decayedTotal a held ≤ decayedTotal a (held.take (k + 1))) := by
  intro r' snap
  obtain ⟨l0, h1, h2, h3⟩ := snapshot_matched ⟨hR, hA, hE, ha, hsz, hG, hG0, hK⟩ h tick' time' ht (hτ tick (by simp)).1 hn
    ⟨hi, hc, hag, fun τ h => hτ τ (List.mem_cons_of_mem _ h)⟩ hu
  have h1' : r'.getValues = l0.map Prod.fst := h1
  obtain ⟨l, hl, hlc⟩ := perm_lift Prod.fst hcp.1 l0 h1'
  have hnear : ∀ p ∈ l, Near a r'.startTime K p.1 p.2 ∧ a * (p.2.ts - r'.startTime) ≤ 600 := fun p hp => h3 p (hl.subset hp)
  have hlen0 : r'.getValues.length ≤ 2 ^ 40 := hlen
  have hll : l.length = r'.getValues.length := by rw [h1', List.length_map]; exact hl.length_eq
  have hvals : cp.map (·.value) = (l.map Prod.snd).map (·.value) := by
    rw [← hlc, List.map_map, List.map_map]
    exact List.map_congr_left fun p hp => (hnear p hp).1.1
  refine ⟨l.map Prod.snd, subperm_of_perm_map hl h2, ?_, ?_, ?_⟩
  · show (WeightedSnapshot.new A.R r'.getValues cp).getValues = _
    rw [← hvals]
    by_cases hne : r'.getValues.length = 0
    · have : cp = [] := List.length_eq_zero_iff.1 (hcp.1.length_eq.trans hne)
      subst this
      unfold WeightedSnapshot.new WeightedSnapshot.getValues
      rw [if_pos hne]; rfl
    · unfold WeightedSnapshot.new WeightedSnapshot.getValues
      rw [if_neg hne]
  · have h5 : (cp.map (·.value)).Pairwise (· ≤ ·) := List.pairwise_map.2 hcp.2
    rw [hvals] at h5
    exact List.pairwise_map.1 h5
  rintro ⟨e, he, hrec⟩ c hc0 hc1
  obtain ⟨p0, hp0, rfl⟩ := List.mem_map.1 he
  have H : Held a r'.startTime K l := ⟨fun p hp => (hnear p hp).1, fun p hp => (hnear p hp).2, by omega, hK, p0, hp0, hrec⟩
  have hne : r'.getValues ≠ [] := by
    intro h0
    rw [h0] at hll
    rw [List.length_eq_zero_iff.1 hll] at hp0
    simp at hp0
  have H0 : Held a r'.startTime K l0 := H.perm hl.symm
  obtain ⟨u1, u2, u3⟩ := H0.usable
  rw [← h1'] at u1 u2 u3
  obtain ⟨k, hk, g1, g2, g3⟩ := C94_weighted r'.getValues cp hcp hne hlen u1 u2 u3 c hc0 hc1
  have hkl : k < l.length := by rw [← hlc, List.length_map] at hk; exact hk
  refine ⟨k, by rw [List.length_map]; exact hkl, ?_, ?_⟩
  · show (WeightedSnapshot.new A.R r'.getValues cp).getValue A.R (A.R.rnd c) = _
    rw [hR, g1]
    have : cp[k].value = ((l.map Prod.snd)[k]'(by rw [List.length_map]; exact hkl)).value := by
      have e1 : (cp.map (·.value))[k]? = ((l.map Prod.snd).map (·.value))[k]? := by rw [hvals]
      rw [List.getElem?_eq_getElem (by rw [List.length_map]; exact hk), List.getElem?_eq_getElem (by simpa using hkl)] at e1
      have e2 := Option.some.inj e1
      rw [List.getElem_map, List.getElem_map (f := fun x : Rec => x.value)] at e2
      exact e2
    rw [this]
  · have hE := Real.exp_pos (-((a : ℝ) * r'.startTime))
    have hN : r'.getValues.length = l.length := hll.symm
    have cast : ∀ j, ((Spec.totalWeight (WeightedSnapshot.pairs (cp.take j)) : ℚ) : ℝ) = ((l.take j).map compWt).sum := by
      intro j
      rw [← hlc, ← List.map_take, total_cast]
    have castT : ((Spec.totalWeight (WeightedSnapshot.pairs r'.getValues) : ℚ) : ℝ) = (l.map compWt).sum := by
      rw [h1', total_cast]
      exact (hl.map compWt).sum_eq.symm
    have g2' := (Rat.cast_le (K := ℝ)).2 g2
    have g3' := (Rat.cast_le (K := ℝ)).2 g3
    rw [Rat.cast_mul, cast, castT, hN] at g2' g3'
    simp only [Rat.cast_add, Rat.cast_sub, Rat.cast_mul, Rat.cast_zpow, Rat.cast_ofNat, Rat.cast_natCast] at g2' g3'
    have hν1 : (l.length : ℝ) * 2 ^ (-50 : Int) ≤ 1 := by
      have : (l.length : ℝ) ≤ 2 ^ 40 := by exact_mod_cast (by omega : l.length ≤ 2 ^ 40)
      refine (mul_le_mul_of_nonneg_right this (by positivity)).trans (by norm_num)
    have hc0' : (0 : ℝ) ≤ c := by exact_mod_cast hc0
    have hc1' : (c : ℝ) ≤ 1 := by exact_mod_cast hc1
    have key := fun j => percentile_numbers (p := ((l.take j).map compWt).sum) (P := ((l.take j).map (exactWt a r'.startTime)).sum) hc0' hc1'
      (by positivity : (0 : ℝ) ≤ (l.length : ℝ) * 2 ^ (-50 : Int)) hν1 H.devs_le (devs_nonneg _ _ _) (sums_close a r'.startTime l) (prefix_close a r'.startTime l j)
    have weak : 3 * (((K : ℝ) + 2) * 2 ^ (-40 : Int)) ≤ 3 * (K + 1) * 2 ^ (-39 : Int) := by
      rw [show (2 : ℝ) ^ (-39 : Int) = 2 * 2 ^ (-40 : Int) by norm_num]
      have : (0 : ℝ) ≤ K := Nat.cast_nonneg K
      have hε : (0 : ℝ) < 2 ^ (-40 : Int) := by positivity
      clear g2' g3' g2 g3 u2 u3
      generalize (2 : ℝ) ^ (-40 : Int) = ε at *
      nlinarith
    have hW := H.total_pos
    have f1 := (key k).1 g2'
    have f2 := (key (k + 1)).2 g3'
    rw [← decayedTotal_eq, ← decayedTotal_eq] at f1 f2
    rw [← decayedTotal_eq] at hW
    have hT : 0 < decayedTotal a (l.map Prod.snd) := pos_of_mul_pos_left hW hE.le
    rw [← mul_assoc] at f1 f2
    have f1 := le_of_mul_le_mul_right f1 hE
    have f2 := le_of_mul_le_mul_right f2 hE
    rw [List.length_map, ← List.map_take, ← List.map_take]
    clear g2' g3' g2 g3 u2 u3 key
    constructor
    · refine f1.trans (mul_le_mul_of_nonneg_right ?_ hT.le)
      linarith only [weak]
    · refine le_trans (mul_le_mul_of_nonneg_right ?_ hT.le) f2
      linarith only [weak]

theorem var_cast (l : List (WeightedSample × Rec)) (hv : ∀ p ∈ l, p.1.value = p.2.value) :
    ((Spec.weightedVariance (WeightedSnapshot.pairs (l.map Prod.fst)) : ℚ) : ℝ) =
      (l.map fun p => ((p.2.value : ℝ) - (l.map fun p => (p.2.value : ℝ) * compWt p).sum / (l.map compWt).sum) ^ 2 * compWt p).sum / (l.map compWt).sum := by
  have hm : ((Spec.weightedMean (WeightedSnapshot.pairs (l.map Prod.fst)) : ℚ) : ℝ) = (l.map fun p => (p.2.value : ℝ) * compWt p).sum / (l.map compWt).sum := by
    unfold Spec.weightedMean
    rw [Rat.cast_div, total_cast]
    congr 1
    unfold WeightedSnapshot.pairs
    rw [List.map_map, List.map_map, Rat.cast_list_sum, List.map_map]
    refine congrArg List.sum (List.map_congr_left fun p hp => ?_)
    simp only [Function.comp, Rat.cast_mul, Rat.cast_intCast, hv p hp]
    rfl
  unfold Spec.weightedVariance
  rw [Rat.cast_div, total_cast, ← hm]
  congr 1
  generalize Spec.weightedMean (WeightedSnapshot.pairs (l.map Prod.fst)) = m
  unfold WeightedSnapshot.pairs
  rw [List.map_map, List.map_map, Rat.cast_list_sum, List.map_map]
  refine congrArg List.sum (List.map_congr_left fun p hp => ?_)
  simp only [Function.comp, Rat.cast_mul, Rat.cast_pow, Rat.cast_sub, Rat.cast_intCast, hv p hp]
  rfl

/-- **C109.** The same setting, any `math.Sqrt` accurate to 1 ulp, values of magnitude at most `M`: if one of the updates held is at most `600/a` seconds older than the landmark, then `GetStdDev` is the
standard deviation of the values of the updates held, each counting `exp(a ts)`, off by at most `(√(8 n) 2⁻²⁴ + 3 √(2 (K + 1)) 2⁻²⁰) M`. -/
theorem C109_stddev (A : Arith) (hR : A.R = binary64) (hA : A.Lawful) (hE : GoodExp A.exp) (sqrt : F64 → F64) (hsqrt : Spec.GoodSqrt sqrt) (size : Int) (hsz : 1 ≤ size) (a : ℚ) (ha : 0 ≤ a) (time tick : Int)
    (h : List Op) (tick' time' : Int) (G : Int) (hG0 : 0 ≤ G) (hG : a * (3605 + (G : ℚ) / 1000) ≤ 600) (K : ℕ) (hK : K ≤ 2 ^ 30)
    (ht : InI64 time) (hi : ∀ t ∈ readings (h ++ [.getSnapshot tick' time']), InI64 t)
    (hτ : ∀ τ ∈ tick :: ticks (h ++ [.getSnapshot tick' time']), InI64 (τ + 3600000000000) ∧ τ ≤ tick + K * 3600000000000)
    (hc : (time :: readings (h ++ [.getSnapshot tick' time'])).IsChain fun s t => s ≤ t ∧ t ≤ s + G)
    (hag : Agree tick time (h ++ [.getSnapshot tick' time'])) (hu : ∀ u ∈ draws h, IsDraw u) (hn : (h.length : Int) + 1 < 9223372036854775808)
    (M : Int) (hM : 1 ≤ M) (hM' : M ≤ 2 ^ 63) (hv : ∀ e ∈ recs h, |e.value| ≤ M) (cp : List WeightedSample)
    (hcp : WeightedSnapshot.IsSorted (afterSnapshot A (run A (new size (.fin a) time tick) h) tick' time').getValues cp)
    (hlen : (afterSnapshot A (run A (new size (.fin a) time tick) h) tick' time').getValues.length ≤ 2 ^ 40) :
    let r' := afterSnapshot A (run A (new size (.fin a) time tick) h) tick' time'
    let snap := getSnapshot A (run A (new size (.fin a) time tick) h) tick' time' cp
    ∃ held : List Rec, held.Subperm (recs h) ∧ r'.getValues.map (·.value) = held.map (·.value) ∧
      ((∃ e ∈ held, a * (r'.startTime - e.ts) ≤ 600) → ∃ x : ℚ, snap.getStdDev A.R sqrt = .ok (.fin x) ∧
        |(x : ℝ) - Real.sqrt (decayedVariance a held)| ≤ (Real.sqrt (8 * held.length) * 2 ^ (-24 : Int) + 3 * Real.sqrt (2 * (K + 1)) * 2 ^ (-20 : Int)) * M) := by
  intro r' snap
  obtain ⟨l, h1, h2, h3⟩ := snapshot_matched ⟨hR, hA, hE, ha, hsz, hG, hG0, hK⟩ h tick' time' ht (hτ tick (by simp)).1 hn
    ⟨hi, hc, hag, fun τ h => hτ τ (List.mem_cons_of_mem _ h)⟩ hu
  have h1' : r'.getValues = l.map Prod.fst := h1
  have hnear : ∀ p ∈ l, Near a r'.startTime K p.1 p.2 ∧ a * (p.2.ts - r'.startTime) ≤ 600 := h3
  refine ⟨l.map Prod.snd, h2, ?_, ?_⟩
  · rw [h1', List.map_map, List.map_map]
    exact List.map_congr_left fun p hp => (hnear p hp).1.1
  rintro ⟨e, he, hrec⟩
  obtain ⟨p0, hp0, rfl⟩ := List.mem_map.1 he
  have hlen0 : r'.getValues.length ≤ 2 ^ 40 := hlen
  have hll : l.length = r'.getValues.length := by rw [h1', List.length_map]
  have H : Held a r'.startTime K l := ⟨fun p hp => (hnear p hp).1, fun p hp => (hnear p hp).2, by omega, hK, p0, hp0, hrec⟩
  have hMr : (0 : ℝ) ≤ M := by exact_mod_cast (by omega : 0 ≤ M)
  rw [List.length_map]
  -- the exact variance
  have hvar : decayedVariance a (l.map Prod.snd) =
      (l.map fun p => ((p.2.value : ℝ) - (l.map fun p => (p.2.value : ℝ) * exactWt a r'.startTime p).sum / (l.map (exactWt a r'.startTime)).sum) ^ 2 * exactWt a r'.startTime p).sum /
        (l.map (exactWt a r'.startTime)).sum := by
    unfold decayedVariance
    rw [average_eq a r'.startTime l fun e => ((e.value : ℝ) - decayedMean a (l.map Prod.snd)) ^ 2]
    unfold decayedMean
    rw [average_eq a r'.startTime l fun e => (e.value : ℝ)]
  have hV0 : 0 ≤ decayedVariance a (l.map Prod.snd) := by
    rw [hvar]
    apply div_nonneg _ H.total_pos.le
    apply List.sum_nonneg
    intro x hx
    obtain ⟨p, -, rfl⟩ := List.mem_map.1 hx
    exact mul_nonneg (sq_nonneg _) (exactWt_pos _ _ _).le
  by_cases hone : l.length < 2
  · -- one sample
    obtain ⟨p, rfl⟩ : ∃ p, l = [p] := by
      match l, hp0, hone with
      | [p], _, _ => exact ⟨p, rfl⟩
      | _ :: _ :: _, _, h => simp at h
    refine ⟨0, ?_, ?_⟩
    · show (WeightedSnapshot.new A.R r'.getValues cp).getStdDev A.R sqrt = _
      unfold WeightedSnapshot.getStdDev
      have := (WeightedSnapshot.length_weights A.R r'.getValues cp hcp.1.length_eq).1
      rw [if_pos (by omega)]
    · have : decayedVariance a ([p].map Prod.snd) = 0 := by
        rw [hvar]
        simp only [List.map_cons, List.map_nil, List.sum_cons, List.sum_nil, add_zero]
        rw [mul_div_cancel_right₀ _ (exactWt_pos _ _ _).ne', mul_div_cancel_right₀ _ (exactWt_pos _ _ _).ne', sub_self]
        simp
      rw [this]
      simp only [Rat.cast_zero, Real.sqrt_zero, sub_zero, abs_zero]
      positivity
  · obtain ⟨u1, u2, u3⟩ := H.usable
    rw [← h1'] at u1 u2 u3
    have hval : ∀ p ∈ l, |p.2.value| ≤ M := fun p hp => hv _ (h2.subset (List.mem_map_of_mem hp))
    obtain ⟨x, g1, g2⟩ := C93_weighted_stddev sqrt hsqrt r'.getValues cp hcp (by omega) hlen u1 u2 u3 M hM hM' (by
      rw [h1']
      intro s hs
      obtain ⟨p, hp, rfl⟩ := List.mem_map.1 hs
      rw [(hnear p hp).1.1]
      exact hval p hp)
    refine ⟨x, ?_, ?_⟩
    · show (WeightedSnapshot.new A.R r'.getValues cp).getStdDev A.R sqrt = _
      rw [hR]; exact g1
    · have hshift := var_shift l (fun p => (p.2.value : ℝ)) compWt (exactWt a r'.startTime) (M := (M : ℝ)) (fun p hp => by exact_mod_cast hval p hp)
        (fun p hp => by have := (H.wt hp).2.1; unfold compWt; exact_mod_cast this) (fun p _ => (exactWt_pos _ _ p).le) H.total_pos H.comp_pos H.rel
      rw [← var_cast l fun p hp => (hnear p hp).1.1, ← hvar, ← h1'] at hshift
      have hd := sqrt_diff (a := ((Spec.weightedVariance (WeightedSnapshot.pairs r'.getValues) : ℚ) : ℝ)) hV0
      have hs2 : Real.sqrt |((Spec.weightedVariance (WeightedSnapshot.pairs r'.getValues) : ℚ) : ℝ) - decayedVariance a (l.map Prod.snd)| ≤
          3 * Real.sqrt (2 * (K + 1)) * 2 ^ (-20 : Int) * M := by
        rw [Real.sqrt_le_left (by positivity)]
        refine hshift.trans (le_of_eq ?_)
        have e1 : (3 * Real.sqrt (2 * ((K : ℝ) + 1)) * 2 ^ (-20 : Int) * M) ^ 2 = 9 * Real.sqrt (2 * ((K : ℝ) + 1)) ^ 2 * (2 ^ (-20 : Int)) ^ 2 * (M : ℝ) ^ 2 := by ring
        rw [e1, Real.sq_sqrt (by positivity), show ((2 : ℝ) ^ (-20 : Int)) ^ 2 = 2 ^ (-40 : Int) by norm_num, show (2 : ℝ) ^ (-39 : Int) = 2 * 2 ^ (-40 : Int) by norm_num]
        ring
      rw [← hll] at g2
      clear u2 u3 hshift hτ
      generalize Real.sqrt ((Spec.weightedVariance (WeightedSnapshot.pairs r'.getValues) : ℚ) : ℝ) = y at *
      have e : (x : ℝ) - Real.sqrt (decayedVariance a (l.map Prod.snd)) = (x - y) + (y - Real.sqrt (decayedVariance a (l.map Prod.snd))) := by ring
      rw [e, add_mul]
      exact (abs_add_le _ _).trans (add_le_add g2 (hd.trans hs2))

/-- One update in the second second; the snapshot is taken two seconds later. -/
def oneUpdate : List Op := [.updateN ⟨1000000000, 1001, 1002, .fin (1 / 2)⟩ 7]

theorem oneUpdate_values : ∃ s : WeightedSample, s.value = 7 ∧ (afterSnapshot good (run good (new 5 (.fin (3 / 200)) 0 0) oneUpdate) 3000000000 3000).getValues = [s] ∧
    (afterSnapshot good (run good (new 5 (.fin (3 / 200)) 0 0) oneUpdate) 3000000000 3000).startTime = 0 := by
  have hk : (priority good (weight good (.fin (3 / 200)) 1) (.fin (1 / 2))).NonNeg := by
    unfold priority weight
    exact F64.nonNeg_div binary64_lawful (good_lawful.nonneg _) (F64.nonNeg_fin (by norm_num))
  have hr : afterSnapshot good (run good (new 5 (.fin (3 / 200)) 0 0) oneUpdate) 3000000000 3000 =
      { new 5 (.fin (3 / 200)) 0 0 with count := 1, values := [⟨priority good (weight good (.fin (3 / 200)) 1) (.fin (1 / 2)), 7, weight good (.fin (3 / 200)) 1⟩] } := rfl
  refine ⟨⟨priority good (weight good (.fin (3 / 200)) 1) (.fin (1 / 2)), 7, weight good (.fin (3 / 200)) 1⟩, rfl, ?_, ?_⟩
  · rw [hr]
    refine getValues_eq ?_
    intro s hs
    rw [List.mem_singleton.1 hs]
    exact hk
  · rw [hr]; rfl

/-- The hypotheses of `C109_percentile` are met, also that one of the updates held is recent: the median is the value recorded. -/
example : ∃ cp, (getSnapshot good (run good (new 5 (.fin (3 / 200)) 0 0) oneUpdate) 3000000000 3000 cp).getValue good.R (good.R.rnd (1 / 2)) = .ok (F64.ofInt binary64 7) := by
  obtain ⟨s, hs, hv, hL⟩ := oneUpdate_values
  refine ⟨[s], ?_⟩
  obtain ⟨held, h1, h2, -, h3⟩ := C109_percentile good rfl good_lawful good_exp 5 (by norm_num) (3 / 200) (by norm_num) 0 0 oneUpdate 3000000000 3000 36000000 (by norm_num)
    (by norm_num) 1 (by norm_num) (by decide) (by decide) (by decide) (by
      simp only [readings, oneUpdate, List.cons_append, List.nil_append, List.isChain_cons_cons]
      norm_num) (by unfold Agree; decide) (by
      simp only [draws, oneUpdate, List.mem_cons, List.not_mem_nil, or_false, forall_eq]
      exact ⟨1 / 2, rfl, by norm_num, by norm_num⟩) (by decide) [s] (by rw [hv]; exact ⟨List.Perm.refl _, by simp⟩) (by rw [hv]; norm_num)
  have hr : recs oneUpdate = [⟨1, 1 / 2, 7⟩] := rfl
  rw [hr] at h1
  have hval : (getSnapshot good (run good (new 5 (.fin (3 / 200)) 0 0) oneUpdate) 3000000000 3000 [s]).getValues = [7] := by
    unfold getSnapshot
    rw [hv]
    unfold WeightedSnapshot.new WeightedSnapshot.getValues
    rw [if_neg (by simp)]
    simp [hs]
  have hlen : held.length = 1 := by
    have := congrArg List.length (hval.symm.trans h2)
    rw [List.length_map] at this
    exact this.symm
  obtain ⟨e, rfl⟩ := List.length_eq_one_iff.1 hlen
  have he : e = ⟨1, 1 / 2, 7⟩ := by have := h1.subset (List.mem_singleton_self e); exact List.mem_singleton.1 this
  subst he
  rw [hL] at h3
  obtain ⟨k, hk, g, -⟩ := h3 ⟨_, List.mem_singleton_self _, by norm_num⟩ (1 / 2) (by norm_num) (by norm_num)
  obtain rfl : k = 0 := by simpa using hk
  exact g

end EDR
end GoMetrics
