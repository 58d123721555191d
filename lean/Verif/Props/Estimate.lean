import Verif.Proofs.EstimateRank
import Mathlib.Analysis.Complex.ExponentialBounds
/-! # C116: how good the statistics of a uniform reservoir are as estimates of the stream -/
namespace GoMetrics
open Rounding UniformSnapshot UniformFair UniformReservoir UniformWords Estimate

/-- The reservoirs of the given capacity which have recorded the stream `vs`: one for every table of `k` random words for each update of the full
reservoir for which all the updates return. -/
def reservoirs (capacity k : Nat) (vs : List Int) : List UniformReservoir :=
  ((wordTables (2 ^ 63) k (vs.length - capacity)).filter fun t => returns (new capacity) (worded capacity vs t)).map fun t =>
    (new capacity).run (worded capacity vs t)

namespace Estimate

theorem count_reservoirs (c k : Nat) (vs : List Int) (hc : c ≤ vs.length) (hl : vs.length < 2 ^ 63) (P : List Int → Bool) :
    (reservoirs c k vs).countP (fun u => P u.values) * c.factorial = (draws vs.length).countP (fun s => P (sampleOf c vs s)) *
      ways (2 ^ 63) k c (vs.length - c) := by
  have := count_tables c k (vs.length - c) vs (by omega) hl P
  rw [← this]
  unfold reservoirs
  rw [List.countP_map, List.countP_filter]
  congr 1
  refine List.countP_congr fun t _ => ?_
  simp [Function.comp, Bool.and_comm]

theorem length_reservoirs (c k : Nat) (vs : List Int) (hc : c ≤ vs.length) (hl : vs.length < 2 ^ 63) :
    (reservoirs c k vs).length * c.factorial = vs.length.factorial * ways (2 ^ 63) k c (vs.length - c) := by
  have := count_reservoirs c k vs hc hl (fun _ => true)
  simpa [length_draws] using this

theorem ways_pos (k c m : Nat) (hk : 1 ≤ k) (hl : c + m < 2 ^ 63) : 0 < ways (2 ^ 63) k c m := by
  induction m with
  | zero => simp [ways]
  | succ m ih =>
    rw [ways]
    refine Nat.mul_pos (ih (by omega)) ?_
    obtain ⟨j, rfl⟩ : ∃ j, k = j + 1 := ⟨k - 1, by omega⟩
    rw [stopping]
    refine Nat.add_pos_left (Nat.mul_pos (Nat.div_pos (by omega) (by omega)) (by positivity)) _

theorem share_reservoirs (c k : Nat) (vs : List Int) (hc : c ≤ vs.length) (hl : vs.length < 2 ^ 63) (P : List Int → Bool) :
    share (reservoirs c k vs) (fun u => P u.values) ≤ share (draws vs.length) (fun s => P (sampleOf c vs s)) := by
  have h1 := count_reservoirs c k vs hc hl P
  have h2 := length_reservoirs c k vs hc hl
  unfold share
  rw [length_draws]
  have hcf : (0 : ℚ) < c.factorial := by exact_mod_cast Nat.factorial_pos _
  have hnf : (0 : ℚ) < vs.length.factorial := by exact_mod_cast Nat.factorial_pos _
  have h1' : ((reservoirs c k vs).countP (fun u => P u.values) : ℚ) * c.factorial = (draws vs.length).countP (fun s => P (sampleOf c vs s)) *
      ways (2 ^ 63) k c (vs.length - c) := by exact_mod_cast h1
  have h2' : ((reservoirs c k vs).length : ℚ) * c.factorial = vs.length.factorial * ways (2 ^ 63) k c (vs.length - c) := by exact_mod_cast h2
  generalize ways (2 ^ 63) k c (vs.length - c) = w at *
  by_cases hz : (reservoirs c k vs).length = 0
  · rw [hz]; simp; positivity
  · have hz' : (0 : ℚ) < (reservoirs c k vs).length := by exact_mod_cast Nat.pos_of_ne_zero hz
    rw [div_le_div_iff₀ hz' hnf]
    refine le_of_eq ?_
    apply mul_right_cancel₀ hcf.ne'
    linear_combination vs.length.factorial * h1' - (draws vs.length).countP (fun s => P (sampleOf c vs s)) * h2'

theorem sum_by_count {α : Type} [DecidableEq α] (l m : List α) (a b : ℚ)
    (h : ∀ x, (l.countP (fun y => decide (y = x)) : ℚ) * a = m.countP (fun y => decide (y = x)) * b) (F : α → ℚ) :
    (l.map F).sum * a = (m.map F).sum * b := by
  have hc : ∀ (t : List α) x, List.count x t = t.countP (fun y => decide (y = x)) := by
    intro t x
    rw [List.count]
    refine List.countP_congr fun y _ => ?_
    simp
  rw [Finset.sum_list_map_count, Finset.sum_list_map_count]
  have e1 : ∑ x ∈ l.toFinset, l.count x • F x = ∑ x ∈ l.toFinset ∪ m.toFinset, l.count x • F x := by
    refine Finset.sum_subset Finset.subset_union_left fun x _ hx => ?_
    rw [List.count_eq_zero.2 (by simpa using hx)]; simp
  have e2 : ∑ x ∈ m.toFinset, m.count x • F x = ∑ x ∈ l.toFinset ∪ m.toFinset, m.count x • F x := by
    refine Finset.sum_subset Finset.subset_union_right fun x _ hx => ?_
    rw [List.count_eq_zero.2 (by simpa using hx)]; simp
  rw [e1, e2, Finset.sum_mul, Finset.sum_mul]
  refine Finset.sum_congr rfl fun x _ => ?_
  simp only [nsmul_eq_mul, hc]
  linear_combination F x * h x

theorem average_reservoirs (c k : Nat) (vs : List Int) (hk : 1 ≤ k) (hc : c ≤ vs.length) (hl : vs.length < 2 ^ 63) (F : List Int → ℚ) :
    average (reservoirs c k vs) (fun u => F u.values) = average (draws vs.length) (fun s => F (sampleOf c vs s)) := by
  have h2 := length_reservoirs c k vs hc hl
  have hw := ways_pos k c (vs.length - c) hk (by omega)
  have hs := sum_by_count ((reservoirs c k vs).map fun u => u.values) ((draws vs.length).map fun s => sampleOf c vs s) c.factorial
    (ways (2 ^ 63) k c (vs.length - c)) (fun x => by
      have := count_reservoirs c k vs hc hl (fun l => decide (l = x))
      rw [List.countP_map, List.countP_map]
      exact_mod_cast this) F
  rw [List.map_map, List.map_map] at hs
  unfold average
  rw [length_draws]
  have hcf : (0 : ℚ) < c.factorial := by exact_mod_cast Nat.factorial_pos _
  have hnf : (0 : ℚ) < vs.length.factorial := by exact_mod_cast Nat.factorial_pos _
  have h2' : ((reservoirs c k vs).length : ℚ) * c.factorial = vs.length.factorial * ways (2 ^ 63) k c (vs.length - c) := by exact_mod_cast h2
  have hw' : (0 : ℚ) < ways (2 ^ 63) k c (vs.length - c) := by exact_mod_cast hw
  generalize (ways (2 ^ 63) k c (vs.length - c) : ℚ) = w at *
  have hz' : (0 : ℚ) < (reservoirs c k vs).length := by
    by_contra hn
    have : (0 : ℚ) ≤ (reservoirs c k vs).length := by positivity
    have h0 : ((reservoirs c k vs).length : ℚ) = 0 := by linarith
    rw [h0, zero_mul] at h2'
    have : (0 : ℚ) < vs.length.factorial * w := by positivity
    linarith
  change (List.map (F ∘ fun u : UniformReservoir => u.values) (reservoirs c k vs)).sum / _ = (List.map (F ∘ fun s => sampleOf c vs s) (draws vs.length)).sum / _
  rw [div_eq_div_iff hz'.ne' hnf.ne']
  apply mul_right_cancel₀ hcf.ne'
  linear_combination vs.length.factorial * hs - (List.map (F ∘ fun s => sampleOf c vs s) (draws vs.length)).sum * h2'

theorem mean_perm {l m : List Int} (h : l.Perm m) : mean l = mean m := by
  unfold mean average; rw [(h.map _).sum_eq, h.length_eq]

theorem mean_snapshot (u : UniformReservoir) : mean u.getSnapshot.getValues = mean u.values := mean_perm (perm_new _)

theorem share_snapshot (u : UniformReservoir) (A : Int → Bool) : share u.getSnapshot.getValues A = share u.values A := perm_share (perm_new _) A

theorem sample_mem {c : Nat} {vs : List Int} {s : List Nat} (h : vs.length = s.length) (hc : c ≤ vs.length) (hl : vs.length < 2 ^ 63) :
    ∀ x ∈ sampleOf c vs s, x ∈ vs := by
  have hlh := length_history h
  obtain ⟨idx, h1, h2, h3, d, _⟩ := C49_contents c (history vs s) (by omega) (history_nonneg vs s)
  have hm : (history vs s).map Prod.fst = vs := by
    unfold history; rw [List.map_fst_zip]; simp [h]
  rw [hm, hlh, show c - vs.length = 0 by omega] at d
  simp only [List.replicate_zero, List.append_nil] at d
  have e : (sampleOf c vs s).map some = idx.map (fun i => vs[i]?) := d
  intro x hx
  have : some x ∈ idx.map (fun i => vs[i]?) := by rw [← e]; exact List.mem_map.2 ⟨x, hx, rfl⟩
  obtain ⟨i, _, hi⟩ := List.mem_map.1 this
  exact List.mem_of_getElem? hi

theorem reservoir_sample (c k : Nat) (vs : List Int) (hc : c ≤ vs.length) (hl : vs.length < 2 ^ 63) (u : UniformReservoir) (hu : u ∈ reservoirs c k vs) :
    ∃ s ∈ draws vs.length, sampleOf c vs s = u.values := by
  have h := count_reservoirs c k vs hc hl (fun T => decide (T = u.values))
  have h1 : 0 < (reservoirs c k vs).countP (fun x => decide (x.values = u.values)) := List.countP_pos_iff.2 ⟨u, hu, by simp⟩
  have h2 : 0 < (draws vs.length).countP (fun s => decide (sampleOf c vs s = u.values)) := by
    rcases Nat.eq_zero_or_pos ((draws vs.length).countP (fun s => decide (sampleOf c vs s = u.values))) with hz | hz
    · rw [hz, Nat.zero_mul] at h
      have := Nat.mul_pos h1 (Nat.factorial_pos c)
      omega
    · exact hz
  obtain ⟨s, hs, e⟩ := List.countP_pos_iff.1 h2
  exact ⟨s, hs, by simpa using e⟩

/-- The mean error of the mean, over sequences of positions. -/
theorem mean_square (c : Nat) (vs : List Int) (hc0 : 0 < c) (hc : c ≤ vs.length) (hl : vs.length < 2 ^ 63) :
    ((draws vs.length).map fun s => (mean (sampleOf c vs s) - mean vs) ^ 2).sum * (c * (vs.length - 1)) =
      vs.length.factorial * (variance vs * (vs.length - c)) := by
  have hcq : (0 : ℚ) < c := by exact_mod_cast hc0
  have hnq : (0 : ℚ) < vs.length := by exact_mod_cast (by omega : 0 < vs.length)
  obtain ⟨μ, hμ⟩ : ∃ μ, mean vs = μ := ⟨_, rfl⟩
  have h0 : (vs.map fun v : Int => (v : ℚ) - μ).sum = 0 := by
    have e : (vs.map fun v : Int => (v : ℚ) - μ).sum = (vs.map fun v : Int => (1 : ℚ) * (v : ℚ) + (-μ) * 1).sum := by
      congr 1; refine List.map_congr_left fun v _ => ?_; ring
    have hm : (vs.map fun v : Int => (v : ℚ)).sum = μ * vs.length := by
      rw [← hμ]; unfold mean average; rw [div_mul_cancel₀ _ hnq.ne']
    rw [e, sum_map_lin, hm]; simp
  have hv : (vs.map fun v : Int => ((v : ℚ) - μ) ^ 2).sum = variance vs * vs.length := by
    unfold variance average; rw [div_mul_cancel₀ _ hnq.ne', hμ]
  have h1 := sum_weight c vs (fun v : Int => ((v : ℚ) - μ) ^ 2) hc hl
  have h2 := sum_pairs c vs (fun v : Int => (v : ℚ) - μ) hc hl
  have e : ∀ s ∈ draws vs.length, (mean (sampleOf c vs s) - mean vs) ^ 2 =
      (1 / c ^ 2) * (((sampleOf c vs s).map fun v : Int => (v : ℚ) - μ).sum ^ 2 - ((sampleOf c vs s).map fun v : Int => ((v : ℚ) - μ) ^ 2).sum) +
      (1 / c ^ 2) * ((sampleOf c vs s).map fun v : Int => ((v : ℚ) - μ) ^ 2).sum := by
    intro s _
    have hls := length_sample c vs s
    have e : ((sampleOf c vs s).map fun v : Int => (v : ℚ) - μ).sum = ((sampleOf c vs s).map fun v : Int => (1 : ℚ) * (v : ℚ) + (-μ) * 1).sum := by
      congr 1; refine List.map_congr_left fun v _ => ?_; ring
    rw [hμ, e, sum_map_lin]
    unfold mean average
    simp only [List.map_const', List.sum_replicate, hls, nsmul_eq_mul, mul_one, one_mul]
    field_simp
    ring
  rw [List.map_congr_left e, sum_map_lin]
  rw [h0, hv] at h2
  rw [hv] at h1
  generalize ((draws vs.length).map fun s => ((sampleOf c vs s).map fun v : Int => (v : ℚ) - μ).sum ^ 2 - ((sampleOf c vs s).map fun v : Int => ((v : ℚ) - μ) ^ 2).sum).sum = S2 at *
  generalize ((draws vs.length).map fun s => ((sampleOf c vs s).map fun v : Int => ((v : ℚ) - μ) ^ 2).sum).sum = S1 at *
  have h1' : S1 = vs.length.factorial * c * variance vs := by
    apply mul_right_cancel₀ hnq.ne'; linear_combination h1
  have h2' : S2 * (vs.length - 1) = -(vs.length.factorial * (c * (c - 1)) * variance vs) := by
    apply mul_right_cancel₀ hnq.ne'; linear_combination h2
  rw [h1']
  field_simp
  linear_combination h2'

theorem chebyshev {α : Type} (l : List α) (f : α → ℚ) (t : ℚ) (ht : 0 < t) : share l (fun a => decide (t ≤ |f a|)) * t ^ 2 ≤ average l fun a => f a ^ 2 := by
  unfold share average
  rw [div_mul_eq_mul_div]
  have : (l.countP (fun a => decide (t ≤ |f a|)) : ℚ) * t ^ 2 ≤ (l.map fun a => f a ^ 2).sum := by
    induction l with
    | nil => simp
    | cons a l ih =>
      rw [List.map_cons, List.sum_cons, List.countP_cons]
      by_cases h : t ≤ |f a|
      · have : t ^ 2 ≤ f a ^ 2 := by rw [← sq_abs (f a)]; exact pow_le_pow_left₀ ht.le h 2
        simp only [h, decide_true, if_true]; push_cast; linarith
      · have := sq_nonneg (f a)
        simp only [h, decide_false, Bool.false_eq_true, if_false, Nat.add_zero]; linarith
  gcongr

end Estimate

/-- **C116.** The mean of the sample is an unbiased estimate of the mean of everything recorded: averaged over all the words the random source may
deliver it is exact, whatever the stream. -/
theorem C116_mean (capacity k : Nat) (vs : List Int) (hk : 1 ≤ k) (h0 : 0 < capacity) (hc : capacity ≤ vs.length) (hl : vs.length < 2 ^ 63) :
    average (reservoirs capacity k vs) (fun u => mean u.getSnapshot.getValues) = mean vs := by
  simp only [mean_snapshot]
  rw [average_reservoirs capacity k vs hk hc hl mean]
  have hcq : (0 : ℚ) < capacity := by exact_mod_cast h0
  have hnq : (0 : ℚ) < vs.length := by exact_mod_cast (by omega : 0 < vs.length)
  have hnf : (0 : ℚ) < vs.length.factorial := by exact_mod_cast Nat.factorial_pos _
  have h1 := sum_weight capacity vs (fun v : Int => (v : ℚ)) hc hl
  have e : ∀ s ∈ draws vs.length, mean (sampleOf capacity vs s) = (1 / capacity) * ((sampleOf capacity vs s).map fun v : Int => (v : ℚ)).sum := by
    intro s _
    unfold mean average
    rw [length_sample]; field_simp
  rw [show mean vs = (vs.map fun v : Int => (v : ℚ)).sum / vs.length from rfl]
  unfold average
  rw [List.map_congr_left e, List.sum_map_mul_left, length_draws, div_eq_div_iff hnf.ne' hnq.ne']
  apply mul_left_cancel₀ hcq.ne'
  field_simp
  linear_combination h1

/-- **C116.** Its mean square error is the variance of the stream divided by the capacity, times `(n - capacity) / (n - 1)`. -/
theorem C116_variance (capacity k : Nat) (vs : List Int) (hk : 1 ≤ k) (h0 : 0 < capacity) (hc : capacity ≤ vs.length) (hn : 2 ≤ vs.length)
    (hl : vs.length < 2 ^ 63) :
    average (reservoirs capacity k vs) (fun u => (mean u.getSnapshot.getValues - mean vs) ^ 2) =
      variance vs / capacity * ((vs.length - capacity) / (vs.length - 1)) := by
  simp only [mean_snapshot]
  rw [average_reservoirs capacity k vs hk hc hl (fun T => (mean T - mean vs) ^ 2)]
  have hcq : (0 : ℚ) < capacity := by exact_mod_cast h0
  have hn1 : (0 : ℚ) < (vs.length : ℚ) - 1 := by
    have : (2 : ℚ) ≤ vs.length := by exact_mod_cast hn
    linarith
  have hnf : (0 : ℚ) < vs.length.factorial := by exact_mod_cast Nat.factorial_pos _
  have h := mean_square capacity vs h0 hc hl
  unfold average
  rw [length_draws, div_mul_div_comm, div_eq_div_iff hnf.ne' (by positivity)]
  linear_combination h

/-- **C116.** So (Chebyshev) the mean of the sample is off by `t` or more for at most the part `variance / (capacity · t²)` of the words. -/
theorem C116_mean_error (capacity k : Nat) (vs : List Int) (hk : 1 ≤ k) (h0 : 0 < capacity) (hc : capacity ≤ vs.length) (hl : vs.length < 2 ^ 63)
    (t : ℚ) (ht : 0 < t) :
    share (reservoirs capacity k vs) (fun u => decide (t ≤ |mean u.getSnapshot.getValues - mean vs|)) ≤ variance vs / (capacity * t ^ 2) := by
  have hcq : (0 : ℚ) < capacity := by exact_mod_cast h0
  have h := chebyshev (reservoirs capacity k vs) (fun u => mean u.getSnapshot.getValues - mean vs) t ht
  have hvar : 0 ≤ variance vs := by
    unfold Estimate.variance average
    refine div_nonneg (List.sum_nonneg ?_) (by positivity)
    intro x hx
    obtain ⟨v, _, rfl⟩ := List.mem_map.1 hx
    positivity
  rw [le_div_iff₀ (by positivity)]
  have hb : average (reservoirs capacity k vs) (fun u => (mean u.getSnapshot.getValues - mean vs) ^ 2) ≤ variance vs / capacity := by
    by_cases hn : 2 ≤ vs.length
    · rw [C116_variance capacity k vs hk h0 hc hn hl]
      refine mul_le_of_le_one_right (by positivity) ?_
      have : (2 : ℚ) ≤ vs.length := by exact_mod_cast hn
      have h1 : (1 : ℚ) ≤ capacity := by exact_mod_cast h0
      rw [div_le_one (by linarith)]; linarith
    · -- one value: the sample is the stream
      have h1 : vs.length = 1 := by omega
      have hc1 : capacity = vs.length := by omega
      simp only [mean_snapshot]
      rw [average_reservoirs capacity k vs hk hc hl (fun T => (mean T - mean vs) ^ 2)]
      have e : ∀ s ∈ draws vs.length, (mean (sampleOf capacity vs s) - mean vs) ^ 2 = 0 := by
        intro s hs
        have hlen := ((mem_draws _ s).1 hs).1
        rw [hc1, sample_full hlen.symm hl]; simp
      unfold average
      rw [sum_map_const _ _ 0 e]; simp; positivity
  have h3 : share (reservoirs capacity k vs) (fun u => decide (t ≤ |mean u.getSnapshot.getValues - mean vs|)) * t ^ 2 ≤ variance vs / capacity := le_trans h hb
  rw [le_div_iff₀ hcq] at h3
  linarith

/-- **C116.** Whatever condition the user has in mind — say, to take longer than a second —, the part of the sample which satisfies it exceeds the part
of the stream which does by `ε` or more for at most the part `exp(-2 · capacity · ε²)` of the words. -/
theorem C116_share_above (capacity k : Nat) (vs : List Int) (h0 : 0 < capacity) (hc : capacity ≤ vs.length) (hl : vs.length < 2 ^ 63)
    (P : Int → Bool) (ε : ℚ) (hε : 0 ≤ ε) :
    ((share (reservoirs capacity k vs) fun u => decide (share vs P + ε ≤ share u.getSnapshot.getValues P) : ℚ) : ℝ) ≤
      Real.exp (-2 * capacity * (ε : ℝ) ^ 2) := by
  simp only [share_snapshot]
  refine le_trans ?_ (tail capacity vs P h0 hc hl ε hε)
  exact_mod_cast share_reservoirs capacity k vs hc hl (fun T => decide (share vs P + ε ≤ share T P))

/-- **C116.** And as rarely it falls short of it by `ε` or more. -/
theorem C116_share_below (capacity k : Nat) (vs : List Int) (h0 : 0 < capacity) (hc : capacity ≤ vs.length) (hl : vs.length < 2 ^ 63)
    (P : Int → Bool) (ε : ℚ) (hε : 0 ≤ ε) :
    ((share (reservoirs capacity k vs) fun u => decide (share u.getSnapshot.getValues P + ε ≤ share vs P) : ℚ) : ℝ) ≤
      Real.exp (-2 * capacity * (ε : ℝ) ^ 2) := by
  simp only [share_snapshot]
  refine le_trans ?_ (tail capacity vs (fun v => !P v) h0 hc hl ε hε)
  have h1 := share_reservoirs capacity k vs hc hl (fun T => decide (share T P + ε ≤ share vs P))
  have h2 : share (draws vs.length) (fun s => decide (share (sampleOf capacity vs s) P + ε ≤ share vs P)) ≤
      share (draws vs.length) (fun s => decide (share vs (fun v => !P v) + ε ≤ share (sampleOf capacity vs s) (fun v => !P v))) := by
    refine share_mono _ fun s _ h => ?_
    simp only [decide_eq_true_iff] at h ⊢
    rw [share_not vs (by rintro rfl; simp at hc; omega), share_not (sampleOf capacity vs s) (by
      intro e; have := length_sample capacity vs s; rw [e] at this; simp at this; omega)]
    linarith
  exact_mod_cast le_trans h1 h2

/-- **C116.** The reported quantiles: `GetValue(q)` of a snapshot, in IEEE-754 arithmetic and in every other rounding that is exact on small integers, is
a `q`-quantile of the whole stream up to `ε + 2 / capacity`, except for at most the part `2 exp(-2 · capacity · ε²)` of the words. -/
theorem C116_percentile (R : Rounding) (hR : R.Lawful) (hI : R.Ints) (capacity k : Nat) (vs : List Int) (h0 : 0 < capacity)
    (hcap : capacity + 1 < 2 ^ 52) (hc : capacity ≤ vs.length) (hl : vs.length < 2 ^ 63) (hv : ∀ v ∈ vs, |v| < 2 ^ 52) (q : ℚ) (hq0 : 0 ≤ q) (hq1 : q ≤ 1)
    (ε : ℚ) (hε : 0 ≤ ε) :
    ∃ reported : UniformReservoir → ℚ, (∀ u ∈ reservoirs capacity k vs, u.getSnapshot.getValue R (.fin q) = .ok (.fin (reported u))) ∧
      ((share (reservoirs capacity k vs) fun u => decide (¬ IsQuantile vs q (ε + 2 / capacity) (reported u)) : ℚ) : ℝ) ≤
        2 * Real.exp (-2 * capacity * (ε : ℝ) ^ 2) := by
  obtain ⟨rep, hrep⟩ : ∃ rep : List Int → ℚ, ∀ T r, (UniformSnapshot.new T).getValue R (.fin q) = .ok (.fin r) → rep T = r := by
    classical
    refine ⟨fun T => if h : ∃ r, (UniformSnapshot.new T).getValue R (.fin q) = .ok (.fin r) then h.choose else 0, fun T r h => ?_⟩
    have hex : ∃ r, (UniformSnapshot.new T).getValue R (.fin q) = .ok (.fin r) := ⟨r, h⟩
    simp only [dif_pos hex]
    have := hex.choose_spec
    have h' := h.symm.trans this
    simp only [Ret.ok.injEq, F64.fin.injEq] at h'
    exact h'.symm
  have hsample : ∀ s ∈ draws vs.length, ∃ r : ℚ, (UniformSnapshot.new (sampleOf capacity vs s)).getValue R (.fin q) = .ok (.fin r) ∧
      q - 2 / capacity ≤ share (sampleOf capacity vs s) (fun v : Int => decide ((v : ℚ) ≤ r)) ∧
      share (sampleOf capacity vs s) (fun v : Int => decide ((v : ℚ) < r)) ≤ q + 2 / capacity := by
    intro s hs
    have hlen := ((mem_draws _ s).1 hs).1
    have hls := length_sample capacity vs s
    have := sample_rank hR hI (sampleOf capacity vs s) (by intro e; rw [e] at hls; simp at hls; omega)
      (fun v h => hv v (sample_mem hlen.symm hc hl v h)) (by rw [hls]; exact hcap) hq0 hq1
    rwa [hls] at this
  have hvne : vs ≠ [] := by rintro rfl; simp at hc; omega
  refine ⟨fun u => rep u.values, fun u hu => ?_, ?_⟩
  · obtain ⟨s, hs, e⟩ := reservoir_sample capacity k vs hc hl u hu
    obtain ⟨r, hr, _⟩ := hsample s hs
    rw [e] at hr
    show (UniformSnapshot.new u.values).getValue R (.fin q) = .ok (.fin (rep u.values))
    rw [hrep _ _ hr]; exact hr
  · have h1 := share_reservoirs capacity k vs hc hl (fun T => decide (¬ IsQuantile vs q (ε + 2 / capacity) (rep T)))
    have h2 : share (draws vs.length) (fun s => decide (¬ IsQuantile vs q (ε + 2 / capacity) (rep (sampleOf capacity vs s)))) ≤
        share (draws vs.length) (fun s => decide (share vs (fun v : Int => decide ((v : ℚ) ≤ rep (sampleOf capacity vs s))) < q - (ε + 2 / capacity))) +
        share (draws vs.length) (fun s => decide (q + (ε + 2 / capacity) < share vs (fun v : Int => decide ((v : ℚ) < rep (sampleOf capacity vs s))))) := by
      refine le_trans (share_mono _ fun s _ h => ?_) (share_or _ _ _)
      simp only [decide_eq_true_iff, IsQuantile, not_and_or, not_le] at h
      simp only [Bool.or_eq_true, decide_eq_true_iff]
      exact h
    have h3 := threshold_tail capacity vs h0 hc hl (fun v => (v : ℚ)) (q - (ε + 2 / capacity)) ε hε
      (fun s => decide (share vs (fun v : Int => decide ((v : ℚ) ≤ rep (sampleOf capacity vs s))) < q - (ε + 2 / capacity))) (by
        intro s hs h
        obtain ⟨r, hr, ha, _⟩ := hsample s hs
        rw [decide_eq_true_iff, hrep _ _ hr] at h
        exact ⟨r, h, by linarith⟩)
    have h4 := threshold_tail capacity vs h0 hc hl (fun v => -(v : ℚ)) (1 - (q + (ε + 2 / capacity))) ε hε
      (fun s => decide (q + (ε + 2 / capacity) < share vs (fun v : Int => decide ((v : ℚ) < rep (sampleOf capacity vs s))))) (by
        intro s hs h
        obtain ⟨r, hr, _, hb⟩ := hsample s hs
        rw [decide_eq_true_iff, hrep _ _ hr] at h
        have e : (fun v : Int => decide (-(v : ℚ) ≤ -r)) = fun v : Int => !decide ((v : ℚ) < r) := by
          funext v
          by_cases hvr : (v : ℚ) < r
          · simp [hvr]
          · simp [hvr, not_lt.1 hvr]
        refine ⟨-r, ?_, ?_⟩
        · rw [e, share_not vs hvne]; linarith
        · rw [e, share_not _ (by intro e; have := length_sample capacity vs s; rw [e] at this; simp at this; omega)]; linarith)
    have h5 : ((share (reservoirs capacity k vs) fun u => decide (¬ IsQuantile vs q (ε + 2 / capacity) (rep u.values)) : ℚ) : ℝ) ≤
        ((share (draws vs.length) (fun s => decide (share vs (fun v : Int => decide ((v : ℚ) ≤ rep (sampleOf capacity vs s))) < q - (ε + 2 / capacity))) : ℚ) : ℝ) +
        ((share (draws vs.length) (fun s => decide (q + (ε + 2 / capacity) < share vs (fun v : Int => decide ((v : ℚ) < rep (sampleOf capacity vs s))))) : ℚ) : ℝ) := by
      exact_mod_cast le_trans h1 h2
    linarith

/-- **C116.** There are such words: with one word for each update there are reservoirs, whatever the stream. -/
theorem C116_some (capacity k : Nat) (vs : List Int) (hk : 1 ≤ k) (hc : capacity ≤ vs.length) (hl : vs.length < 2 ^ 63) :
    0 < (reservoirs capacity k vs).length := by
  have h2 := length_reservoirs capacity k vs hc hl
  have hw := ways_pos k capacity (vs.length - capacity) hk (by omega)
  have : 0 < (reservoirs capacity k vs).length * capacity.factorial := by
    rw [h2]; exact Nat.mul_pos (Nat.factorial_pos _) hw
  exact Nat.pos_of_mul_pos_right this

/-- **C116.** `GetMean()` is the mean of the sample, rounded once, as long as the sums stay below 2^53. -/
theorem C116_reported_mean (R : Rounding) (hR : R.Lawful) (hI : R.Ints) (capacity k : Nat) (vs : List Int) (h0 : 0 < capacity)
    (hc : capacity ≤ vs.length) (hl : vs.length < 2 ^ 63) (hcap : capacity < 2 ^ 53) (hv : ∀ v ∈ vs, |v| * capacity < 2 ^ 53)
    (u : UniformReservoir) (hu : u ∈ reservoirs capacity k vs) :
    u.getSnapshot.getMean R = R.rnd (mean u.getSnapshot.getValues) := by
  obtain ⟨s, hs, e⟩ := reservoir_sample capacity k vs hc hl u hu
  have hlen := ((mem_draws _ s).1 hs).1
  have hls := length_sample capacity vs s
  rw [e] at hls
  have hmem : ∀ v ∈ u.values, v ∈ vs := fun v h => sample_mem hlen.symm hc hl v (by rw [e]; exact h)
  have hne : u.values ≠ [] := by intro h; rw [h] at hls; simp at hls; omega
  have e53 : (2 : Int) ^ 53 = 9007199254740992 := by norm_num
  have e53' : (2 : Nat) ^ 53 = 9007199254740992 := by norm_num
  rw [e53'] at hcap
  have hsum : ∀ (l : List Int), (∀ v ∈ l, |v| * capacity < 9007199254740992) → |l.sum| * capacity ≤ l.length * 9007199254740991 := by
    intro l hl
    induction l with
    | nil => simp
    | cons a l ih =>
      have h1 := ih (fun v h => hl v (by simp [h]))
      have h2 := hl a (by simp)
      have h3 : |(a :: l).sum| ≤ |a| + |l.sum| := by rw [List.sum_cons]; exact abs_add_le _ _
      have h4 := mul_le_mul_of_nonneg_right h3 (by omega : (0 : Int) ≤ capacity)
      rw [add_mul] at h4
      rw [List.length_cons]
      push_cast
      omega
  have hs1 := hsum u.values (fun v h => by rw [← e53]; exact hv v (hmem v h))
  rw [hls, mul_comm (|u.values.sum|)] at hs1
  have hs2 : |u.values.sum| ≤ 9007199254740991 := le_of_mul_le_mul_left hs1 (by omega)
  have hvb : ∀ v ∈ u.values, |v| < 2 ^ 53 := by
    intro v h
    have h1 := hv v (hmem v h)
    have h2 : |v| * 1 ≤ |v| * capacity := mul_le_mul_of_nonneg_left (by omega) (abs_nonneg _)
    omega
  rcases C56_min_max u.values with ⟨h, _⟩ | ⟨lo, hi, _, _, m1, m2, hb⟩
  · exact absurd h hne
  · have hsI : InI64 u.values.sum := by rw [abs_le] at hs2; unfold InI64; constructor <;> omega
    obtain ⟨m, em, er, _, _⟩ := mean_aux hR hne hsI (hI _ (by rw [e53]; omega)) (hI _ (by rw [e53, abs_lt]; constructor <;> omega)) (hI _ (hvb _ m1))
      (hI _ (hvb _ m2)) hb
    have hm : mean u.getSnapshot.getValues = (u.values.sum : ℚ) / u.values.length := by
      rw [mean_snapshot]
      unfold mean average
      congr 1
      generalize u.values = l
      induction l with
      | nil => simp
      | cons a l ih => simp only [List.map_cons, List.sum_cons, ih]; push_cast; ring
    rw [hm, er]; exact em

/-- **C116.** In numbers: a compass' default uniform reservoir holds 1024 values (impl/uniform_reservoir.go:33). Whatever the stream, each quantile it
reports is a quantile of the stream up to 5.2 percentage points, except for at most one in eighty of the words. -/
theorem C116_default (R : Rounding) (hR : R.Lawful) (hI : R.Ints) (k : Nat) (vs : List Int) (hc : 1024 ≤ vs.length) (hl : vs.length < 2 ^ 63)
    (hv : ∀ v ∈ vs, |v| < 2 ^ 52) (q : ℚ) (hq0 : 0 ≤ q) (hq1 : q ≤ 1) :
    ∃ reported : UniformReservoir → ℚ, (∀ u ∈ reservoirs 1024 k vs, u.getSnapshot.getValue R (.fin q) = .ok (.fin (reported u))) ∧
      share (reservoirs 1024 k vs) (fun u => decide (¬ IsQuantile vs q (52 / 1000) (reported u))) ≤ 1 / 80 := by
  obtain ⟨rep, h1, h2⟩ := C116_percentile R hR hI 1024 k vs (by norm_num) (by norm_num) hc hl hv q hq0 hq1 (1 / 20) (by norm_num)
  refine ⟨rep, h1, ?_⟩
  have h3 : share (reservoirs 1024 k vs) (fun u => decide (¬ IsQuantile vs q (52 / 1000) (rep u))) ≤
      share (reservoirs 1024 k vs) (fun u => decide (¬ IsQuantile vs q (1 / 20 + 2 / (1024 : Nat)) (rep u))) := by
    refine share_mono _ fun u _ h => ?_
    simp only [decide_eq_true_iff] at h ⊢
    intro hq
    apply h
    unfold IsQuantile at hq ⊢
    have : (1 : ℚ) / 20 + 2 / ((1024 : Nat) : ℚ) ≤ 52 / 1000 := by norm_num
    exact ⟨by linarith [hq.1], by linarith [hq.2]⟩
  have h4 : Real.exp (-2 * (1024 : Nat) * (((1 / 20 : ℚ)) : ℝ) ^ 2) ≤ 1 / 160 := by
    have e : (-2 * ((1024 : Nat) : ℝ) * (((1 / 20 : ℚ)) : ℝ) ^ 2) = -(5 + 12 / 100) := by push_cast; norm_num
    rw [e, Real.exp_neg, inv_eq_one_div]
    refine one_div_le_one_div_of_le (by norm_num) ?_
    rw [Real.exp_add]
    have a1 : (148 : ℝ) ≤ Real.exp 5 := by
      have : Real.exp 5 = Real.exp 1 ^ 5 := by rw [← Real.exp_nat_mul]; norm_num
      rw [this]
      have h := Real.exp_one_gt_d9
      calc (148 : ℝ) ≤ 2.718 ^ 5 := by norm_num
        _ ≤ _ := pow_le_pow_left₀ (by norm_num) (by linarith) 5
    have a2 : (1.12 : ℝ) ≤ Real.exp (12 / 100) := by
      have := Real.add_one_le_exp (12 / 100 : ℝ)
      linarith
    nlinarith
  have h5 : ((share (reservoirs 1024 k vs) (fun u => decide (¬ IsQuantile vs q (52 / 1000) (rep u))) : ℚ) : ℝ) ≤ ((1 / 80 : ℚ) : ℝ) := by
    have h6 : ((share (reservoirs 1024 k vs) (fun u => decide (¬ IsQuantile vs q (52 / 1000) (rep u))) : ℚ) : ℝ) ≤
        ((share (reservoirs 1024 k vs) (fun u => decide (¬ IsQuantile vs q (1 / 20 + 2 / (1024 : Nat)) (rep u))) : ℚ) : ℝ) := by exact_mod_cast h3
    push_cast at h2 h6 h4 ⊢
    linarith
  exact_mod_cast h5

/-- Two of the three values 1, 2, 6: there are reservoirs, their means average to 3, with mean square error 7/6. -/
example : 0 < (reservoirs 2 1 [1, 2, 6]).length ∧
    average (reservoirs 2 1 [1, 2, 6]) (fun u => mean u.getSnapshot.getValues) = 3 ∧
    average (reservoirs 2 1 [1, 2, 6]) (fun u => (mean u.getSnapshot.getValues - 3) ^ 2) = 7 / 6 := by
  have hm : mean [1, 2, 6] = 3 := by unfold mean average; norm_num
  have hv : Estimate.variance [1, 2, 6] = 14 / 3 := by unfold Estimate.variance average; rw [hm]; norm_num
  refine ⟨C116_some 2 1 _ (by norm_num) (by decide) (by norm_num), ?_, ?_⟩
  · rw [C116_mean 2 1 _ (by norm_num) (by norm_num) (by decide) (by norm_num), hm]
  · have := C116_variance 2 1 [1, 2, 6] (by norm_num) (by norm_num) (by decide) (by decide) (by norm_num)
    rw [hm, hv] at this
    rw [this]; norm_num

/-- The hypotheses of `C116_default` are satisfied by IEEE-754 arithmetic and a stream of ten thousand values. -/
example : ∃ reported : UniformReservoir → ℚ,
    (∀ u ∈ reservoirs 1024 3 (List.replicate 5000 10 ++ List.replicate 5000 90), u.getSnapshot.getValue binary64 (.fin (1 / 2)) = .ok (.fin (reported u))) ∧
    share (reservoirs 1024 3 (List.replicate 5000 10 ++ List.replicate 5000 90))
      (fun u => decide (¬ IsQuantile (List.replicate 5000 10 ++ List.replicate 5000 90) (1 / 2) (52 / 1000) (reported u))) ≤ 1 / 80 := by
  refine C116_default binary64 binary64_lawful binary64_ints 3 _ ?_ ?_ ?_ _ (by norm_num) (by norm_num)
  · rw [List.length_append, List.length_replicate, List.length_replicate]; norm_num
  · rw [List.length_append, List.length_replicate, List.length_replicate]; norm_num
  · intro v hv
    rcases List.mem_append.1 hv with h | h
    · rw [List.eq_of_mem_replicate h]; norm_num
    · rw [List.eq_of_mem_replicate h]; norm_num

end GoMetrics
