import Verif.Props.WeightedAccuracy
/-! # C94 — accuracy of percentiles in binary64 -/
namespace GoMetrics
open Rounding

namespace WeightedSnapshot

theorem cumulative_get (R : Rounding) (acc : F64) (ws : List F64) (k : Nat) (h : k < (cumulative R acc ws).length) :
    (cumulative R acc ws)[k] = (ws.take k).foldl (fun t w => F64.add R t w) acc := by
  induction ws generalizing acc k with
  | nil => simp [cumulative] at h
  | cons w t ih =>
    cases k with
    | zero => simp [cumulative]
    | succ k =>
      simp only [cumulative, List.getElem_cons_succ, List.take_succ_cons, List.foldl_cons]
      exact ih _ _ _

theorem quantiles_eq {R : Rounding} {samples cp : List WeightedSample} (hne : samples ≠ []) :
    (new R samples cp).quantiles = cumulative R (.fin 0) (cp.map fun s => F64.div R s.weight (totalWeight R samples)) := by
  unfold new
  rw [if_neg (by rw [List.length_eq_zero_iff]; exact hne)]

/-- The quantiles in binary64 against the shares of weight. -/
theorem quantile_err {samples cp : List WeightedSample} (h : Usable samples) (hne : samples ≠ []) (hn : samples.length ≤ 2 ^ 40) (hs : IsSorted samples cp)
    (k : Nat) (hk : k < (new binary64 samples cp).quantiles.length) :
    ∃ x, (new binary64 samples cp).quantiles[k] = .fin x ∧ |x - before cp k| ≤ 3.2 * (samples.length * hulp) := by
  obtain ⟨g, hg⟩ := weight_err h hn
  have hnu := small_count hn
  have hu0 := hulp_pos
  have hlen := hs.1.length_eq
  obtain ⟨w1, w2⟩ := weights_sum h hn hs.1 (fun s hm => (hg s hm).2.2.2)
  have hmem : ∀ s ∈ cp.take k, s ∈ samples := fun s hm => hs.1.mem_iff.1 (List.mem_of_mem_take hm)
  have hsub : ∀ f : WeightedSample → ℚ, (∀ s ∈ cp, 0 ≤ f s) → ((cp.take k).map f).sum ≤ (cp.map f).sum := by
    intro f hf
    conv_rhs => rw [← List.take_append_drop k cp, List.map_append, List.sum_append]
    have : 0 ≤ ((cp.drop k).map f).sum := List.sum_nonneg (by
      simp only [List.mem_map]
      rintro x ⟨s, hm, rfl⟩
      exact hf s (List.mem_of_mem_drop hm))
    linarith
  obtain ⟨x, e1, e2⟩ := sum_err (C := 1.02) (le_trans (zpow_le_zpow_right₀ (by norm_num) (by norm_num : (-990 : Int) ≤ 0)) (by norm_num))
    (le_trans (b := 2 ^ (200 : Int)) (by norm_num) (zpow_le_zpow_right₀ (by norm_num) (by norm_num)))
    (fun s : WeightedSample => F64.div binary64 s.weight (totalWeight binary64 samples)) g (cp.take k) (fun s hm => (hg s (hmem s hm)).1) 0
    (by
      rw [zero_add, List.length_take]
      have : ((min k cp.length : ℕ) : ℚ) ≤ samples.length := by exact_mod_cast (by omega : min k cp.length ≤ samples.length)
      have := mul_le_mul_of_nonneg_right this hu0.le
      linarith) 0 0 (by simp) (by
      rw [abs_zero, zero_add]
      have e : ((cp.take k).map fun s => |g s|).sum = ((cp.take k).map g).sum := by
        congr 1
        apply List.map_congr_left
        intro s hm
        exact abs_of_nonneg (hg s (hmem s hm)).2.1
      rw [e]
      exact (hsub g fun s hm => (hg s (hs.1.mem_iff.1 hm)).2.1).trans (w2.trans (by norm_num)))
  refine ⟨x, ?_, ?_⟩
  · have h1 : ∀ (l : List F64) (hl : k < l.length), l = cumulative binary64 (.fin 0) (cp.map fun s => F64.div binary64 s.weight (totalWeight binary64 samples)) → l[k] = .fin x := by
      intro l hl e
      subst e
      rw [cumulative_get, ← List.map_take, List.foldl_map]
      exact e1
    exact h1 _ hk (quantiles_eq hne)
  · rw [zero_add, zero_add] at e2
    have hb : before cp k = ((cp.take k).map fun s => wt s / (samples.map wt).sum).sum := by
      unfold before
      rw [perm_sum hs.1]
      generalize (samples.map wt).sum = W
      generalize cp.take k = l
      induction l with
      | nil => simp
      | cons a t ih => simp only [List.map_cons, List.sum_cons, add_div, ih]
    rw [hb]
    have e : ∀ V, x - V = (x - ((cp.take k).map g).sum) + (((cp.take k).map g).sum - V) := fun V => by ring
    rw [e]
    refine (abs_add_le _ _).trans ?_
    have h1 := (abs_sum_diff (cp.take k) g (fun s => wt s / (samples.map wt).sum)).trans ((hsub _ fun s _ => abs_nonneg _).trans w1)
    have h2 : ((cp.take k).length : ℚ) * (hulp * (1.01 * 1.02)) ≤ samples.length * (hulp * (1.01 * 1.02)) := by
      apply mul_le_mul_of_nonneg_right _ (by positivity)
      rw [List.length_take]
      exact_mod_cast (by omega : min k cp.length ≤ samples.length)
    refine (add_le_add (e2.trans h2) h1).trans ?_
    have : 0 ≤ (samples.length : ℚ) * hulp := by positivity
    have e3 : (samples.length : ℚ) * (hulp * (1.01 * 1.02)) = 1.0302 * (samples.length * hulp) := by ring
    rw [e3]
    linarith

theorem quantiles_sorted' {samples cp : List WeightedSample} (h : Usable samples) (hne : samples ≠ []) (hn : samples.length ≤ 2 ^ 40) (hs : IsSorted samples cp) :
    (new binary64 samples cp).quantiles.Pairwise F64.le := by
  obtain ⟨g, hg⟩ := weight_err h hn
  rw [quantiles_eq hne]
  refine (cumulative_sorted binary64_lawful _ ?_ (.fin 0) ?_ ?_).1
  · simp only [List.mem_map]
    rintro w ⟨s, hm, rfl⟩
    rw [(hg s (hs.1.mem_iff.1 hm)).1]
    exact (hg s (hs.1.mem_iff.1 hm)).2.1
  · simp [F64.le]
  · intro q hq
    simp only [F64.fin.injEq] at hq
    subst hq
    exact binary64_lawful.zero

/-- Where the search ends. -/
theorem pick_between {w : WeightedSnapshot} (hs : w.quantiles.Pairwise F64.le) (hl : w.quantiles.length = w.values.length) (hn : 0 < w.values.length) {q : F64}
    (h0 : ∀ h : 0 < w.quantiles.length, w.quantiles[0].le q) (hq : q ≠ .nan) (hnan : ∀ x ∈ w.quantiles, x ≠ .nan) :
    (∀ h : w.pick q < w.quantiles.length, w.quantiles[w.pick q].le q) ∧ ∀ h : w.pick q + 1 < w.quantiles.length, q.le w.quantiles[w.pick q + 1] := by
  obtain ⟨a1, a2, a3⟩ := searchPos_spec hs q
  cases hf : w.searchFound q with
  | false =>
    have hp : w.pick q = min (w.searchPos q - 1) (w.values.length - 1) := by unfold pick; rw [hf]; rfl
    refine ⟨fun h => ?_, fun h => a3 _ h (by omega)⟩
    by_cases hz : w.searchPos q = 0
    · have e : w.pick q = 0 := by omega
      have : ∀ k (hk : k < w.quantiles.length), k = 0 → w.quantiles[k].le q := by
        rintro k hk rfl; exact h0 hk
      exact this _ h e
    · exact F64.not_le hq (hnan _ (List.getElem_mem _)) (a2 _ h (by omega))
  | true =>
    have hp : w.pick q = min (w.searchPos q) (w.values.length - 1) := by unfold pick; rw [hf]; rfl
    refine ⟨fun h => ?_, fun h => a3 _ h (by omega)⟩
    obtain ⟨k, hk, hk1, hk2⟩ := searchFound_spec hf
    have hle : w.searchPos q ≤ k := by
      by_contra hc
      exact a2 k hk (by omega) hk2
    refine F64.le_trans ?_ hk1
    rcases Nat.lt_or_eq_of_le (show w.pick q ≤ k by omega) with h' | h'
    · exact List.pairwise_iff_getElem.1 hs _ _ h hk h'
    · have : ∀ j (hj : j < w.quantiles.length), j = k → w.quantiles[j].le w.quantiles[k] := by
        rintro j hj rfl; exact F64.le_refl' (hnan _ (List.getElem_mem _))
      exact this _ h h'

end WeightedSnapshot
open WeightedSnapshot

/-- **C94.** A percentile of a weighted snapshot in binary64, for any fraction `c` (rounded to a `float64`): it is a sampled value such that the samples sorted before
it have at most the fraction `c` of the total weight and those up to and including it at least that - up to `n 2⁻⁵⁰`. -/
theorem C94_weighted (samples cp : List WeightedSample) (hs : IsSorted samples cp) (hne : samples ≠ []) (hn : samples.length ≤ 2 ^ 40)
    (hw : ∀ s ∈ samples, ∃ w : ℚ, s.weight = .fin w ∧ 0 ≤ w) (hlo : 2 ^ (-990 : Int) ≤ Spec.totalWeight (pairs samples))
    (hhi : Spec.totalWeight (pairs samples) ≤ 2 ^ (990 : Int)) (c : ℚ) (h0 : 0 ≤ c) (h1 : c ≤ 1) :
    ∃ (k : Nat) (hk : k < cp.length), (new binary64 samples cp).getValue binary64 (binary64.rnd c) = .ok (F64.ofInt binary64 cp[k].value) ∧
      Spec.totalWeight (pairs (cp.take k)) ≤ (c + samples.length * 2 ^ (-50 : Int)) * Spec.totalWeight (pairs samples) ∧
      (c - samples.length * 2 ^ (-50 : Int)) * Spec.totalWeight (pairs samples) ≤ Spec.totalWeight (pairs (cp.take (k + 1))) := by
  simp only [total_pairs] at *
  have hU : Usable samples := ⟨hw, hlo, hhi⟩
  have hu0 := hulp_pos
  have hus := hulp_small
  have hlen := hs.1.length_eq
  have hn1 : (1 : ℚ) ≤ samples.length := by exact_mod_cast List.length_pos_iff.2 hne
  have hul : hulp ≤ samples.length * hulp := by nlinarith
  have hone : binary64.rnd 1 = .fin 1 := by have := binary64_int (n := 1) (by norm_num); exact_mod_cast this
  obtain ⟨q, e1, e2⟩ := rnd_err' (q := c) (B := 1) (by rw [abs_of_nonneg h0]; exact h1) (by norm_num) (by norm_num)
  have e2' : |q - c| ≤ hulp := by have : |q - c| ≤ hulp * 1 := e2
                                  linarith
  have hq0 : 0 ≤ q := by
    have := binary64_lawful.mono 0 c h0
    rw [binary64_lawful.zero, e1] at this; exact this
  have hq1 : q ≤ 1 := by
    have := binary64_lawful.mono c 1 h1
    rw [hone, e1] at this; exact this
  have hvl := (length_weights binary64 samples cp hlen).1
  have hql := (length_weights binary64 samples cp hlen).2.2
  have hpos : 0 < (new binary64 samples cp).values.length := by rw [hvl]; exact List.length_pos_iff.2 hne
  obtain ⟨hp, ev⟩ := getValue_pick binary64 (new binary64 samples cp) ((UniformSnapshot.bad_fin q).2 ⟨hq0, hq1⟩) hpos
  have hsorted := quantiles_sorted' hU hne hn hs
  obtain ⟨b1, b2⟩ := pick_between hsorted (by omega) hpos (q := .fin q) (fun h => by
      obtain ⟨x, e, hx⟩ := quantile_err hU hne hn hs 0 h
      have : (new binary64 samples cp).quantiles[0] = .fin 0 := by
        have h1 : ∀ (l : List F64) (hl : 0 < l.length), l = cumulative binary64 (.fin 0) (cp.map fun s => F64.div binary64 s.weight (totalWeight binary64 samples)) → l[0] = .fin 0 := by
          intro l hl e
          subst e
          rw [cumulative_get]; simp
        exact h1 _ h (quantiles_eq hne)
      rw [this]
      exact hq0) (by simp) (by
      intro x hx
      obtain ⟨i, hi, rfl⟩ := List.mem_iff_getElem.1 hx
      obtain ⟨y, e, _⟩ := quantile_err hU hne hn hs i hi
      rw [e]; simp)
  generalize hk : (new binary64 samples cp).pick (.fin q) = k at *
  have hkc : k < cp.length := by omega
  refine ⟨k, hkc, ?_, ?_, ?_⟩
  · rw [e1, ev, value_get hne hp hkc]
  all_goals rw [show (2 : ℚ) ^ (-50 : Int) = 8 * hulp by unfold hulp; norm_num]
  · obtain ⟨x, e, hx⟩ := quantile_err hU hne hn hs k (by omega)
    have h3 := b1 (by omega)
    rw [e] at h3
    have h3' : x ≤ q := h3
    have h4 : before cp k ≤ c + samples.length * (8 * hulp) := by
      have := (abs_le.1 hx).1
      have := (abs_le.1 e2').2
      nlinarith
    unfold before at h4
    rw [perm_sum hs.1, div_le_iff₀ hU.pos] at h4
    exact h4
  · have h4 : c - samples.length * (8 * hulp) ≤ before cp (k + 1) := by
      by_cases hlast : k + 1 < samples.length
      · obtain ⟨x, e, hx⟩ := quantile_err hU hne hn hs (k + 1) (by omega)
        have h3 := b2 (by omega)
        rw [e] at h3
        have h3' : q ≤ x := h3
        have := (abs_le.1 hx).2
        have := (abs_le.1 e2').1
        nlinarith
      · have : before cp (k + 1) = 1 := by
          unfold before
          rw [List.take_of_length_le (by omega), div_self]
          rw [perm_sum hs.1]
          exact hU.pos.ne'
        rw [this]
        have : 0 ≤ (samples.length : ℚ) * (8 * hulp) := mul_nonneg (by linarith only [hn1]) (by linarith only [hu0])
        linarith only [this, h1]
    unfold before at h4
    rw [perm_sum hs.1, le_div_iff₀ hU.pos] at h4
    exact h4

/-- **C94.** The named percentiles of a weighted snapshot are the ones their names say. -/
theorem C94_weighted_named (samples cp : List WeightedSample) (hs : IsSorted samples cp) (hne : samples ≠ []) (hn : samples.length ≤ 2 ^ 40)
    (hw : ∀ s ∈ samples, ∃ w : ℚ, s.weight = .fin w ∧ 0 ≤ w) (hlo : 2 ^ (-990 : Int) ≤ Spec.totalWeight (pairs samples))
    (hhi : Spec.totalWeight (pairs samples) ≤ 2 ^ (990 : Int)) :
    let near (g : Ret F64) (c : ℚ) : Prop := ∃ (k : Nat) (hk : k < cp.length), g = .ok (F64.ofInt binary64 cp[k].value) ∧
      Spec.totalWeight (pairs (cp.take k)) ≤ (c + samples.length * 2 ^ (-50 : Int)) * Spec.totalWeight (pairs samples) ∧
      (c - samples.length * 2 ^ (-50 : Int)) * Spec.totalWeight (pairs samples) ≤ Spec.totalWeight (pairs (cp.take (k + 1)))
    near ((new binary64 samples cp).getMedian binary64) 0.5 ∧ near ((new binary64 samples cp).get75thPercentile binary64) 0.75 ∧
      near ((new binary64 samples cp).get95thPercentile binary64) 0.95 ∧ near ((new binary64 samples cp).get98thPercentile binary64) 0.98 ∧
      near ((new binary64 samples cp).get99thPercentile binary64) 0.99 ∧ near ((new binary64 samples cp).get999thPercentile binary64) 0.999 := by
  have h := C94_weighted samples cp hs hne hn hw hlo hhi
  have e (c d : ℚ) (hc : c = d) (h0 : 0 ≤ d) (h1 : d ≤ 1) : ∃ (k : Nat) (hk : k < cp.length),
      (new binary64 samples cp).getValue binary64 (binary64.rnd d) = .ok (F64.ofInt binary64 cp[k].value) ∧
      Spec.totalWeight (pairs (cp.take k)) ≤ (c + samples.length * 2 ^ (-50 : Int)) * Spec.totalWeight (pairs samples) ∧
      (c - samples.length * 2 ^ (-50 : Int)) * Spec.totalWeight (pairs samples) ≤ Spec.totalWeight (pairs (cp.take (k + 1))) := by
    rw [hc]; exact h d h0 h1
  exact ⟨e _ _ (by norm_num) (by norm_num) (by norm_num), e _ _ (by norm_num) (by norm_num) (by norm_num), e _ _ (by norm_num) (by norm_num) (by norm_num),
    e _ _ (by norm_num) (by norm_num) (by norm_num), e _ _ (by norm_num) (by norm_num) (by norm_num), e _ _ (by norm_num) (by norm_num) (by norm_num)⟩

/-- Four samples with different weights, two of them with equal values: the reported median is a sampled value with at most half of the weight (4) before it. -/
example : ∃ (k : Nat) (hk : k < sampleSorted.length),
    (new binary64 sampleCase sampleSorted).getMedian binary64 = .ok (F64.ofInt binary64 sampleSorted[k].value) ∧
    Spec.totalWeight (pairs (sampleSorted.take k)) ≤ (0.5 + sampleCase.length * 2 ^ (-50 : Int)) * Spec.totalWeight (pairs sampleCase) := by
  have ht : Spec.totalWeight (pairs sampleCase) = 4 := by simp [Spec.totalWeight, pairs, sampleCase, wt]; norm_num
  obtain ⟨⟨k, hk, e, h, _⟩, _⟩ := C94_weighted_named sampleCase sampleSorted sampleCase_ok.2.1 (by simp [sampleCase]) (by norm_num [sampleCase]) (by
      intro s hs
      obtain ⟨w, e, h, _⟩ := sampleCase_ok.1 s hs
      exact ⟨w, e, h.le⟩) (by
      rw [ht]
      exact (zpow_le_zpow_right₀ (by norm_num) (by norm_num : (-990 : Int) ≤ 2)).trans (by norm_num)) (by
      rw [ht]
      exact le_trans (by norm_num : (4 : ℚ) ≤ 2 ^ (2 : Int)) (zpow_le_zpow_right₀ (by norm_num) (by norm_num)))
  exact ⟨k, hk, e, h⟩

end GoMetrics
