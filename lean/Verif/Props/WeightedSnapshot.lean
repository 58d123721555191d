import Verif.Proofs.WeightedSnapshot
/-! # C57-C62: weighted snapshots -/
namespace GoMetrics
open Rounding WeightedSnapshot

/-- Three samples used as the concrete case below: values 30, 10, 20 with weights 1, 2, 1. -/
def sampleCase : List WeightedSample := [⟨.fin 1, 30, .fin 1⟩, ⟨.fin 2, 10, .fin 2⟩, ⟨.fin 3, 20, .fin 1⟩]
def sampleSorted : List WeightedSample := [⟨.fin 2, 10, .fin 2⟩, ⟨.fin 3, 20, .fin 1⟩, ⟨.fin 1, 30, .fin 1⟩]

theorem sampleCase_ok : Positive exact sampleCase ∧ IsSorted sampleCase sampleSorted ∧ sampleCase ≠ [] := by
  refine ⟨?_, ⟨?_, ?_⟩, by simp [sampleCase]⟩
  · intro s hs
    simp only [sampleCase, List.mem_cons, List.not_mem_nil, or_false] at hs
    rcases hs with rfl | rfl | rfl
    · exact ⟨1, rfl, by norm_num, rfl⟩
    · exact ⟨2, rfl, by norm_num, rfl⟩
    · exact ⟨1, rfl, by norm_num, rfl⟩
  · exact List.isPerm_iff.1 (by decide)
  · simp [sampleSorted]

/-! ## C57 -/

/-- **C57.** The values are the samples' values in ascending order, in every arithmetic. -/
theorem C57_values (R : Rounding) (samples cp : List WeightedSample) (hs : IsSorted samples cp) :
    (new R samples cp).getValues.Perm (samples.map (·.value)) ∧ (new R samples cp).getValues.Pairwise (· ≤ ·) ∧
    (new R samples cp).size = samples.length := by
  have hl := hs.1.length_eq
  unfold getValues size new
  split
  · rename_i h0
    have : samples = [] := List.length_eq_zero_iff.1 h0
    subst this; simp
  · refine ⟨hs.1.map _, ?_, by simp [hl]⟩
    rw [List.pairwise_map]; exact hs.2

namespace WeightedSnapshot
theorem exact_form {samples cp : List WeightedSample} (hp : Positive exact samples) (hs : IsSorted samples cp) (hne : samples ≠ []) :
    (new exact samples cp).normalizedWeights = (cp.map (fun s => wt s / (cp.map wt).sum)).map F64.fin ∧
    (new exact samples cp).quantiles = (List.range cp.length).map (fun k => F64.fin (before cp k)) ∧ 0 < (cp.map wt).sum := by
  have h0 : ¬ samples.length = 0 := by rw [List.length_eq_zero_iff]; exact hne
  have hsum : (samples.map wt).sum = (cp.map wt).sum := (hs.1.map wt).sum_eq.symm
  have hpos : 0 < (cp.map wt).sum := by
    rw [← hsum]
    obtain ⟨a, b⟩ := total_pos exact_lawful hp hne
    rw [total_exact hp] at a b
    simp only [F64.le] at a
    exact lt_of_le_of_ne a (fun e => b (by rw [← e]))
  have hw : (cp.map fun s => F64.div exact s.weight (totalWeight exact samples)) = (cp.map (fun s => wt s / (cp.map wt).sum)).map F64.fin := by
    rw [List.map_map]
    refine List.map_congr_left fun s hs' => ?_
    rw [(wt_eq hp (hs.1.mem_iff.1 hs')).1, total_exact hp, hsum]
    simp only [F64.div, Function.comp, exact]
    rw [if_neg hpos.ne']
  refine ⟨?_, ?_, hpos⟩
  · unfold new; rw [if_neg h0]; exact hw
  · unfold new; rw [if_neg h0]
    show cumulative exact (.fin 0) _ = _
    rw [hw, cumulative_exact]
    simp only [List.length_map]
    refine List.map_congr_left fun k _ => ?_
    rw [zero_add, ← List.map_take]
    unfold before
    congr 1
    have : ∀ l : List WeightedSample, (l.map (fun s => wt s / (cp.map wt).sum)).sum = (l.map wt).sum / (cp.map wt).sum := by
      intro l
      induction l with
      | nil => simp
      | cons a t ih => simp only [List.map_cons, List.sum_cons, ih]; ring
    exact this _

theorem before_lt {samples cp : List WeightedSample} (hp : Positive exact samples) (hs : IsSorted samples cp) (hne : samples ≠ [])
    {i j : Nat} (hij : i < j) (hj : j ≤ cp.length) : before cp i < before cp j := by
  obtain ⟨_, _, hpos⟩ := exact_form hp hs hne
  unfold before
  refine div_lt_div_of_pos_right ?_ hpos
  have hall : ∀ s ∈ cp, 0 < wt s := fun s h => (wt_eq hp (hs.1.mem_iff.1 h)).2
  have e : cp.take j = cp.take i ++ (cp.drop i).take (j - i) := by
    rw [← List.take_add]; congr 1; omega
  rw [e, List.map_append, List.sum_append]
  have hpos' : 0 < (((cp.drop i).take (j - i)).map wt).sum := by
    refine List.sum_pos _ ?_ ?_
    · intro x hx
      obtain ⟨s, hs', rfl⟩ := List.mem_map.1 hx
      exact hall s (List.mem_of_mem_drop (List.mem_of_mem_take hs'))
    · intro he
      have : ((cp.drop i).take (j - i)).length = 0 := by
        have := congrArg List.length he
        simpa using this
      simp at this; omega
  linarith
end WeightedSnapshot

/-- **C57.** In exact arithmetic the normalised weight of a sample is its share of the total weight, and they sum to 1. -/
theorem C57_weights (samples cp : List WeightedSample) (hp : Positive exact samples) (hs : IsSorted samples cp) (hne : samples ≠ []) :
    ∃ shares : List ℚ, (new exact samples cp).normalizedWeights = shares.map F64.fin ∧ shares = cp.map (fun s => wt s / (samples.map wt).sum) ∧
      shares.sum = 1 := by
  obtain ⟨h1, _, hpos⟩ := exact_form hp hs hne
  have hsum : (samples.map wt).sum = (cp.map wt).sum := (hs.1.map wt).sum_eq.symm
  refine ⟨_, h1, by rw [hsum], ?_⟩
  have : ∀ l : List WeightedSample, (l.map (fun s => wt s / (cp.map wt).sum)).sum = (l.map wt).sum / (cp.map wt).sum := by
    intro l
    induction l with
    | nil => simp
    | cons a t ih => simp only [List.map_cons, List.sum_cons, ih]; ring
  rw [this, div_self hpos.ne']

/-- **C57.** In exact arithmetic the k-th quantile is the share of the weight before position k: the first is 0, they increase strictly and stay
below 1. -/
theorem C57_quantiles (samples cp : List WeightedSample) (hp : Positive exact samples) (hs : IsSorted samples cp) (hne : samples ≠ []) :
    (new exact samples cp).quantiles = (List.range samples.length).map (fun k => F64.fin (before cp k)) ∧ before cp 0 = 0 ∧
    (∀ i j, i < j → j < samples.length → before cp i < before cp j) ∧ ∀ k < samples.length, before cp k < 1 := by
  obtain ⟨_, h2, hpos⟩ := exact_form hp hs hne
  have hl := hs.1.length_eq
  rw [hl] at h2
  refine ⟨h2, by simp [before], fun i j hij hj => before_lt hp hs hne hij (by omega), fun k hk => ?_⟩
  have h1 := before_lt hp hs hne (show k < cp.length by omega) (le_refl _)
  have h3 : before cp cp.length = 1 := by unfold before; rw [List.take_length, div_self hpos.ne']
  linarith

/-- **C57.** In every lawful rounding (so in IEEE-754) the quantiles are ascending and none is negative or NaN. -/
theorem C57_quantiles_sorted (R : Rounding) (hR : R.Lawful) (samples cp : List WeightedSample) (hp : Positive R samples)
    (hs : IsSorted samples cp) :
    (new R samples cp).quantiles.Pairwise F64.le ∧ (∀ x ∈ (new R samples cp).quantiles, F64.le (.fin 0) x) ∧
    ∀ x, (new R samples cp).quantiles.head? = some x → x = .fin 0 := by
  obtain ⟨a, b⟩ := quantiles_sorted hR hp hs
  refine ⟨a, b, ?_⟩
  intro x hx
  unfold new at hx
  split at hx
  · simp at hx
  · cases cp with
    | nil => simp [cumulative] at hx
    | cons => simpa [cumulative] using hx.symm

/-! ## C58 -/

/-- **C58.** `GetValue` returns an error exactly when the quantile is NaN or outside [0, 1], whatever the snapshot. -/
theorem C58_error_iff (R : Rounding) (w : WeightedSnapshot) (q : F64) :
    (∃ v, w.getValue R q = .err v) ↔ q = .nan ∨ q.lt (.fin 0) ∨ F64.lt (.fin 1) q := by
  have h1 : badQuantile q = true ↔ q = .nan ∨ q.lt (.fin 0) ∨ F64.lt (.fin 1) q := by
    unfold badQuantile
    simp only [Bool.or_eq_true, decide_eq_true_iff]
    cases q <;> simp [F64.isNaN]
  rw [← h1]
  by_cases hb : badQuantile q = true
  · simp only [hb, iff_true]
    exact ⟨.fin 0, by unfold getValue; rw [if_pos hb]⟩
  · refine iff_of_false ?_ hb
    rintro ⟨v, hv⟩
    have hb' : badQuantile q = false := by simpa using hb
    by_cases hn : 0 < w.values.length
    · obtain ⟨_, e⟩ := getValue_pick R w hb' hn
      rw [hv] at e; simp at e
    · unfold getValue at hv
      rw [if_neg hb, if_pos (by omega)] at hv
      simp at hv

/-- **C58.** `GetValue` never panics, whatever the snapshot (even if its quantiles are NaN) and the quantile. -/
theorem C58_no_panic (R : Rounding) (w : WeightedSnapshot) (q : F64) : w.getValue R q ≠ .panic := by
  by_cases hb : badQuantile q = true
  · unfold getValue; rw [if_pos hb]; simp
  · have hb' : badQuantile q = false := by simpa using hb
    by_cases hn : 0 < w.values.length
    · obtain ⟨_, e⟩ := getValue_pick R w hb' hn
      rw [e]; simp
    · unfold getValue
      rw [if_neg hb, if_pos (by omega)]; simp

/-- **C58.** For a quantile in [0, 1] the answer is one of the sampled values (as a float64), or 0 if there are none — whatever the weights. -/
theorem C58_sampled (R : Rounding) (samples cp : List WeightedSample) (hs : IsSorted samples cp) (q : ℚ) (h0 : 0 ≤ q) (h1 : q ≤ 1) :
    (samples = [] ∧ (new R samples cp).getValue R (.fin q) = .ok (.fin 0)) ∨
    ∃ s ∈ samples, (new R samples cp).getValue R (.fin q) = .ok (F64.ofInt R s.value) := by
  have hg := (UniformSnapshot.bad_fin q).2 ⟨h0, h1⟩
  obtain ⟨hp, _, hsz⟩ := C57_values R samples cp hs
  by_cases hne : samples = []
  · left
    refine ⟨hne, ?_⟩
    subst hne
    unfold getValue
    rw [hg]; simp [new]
  · right
    have hn : 0 < (new R samples cp).values.length := by
      have : ((new R samples cp).values.length : Int) = samples.length := hsz
      have := List.length_pos_iff.2 hne
      omega
    obtain ⟨hpk, e⟩ := getValue_pick R (new R samples cp) hg hn
    have : (new R samples cp).values[pick (new R samples cp) (.fin q)] ∈ samples.map (·.value) := hp.mem_iff.1 (List.getElem_mem hpk)
    obtain ⟨s, hs', hv⟩ := List.mem_map.1 this
    exact ⟨s, hs', by rw [e, ← hv]⟩

namespace WeightedSnapshot
theorem min_ok {w : WeightedSnapshot} (hn : 0 < w.values.length) : w.getMin = .ok w.values[0] := by
  obtain ⟨h, e⟩ := UniformSnapshot.index_some (s := w.values) (i := 0) (by omega) (by omega)
  unfold getMin; rw [if_neg (by omega), e]; rfl

theorem max_ok {w : WeightedSnapshot} (hn : 0 < w.values.length) : w.getMax = .ok (w.values[w.values.length - 1]'(by omega)) := by
  obtain ⟨h, e⟩ := UniformSnapshot.index_some (s := w.values) (i := (w.values.length : Int) - 1) (by omega) (by omega)
  unfold getMax; rw [if_neg (by omega), e]
  have : ((w.values.length : Int) - 1).toNat = w.values.length - 1 := by omega
  simp only [this]

theorem values_pos {R : Rounding} {samples cp : List WeightedSample} (hs : IsSorted samples cp) (hne : samples ≠ []) :
    0 < (new R samples cp).values.length := by
  have := (length_weights R samples cp hs.1.length_eq).1
  have := List.length_pos_iff.2 hne
  omega
end WeightedSnapshot

/-- **C58.** Quantile 0 is the minimum, in every lawful rounding. -/
theorem C58_zero (R : Rounding) (hR : R.Lawful) (samples cp : List WeightedSample) (hp : Positive R samples) (hs : IsSorted samples cp)
    (hne : samples ≠ []) :
    ∃ lo : Int, (new R samples cp).getMin = .ok lo ∧ (∀ s ∈ samples, lo ≤ s.value) ∧ (new R samples cp).getValue R (.fin 0) = .ok (F64.ofInt R lo) := by
  have hn := values_pos (R := R) hs hne
  obtain ⟨q1, q2⟩ := quantiles_sorted hR hp hs
  obtain ⟨v1, v2, _⟩ := C57_values R samples cp hs
  refine ⟨_, min_ok hn, ?_, ?_⟩
  · intro s hs'
    have : s.value ∈ (new R samples cp).values := v1.mem_iff.2 (List.mem_map.2 ⟨s, hs', rfl⟩)
    obtain ⟨i, hi, e⟩ := List.mem_iff_getElem.1 this
    rw [← e]
    exact UniformSnapshot.sorted_get v2 hn hi (by omega)
  · obtain ⟨hpk, e⟩ := getValue_pick R (new R samples cp) ((UniformSnapshot.bad_fin 0).2 (by norm_num)) hn
    have hl := length_weights R samples cp hs.1.length_eq
    obtain ⟨a1, a2, a3⟩ := searchPos_spec q1 (.fin 0)
    have hz : (new R samples cp).searchPos (.fin 0) = 0 := by
      by_contra hc
      have h0 : 0 < (new R samples cp).quantiles.length := by omega
      exact a2 0 h0 (by omega) (q2 _ (List.getElem_mem h0))
    have hpick : pick (new R samples cp) (.fin 0) = 0 := by unfold pick; rw [hz]; split <;> simp
    rw [e]
    congr 2
    exact getElem_congr_idx hpick

/-! ## C59 -/

/-- **C59.** Quantiles are monotone, in every lawful rounding, whichever way the sort orders ties. -/
theorem C59_monotone (R : Rounding) (hR : R.Lawful) (samples cp : List WeightedSample) (hp : Positive R samples) (hs : IsSorted samples cp)
    (q q' : ℚ) (h0 : 0 ≤ q) (hqq : q ≤ q') (h1 : q' ≤ 1) :
    ∃ v v', (new R samples cp).getValue R (.fin q) = .ok v ∧ (new R samples cp).getValue R (.fin q') = .ok v' ∧ v.le v' := by
  have hg := (UniformSnapshot.bad_fin q).2 ⟨h0, by linarith⟩
  have hg' := (UniformSnapshot.bad_fin q').2 ⟨by linarith, h1⟩
  by_cases hne : samples = []
  · subst hne
    refine ⟨.fin 0, .fin 0, ?_, ?_, by simp [F64.le]⟩
    · unfold getValue; rw [hg]; simp [new]
    · unfold getValue; rw [hg']; simp [new]
  have hn := values_pos (R := R) hs hne
  obtain ⟨q1, _⟩ := quantiles_sorted hR hp hs
  obtain ⟨_, v2, _⟩ := C57_values R samples cp hs
  obtain ⟨hpk, e⟩ := getValue_pick R (new R samples cp) hg hn
  obtain ⟨hpk', e'⟩ := getValue_pick R (new R samples cp) hg' hn
  refine ⟨_, _, e, e', ?_⟩
  have hle := pick_mono q1 (show F64.le (.fin q) (.fin q') from hqq)
  refine hR.mono _ _ ?_
  exact_mod_cast UniformSnapshot.sorted_get v2 hpk hpk' hle

/-- **C59.** So the named percentiles are ordered. -/
theorem C59_percentiles (R : Rounding) (hR : R.Lawful) (hI : R.Ints) (samples cp : List WeightedSample) (hp : Positive R samples)
    (hs : IsSorted samples cp) :
    ∃ a b c d e f, (new R samples cp).getMedian R = .ok a ∧ (new R samples cp).get75thPercentile R = .ok b ∧
      (new R samples cp).get95thPercentile R = .ok c ∧ (new R samples cp).get98thPercentile R = .ok d ∧
      (new R samples cp).get99thPercentile R = .ok e ∧ (new R samples cp).get999thPercentile R = .ok f ∧
      a.le b ∧ b.le c ∧ c.le d ∧ d.le e ∧ e.le f := by
  have hone : R.Rep 1 := by have := hI 1 (by norm_num); simpa using this
  have key : ∀ x y : ℚ, 0 ≤ x → x ≤ y → y ≤ 1 →
      ∃ r r', (new R samples cp).getValue R (R.rnd x) = .ok r ∧ (new R samples cp).getValue R (R.rnd y) = .ok r' ∧ r.le r' := by
    intro x y hx hxy hy
    obtain ⟨p, ep, hp0, hp1, _⟩ := hR.between hR.rep_zero hone hx (by linarith : x ≤ 1)
    obtain ⟨p', ep', hp0', hp1', _⟩ := hR.between hR.rep_zero hone (by linarith : 0 ≤ y) hy
    have hpp : p ≤ p' := by have := hR.mono x y hxy; rw [ep, ep'] at this; exact this
    rw [ep, ep']
    exact C59_monotone R hR samples cp hp hs p p' hp0 hpp hp1'
  obtain ⟨a, b, ea, eb, hab⟩ := key (5 / 10) (75 / 100) (by norm_num) (by norm_num) (by norm_num)
  obtain ⟨b', c, eb', ec, hbc⟩ := key (75 / 100) (95 / 100) (by norm_num) (by norm_num) (by norm_num)
  obtain ⟨c', d, ec', ed, hcd⟩ := key (95 / 100) (98 / 100) (by norm_num) (by norm_num) (by norm_num)
  obtain ⟨d', e, ed', ee, hde⟩ := key (98 / 100) (99 / 100) (by norm_num) (by norm_num) (by norm_num)
  obtain ⟨e', f, ee', ef, hef⟩ := key (99 / 100) (999 / 1000) (by norm_num) (by norm_num) (by norm_num)
  have h1 : b' = b := by rw [eb] at eb'; simpa using eb'.symm
  have h2 : c' = c := by rw [ec] at ec'; simpa using ec'.symm
  have h3 : d' = d := by rw [ed] at ed'; simpa using ed'.symm
  have h4 : e' = e := by rw [ee] at ee'; simpa using ee'.symm
  subst h1 h2 h3 h4
  exact ⟨a, b', c', d', e', f, ea, eb, ec, ed, ee, ef, hab, hbc, hcd, hde, hef⟩

/-! ## C60 -/

namespace WeightedSnapshot
theorem quantile_get {samples cp : List WeightedSample} (hp : Positive exact samples) (hs : IsSorted samples cp) (hne : samples ≠ [])
    {k : Nat} (h : k < (new exact samples cp).quantiles.length) : (new exact samples cp).quantiles[k] = .fin (before cp k) := by
  have := (exact_form hp hs hne).2.1
  simp only [this, List.getElem_map, List.getElem_range]

theorem pos_exact {samples cp : List WeightedSample} (hp : Positive exact samples) (hs : IsSorted samples cp) (hne : samples ≠ [])
    {q : ℚ} {k : Nat} (hk : k ≤ cp.length) (hlo : ∀ i < k, before cp i < q) (hhi : k < cp.length → q ≤ before cp k) :
    (new exact samples cp).searchPos (.fin q) = k := by
  have hl := length_weights exact samples cp hs.1.length_eq
  have hcl := hs.1.length_eq
  obtain ⟨q1, _⟩ := quantiles_sorted exact_lawful hp hs
  obtain ⟨a1, a2, a3⟩ := searchPos_spec q1 (.fin q)
  rcases Nat.lt_trichotomy ((new exact samples cp).searchPos (.fin q)) k with h | h | h
  · have hh : (new exact samples cp).searchPos (.fin q) < (new exact samples cp).quantiles.length := by omega
    have := a3 _ hh (Nat.le_refl _)
    rw [quantile_get hp hs hne] at this
    have h2 := hlo _ h
    simp only [F64.le] at this
    linarith
  · exact h
  · have hh : k < (new exact samples cp).quantiles.length := by omega
    have := a2 _ hh h
    rw [quantile_get hp hs hne] at this
    have h2 := hhi (by omega)
    simp only [F64.le] at this
    exact absurd h2 this

theorem found_exact {samples cp : List WeightedSample} (hp : Positive exact samples) (hs : IsSorted samples cp) (hne : samples ≠ [])
    {k : Nat} (hk : k < cp.length) : (new exact samples cp).searchFound (.fin (before cp k)) = true ↔ k ∈ probes cp.length := by
  have hl := length_weights exact samples cp hs.1.length_eq
  have hcl := hs.1.length_eq
  have hql : (new exact samples cp).quantiles.length = cp.length := by omega
  unfold searchFound sortSearch
  rw [decide_eq_true_iff, hql]
  refine searchLoop_eq cp.length k _ (fun i hi => ?_) cp.length 0 (by omega) (by omega) (by omega) hk
  have hi' : i < (new exact samples cp).quantiles.length := by omega
  rw [List.getElem?_eq_getElem hi', Option.getD_some, quantile_get hp hs hne]
  refine decide_eq_decide.2 ?_
  unfold F64.eq
  simp only [F64.le]
  constructor
  · rintro ⟨a, b⟩
    rcases Nat.lt_trichotomy i k with h | h | h
    · have := before_lt hp hs hne h (by omega); linarith
    · exact h
    · have := before_lt hp hs hne h (by omega); linarith
  · rintro rfl; exact ⟨_root_.le_refl _, _root_.le_refl _⟩

theorem value_get {R : Rounding} {samples cp : List WeightedSample} (hne : samples ≠ []) {k : Nat}
    (h : k < (new R samples cp).values.length) (h' : k < cp.length) : (new R samples cp).values[k] = cp[k].value := by
  have h0 : ¬ samples.length = 0 := by rw [List.length_eq_zero_iff]; exact hne
  have : (new R samples cp).values = cp.map (·.value) := by unfold new; rw [if_neg h0]
  simp only [this, List.getElem_map]

theorem getValue_at {samples cp : List WeightedSample} (hs : IsSorted samples cp) (hne : samples ≠ []) {q : ℚ} (h0 : 0 ≤ q) (h1 : q ≤ 1)
    {k : Nat} (hk : k < cp.length) (hpk : (new exact samples cp).pick (.fin q) = k) :
    (new exact samples cp).getValue exact (.fin q) = .ok (.fin cp[k].value) := by
  have hn := values_pos (R := exact) hs hne
  obtain ⟨hlt, e⟩ := getValue_pick exact (new exact samples cp) ((UniformSnapshot.bad_fin q).2 ⟨h0, h1⟩) hn
  rw [e]
  have hlt' : k < (new exact samples cp).values.length := by rw [← hpk]; exact hlt
  have : (new exact samples cp).values[pick (new exact samples cp) (.fin q)] = cp[k].value := by
    rw [← value_get (R := exact) hne hlt' hk]
    exact getElem_congr_idx hpk
  rw [this]; rfl
end WeightedSnapshot

/-- **C60.** For a quantile strictly between the shares before position k and before position k + 1, the answer is the k-th value. -/
theorem C60_between (samples cp : List WeightedSample) (hp : Positive exact samples) (hs : IsSorted samples cp) (q : ℚ) (k : Nat)
    (hk : k < cp.length) (hlo : before cp k < q) (hhi : k + 1 < cp.length → q < before cp (k + 1)) (h1 : q ≤ 1) :
    (new exact samples cp).getValue exact (.fin q) = .ok (.fin cp[k].value) := by
  have hcl := hs.1.length_eq
  have hne : samples ≠ [] := by rintro rfl; simp at hcl; subst hcl; simp at hk
  have hl := length_weights exact samples cp hcl
  have h0 : 0 ≤ before cp k := by
    rcases Nat.eq_zero_or_pos k with h | h
    · subst h; simp [before]
    · have := before_lt hp hs hne h (by omega)
      have h0 : before cp 0 = 0 := by simp [before]
      linarith
  refine getValue_at hs hne (by linarith) h1 hk ?_
  have hpos := pos_exact hp hs hne (q := q) (k := k + 1) (by omega) (fun i hi => by
    rcases Nat.lt_or_eq_of_le (Nat.le_of_lt_succ hi) with h | h
    · have := before_lt hp hs hne h (by omega); linarith
    · subst h; exact hlo) (fun h => (hhi h).le)
  have hnf : (new exact samples cp).searchFound (.fin q) = false := by
    cases hf : (new exact samples cp).searchFound (.fin q) with
    | false => rfl
    | true =>
      obtain ⟨j, hj, e1, e2⟩ := searchFound_spec hf
      rw [quantile_get hp hs hne] at e1 e2
      simp only [F64.le] at e1 e2
      rcases Nat.lt_trichotomy j (k + 1) with h | h | h
      · rcases Nat.lt_or_eq_of_le (Nat.le_of_lt_succ h) with h | h
        · have := before_lt hp hs hne h (by omega); linarith
        · subst h; linarith
      · subst h; have := hhi (by omega); linarith
      · have a := before_lt hp hs hne h (by omega); have := hhi (by omega); linarith
  unfold pick
  rw [hnf, hpos]
  simp only [Bool.false_eq_true, if_false]
  omega

/-- **C60.** For a quantile equal to the share before position k the answer is the k-th value if the binary search happens to look there (or
k = 0), and the previous value otherwise. -/
theorem C60_boundary (samples cp : List WeightedSample) (hp : Positive exact samples) (hs : IsSorted samples cp) (k : Nat) (hk : k < cp.length) :
    (new exact samples cp).getValue exact (.fin (before cp k)) =
      .ok (.fin (if k ∈ probes cp.length then cp[k].value else (cp[k - 1]'(by omega)).value)) := by
  have hcl := hs.1.length_eq
  have hne : samples ≠ [] := by rintro rfl; simp at hcl; subst hcl; simp at hk
  have hl := length_weights exact samples cp hcl
  have h0 : 0 ≤ before cp k := by
    rcases Nat.eq_zero_or_pos k with h | h
    · subst h; simp [before]
    · have := before_lt hp hs hne h (by omega)
      have h0 : before cp 0 = 0 := by simp [before]
      linarith
  have h1 : before cp k ≤ 1 := ((C57_quantiles samples cp hp hs hne).2.2.2 k (by omega)).le
  have hpos := pos_exact hp hs hne (q := before cp k) (k := k) (by omega) (fun i hi => before_lt hp hs hne hi (by omega)) (fun _ => _root_.le_refl _)
  by_cases hm : k ∈ probes cp.length
  · simp only [hm, if_true]
    refine getValue_at hs hne h0 h1 hk ?_
    unfold pick
    rw [(found_exact hp hs hne hk).2 hm, hpos]
    simp only [if_true]; omega
  · simp only [hm, if_false]
    refine getValue_at hs hne h0 h1 (by omega) ?_
    have hnf : (new exact samples cp).searchFound (.fin (before cp k)) = false := by
      have := (found_exact hp hs hne hk).not.2 hm
      simpa using this
    unfold pick
    rw [hnf, hpos]
    simp only [Bool.false_eq_true, if_false]; omega

/-- **C60.** In particular every exact boundary in the lower half gets the previous value: there are at least n/2 - 1 wrong answers. -/
theorem C60_lower_half_wrong (samples cp : List WeightedSample) (hp : Positive exact samples) (hs : IsSorted samples cp) (k : Nat)
    (h1 : 1 ≤ k) (h2 : k < cp.length / 2) :
    (new exact samples cp).getValue exact (.fin (before cp k)) = .ok (.fin (cp[k - 1]'(by omega)).value) := by
  rw [C60_boundary samples cp hp hs k (by omega), if_neg]
  intro hm
  have := probes_ge _ _ hm
  omega

/-- **C60.** Four equal weights: quantile 1/4 is the share before position 1, whose value is 2, but the answer is 1. -/
theorem C60_definition_refuted :
    let s : List WeightedSample := [⟨.fin 1, 1, .fin 1⟩, ⟨.fin 2, 2, .fin 1⟩, ⟨.fin 3, 3, .fin 1⟩, ⟨.fin 4, 4, .fin 1⟩]
    before s 1 = 1 / 4 ∧ (new exact s s).getValue exact (.fin (1 / 4)) = .ok (.fin 1) := by
  intro s
  have hb : before s 1 = 1 / 4 := by simp [s, before, wt]; norm_num
  refine ⟨hb, ?_⟩
  have hp : Positive exact s := by
    intro x hx
    simp only [s, List.mem_cons, List.not_mem_nil, or_false] at hx
    rcases hx with rfl | rfl | rfl | rfl <;> exact ⟨1, rfl, by norm_num, rfl⟩
  have := C60_lower_half_wrong s s hp ⟨List.Perm.refl _, by simp [s]⟩ 1 (by omega) (by simp [s])
  rw [hb] at this
  rw [this]; simp [s]

/-! ## C61 -/

namespace WeightedSnapshot
theorem weightedSum_exact (l : List (Int × ℚ)) (acc : ℚ) :
    weightedSum exact (.fin acc) (l.map fun p => (p.1, F64.fin p.2)) = .fin (acc + (l.map fun p => (p.1 : ℚ) * p.2).sum) := by
  induction l generalizing acc with
  | nil => simp [weightedSum]
  | cons p t ih =>
    simp only [List.map_cons, weightedSum, List.sum_cons]
    have : F64.add exact (.fin acc) (F64.mul exact (F64.ofInt exact p.1) (.fin p.2)) = .fin (acc + p.1 * p.2) := rfl
    rw [this, ih]; congr 1; ring

theorem varianceSum_exact (l : List (Int × ℚ)) (m acc : ℚ) :
    varianceSum exact (.fin m) (.fin acc) (l.map fun p => (p.1, F64.fin p.2)) =
      .fin (acc + (l.map fun p => p.2 * ((p.1 : ℚ) - m) ^ 2).sum) := by
  induction l generalizing acc with
  | nil => simp [varianceSum]
  | cons p t ih =>
    simp only [List.map_cons, varianceSum, List.sum_cons]
    have : F64.add exact (.fin acc) (F64.mul exact (F64.mul exact (.fin p.2) (F64.sub exact (F64.ofInt exact p.1) (.fin m)))
        (F64.sub exact (F64.ofInt exact p.1) (.fin m))) = .fin (acc + p.2 * ((p.1 : ℚ) - m) ^ 2) := by
      simp only [F64.ofInt, exact, F64.sub, F64.neg, F64.add, F64.mul]; congr 1; ring
    rw [this, ih]; congr 1; ring

theorem zip_exact {samples cp : List WeightedSample} (hp : Positive exact samples) (hs : IsSorted samples cp) (hne : samples ≠ []) :
    (new exact samples cp).values.zip (new exact samples cp).normalizedWeights =
      (cp.map fun s => (s.value, wt s / (cp.map wt).sum)).map fun p => (p.1, F64.fin p.2) := by
  have h0 : ¬ samples.length = 0 := by rw [List.length_eq_zero_iff]; exact hne
  have hv : (new exact samples cp).values = cp.map (·.value) := by unfold new; rw [if_neg h0]
  rw [hv, (exact_form hp hs hne).1, List.map_map, List.map_map, List.zip_map']
  rfl

theorem mean_bounds {l : List WeightedSample} {lo hi : Int} (hw : ∀ s ∈ l, 0 < wt s) (hb : ∀ s ∈ l, lo ≤ s.value ∧ s.value ≤ hi) :
    (lo : ℚ) * (l.map wt).sum ≤ (l.map fun s => (s.value : ℚ) * wt s).sum ∧ (l.map fun s => (s.value : ℚ) * wt s).sum ≤ hi * (l.map wt).sum := by
  induction l with
  | nil => simp
  | cons s t ih =>
    obtain ⟨a, b⟩ := ih (fun s hs => hw s (by simp [hs])) (fun s hs => hb s (by simp [hs]))
    have h1 := hw s (by simp)
    obtain ⟨h2, h3⟩ := hb s (by simp)
    have h2' : (lo : ℚ) ≤ s.value := by exact_mod_cast h2
    have h3' : (s.value : ℚ) ≤ hi := by exact_mod_cast h3
    simp only [List.map_cons, List.sum_cons]
    constructor <;> nlinarith
end WeightedSnapshot

/-- **C61.** The mean is the weighted average of the samples (exact arithmetic) and lies between `GetMin()` and `GetMax()`. -/
theorem C61_mean (samples cp : List WeightedSample) (hp : Positive exact samples) (hs : IsSorted samples cp) (hne : samples ≠ []) :
    ∃ (m : ℚ) (lo hi : Int), (new exact samples cp).getMean exact = .ok (.fin m) ∧
      m = (samples.map fun s => (s.value : ℚ) * wt s).sum / (samples.map wt).sum ∧
      (new exact samples cp).getMin = .ok lo ∧ (new exact samples cp).getMax = .ok hi ∧ lo ≤ m ∧ m ≤ hi := by
  have hn := values_pos (R := exact) hs hne
  have hsum : (samples.map wt).sum = (cp.map wt).sum := (hs.1.map wt).sum_eq.symm
  have hsum2 : (samples.map fun s => (s.value : ℚ) * wt s).sum = (cp.map fun s => (s.value : ℚ) * wt s).sum :=
    (hs.1.map fun s => (s.value : ℚ) * wt s).sum_eq.symm
  obtain ⟨v1, v2, _⟩ := C57_values exact samples cp hs
  obtain ⟨_, _, hpos⟩ := exact_form hp hs hne
  have hmean : (new exact samples cp).getMean exact = .ok (.fin ((cp.map fun s => (s.value : ℚ) * wt s).sum / (cp.map wt).sum)) := by
    unfold getMean
    rw [if_neg (by omega), zip_exact hp hs hne, weightedSum_exact, zero_add, List.map_map]
    congr 2
    have : ∀ l : List WeightedSample, (l.map ((fun p : Int × ℚ => (p.1 : ℚ) * p.2) ∘ fun s => (s.value, wt s / (cp.map wt).sum))).sum =
        (l.map fun s => (s.value : ℚ) * wt s).sum / (cp.map wt).sum := by
      intro l
      induction l with
      | nil => simp
      | cons a t ih => simp only [List.map_cons, List.sum_cons, ih, Function.comp]; ring
    exact this cp
  refine ⟨_, _, _, hmean, by rw [hsum, hsum2], min_ok hn, max_ok hn, ?_, ?_⟩
  all_goals
    have hb := mean_bounds (l := samples) (lo := (new exact samples cp).values[0])
      (hi := (new exact samples cp).values[(new exact samples cp).values.length - 1]'(by omega)) (fun s h => (wt_eq hp h).2) (fun s hs' => by
        have : s.value ∈ (new exact samples cp).values := v1.mem_iff.2 (List.mem_map.2 ⟨s, hs', rfl⟩)
        obtain ⟨i, hi, e⟩ := List.mem_iff_getElem.1 this
        rw [← e]
        exact ⟨UniformSnapshot.sorted_get v2 _ hi (by omega), UniformSnapshot.sorted_get v2 hi _ (by omega)⟩)
    rw [hsum, hsum2] at hb
  · rw [le_div_iff₀ hpos]; exact hb.1
  · rw [div_le_iff₀ hpos]; exact hb.2

/-- **C61.** The variance is the weighted variance (exact arithmetic) and is not negative; zero exactly when all values are equal. -/
theorem C61_variance (samples cp : List WeightedSample) (hp : Positive exact samples) (hs : IsSorted samples cp) (hne : samples ≠ []) :
    ∃ m v : ℚ, (new exact samples cp).getMean exact = .ok (.fin m) ∧ (new exact samples cp).variance exact = .fin v ∧
      v = (samples.map fun s => wt s * ((s.value : ℚ) - m) ^ 2).sum / (samples.map wt).sum ∧ 0 ≤ v ∧
      (v = 0 ↔ ∀ s ∈ samples, ∀ t ∈ samples, s.value = t.value) := by
  obtain ⟨m, lo, hi, hm, hmv, hlo, hhi, _⟩ := C61_mean samples cp hp hs hne
  have hsum : (samples.map wt).sum = (cp.map wt).sum := (hs.1.map wt).sum_eq.symm
  obtain ⟨_, _, hpos⟩ := exact_form hp hs hne
  have hsum2 : (samples.map fun s => wt s * ((s.value : ℚ) - m) ^ 2).sum = (cp.map fun s => wt s * ((s.value : ℚ) - m) ^ 2).sum :=
    (hs.1.map fun s => wt s * ((s.value : ℚ) - m) ^ 2).sum_eq.symm
  have hv : (new exact samples cp).variance exact = .fin ((cp.map fun s => wt s * ((s.value : ℚ) - m) ^ 2).sum / (cp.map wt).sum) := by
    unfold variance
    rw [hm]
    show varianceSum exact (.fin m) _ _ = _
    rw [zip_exact hp hs hne, varianceSum_exact, zero_add, List.map_map]
    congr 1
    have : ∀ l : List WeightedSample, (l.map ((fun p : Int × ℚ => p.2 * ((p.1 : ℚ) - m) ^ 2) ∘ fun s => (s.value, wt s / (cp.map wt).sum))).sum =
        (l.map fun s => wt s * ((s.value : ℚ) - m) ^ 2).sum / (cp.map wt).sum := by
      intro l
      induction l with
      | nil => simp
      | cons a t ih => simp only [List.map_cons, List.sum_cons, ih, Function.comp]; ring
    exact this cp
  have hterm : ∀ s ∈ samples, 0 ≤ wt s * ((s.value : ℚ) - m) ^ 2 := fun s h => mul_nonneg (wt_eq hp h).2.le (sq_nonneg _)
  have hnn : 0 ≤ (samples.map fun s => wt s * ((s.value : ℚ) - m) ^ 2).sum := by
    refine List.sum_nonneg ?_
    intro x hx
    obtain ⟨s, hs', rfl⟩ := List.mem_map.1 hx
    exact hterm s hs'
  refine ⟨m, _, hm, hv, by rw [hsum, hsum2], by rw [← hsum2]; exact div_nonneg hnn hpos.le, ?_⟩
  rw [div_eq_zero_iff, or_iff_left hpos.ne', ← hsum2]
  constructor
  · intro h
    have hall : ∀ s ∈ samples, (s.value : ℚ) = m := by
      intro s hs'
      have h0 := List.all_zero_of_le_zero_le_of_sum_eq_zero (l := samples.map fun s => wt s * ((s.value : ℚ) - m) ^ 2)
        (by intro x hx; obtain ⟨w, hw, rfl⟩ := List.mem_map.1 hx; exact hterm w hw) h (List.mem_map.2 ⟨s, hs', rfl⟩)
      have := (mul_eq_zero.1 h0).resolve_left (wt_eq hp hs').2.ne'
      have := pow_eq_zero_iff (two_ne_zero) |>.1 this
      linarith
    intro s hs' t ht
    have := (hall s hs').trans (hall t ht).symm
    exact_mod_cast this
  · intro h
    refine List.sum_eq_zero ?_
    intro x hx
    obtain ⟨s, hs', rfl⟩ := List.mem_map.1 hx
    obtain ⟨a, b⟩ := mean_bounds (l := samples) (lo := s.value) (hi := s.value) (fun s h => (wt_eq hp h).2)
      (fun t ht => by have := h s hs' t ht; omega)
    have hm' : m = s.value := by
      rw [hmv, _root_.le_antisymm b a, mul_div_assoc, div_self (by rw [hsum]; exact hpos.ne'), mul_one]
    rw [hm']; ring

/-- **C61.** `GetMin`, `GetMax` and `GetMean` fail exactly on an empty snapshot; `GetStdDev` never fails; none panics. -/
theorem C61_errors (R : Rounding) (sqrt : F64 → F64) (samples cp : List WeightedSample) (hs : IsSorted samples cp) :
    let w := new R samples cp
    ((∃ v, w.getMin = .err v) ↔ samples = []) ∧ ((∃ v, w.getMax = .err v) ↔ samples = []) ∧ ((∃ v, w.getMean R = .err v) ↔ samples = []) ∧
    (∃ v, w.getStdDev R sqrt = .ok v) ∧ w.getMin ≠ .panic ∧ w.getMax ≠ .panic ∧ w.getMean R ≠ .panic := by
  intro w
  have hstd : ∃ v, w.getStdDev R sqrt = .ok v := by unfold getStdDev; split <;> exact ⟨_, rfl⟩
  by_cases hne : samples = []
  · subst hne
    have h0 : w.values.length = 0 := by simp [w, new]
    have e1 : w.getMin = .err 0 := by unfold getMin; rw [if_pos h0]
    have e2 : w.getMax = .err 0 := by unfold getMax; rw [if_pos h0]
    have e3 : w.getMean R = .err (.fin 0) := by unfold getMean; rw [if_pos h0]
    rw [e1, e2, e3]
    simp [hstd]
  · have hn : 0 < w.values.length := values_pos hs hne
    have e3 : w.getMean R = .ok (weightedSum R (.fin 0) (w.values.zip w.normalizedWeights)) := by unfold getMean; rw [if_neg (by omega)]
    rw [min_ok hn, max_ok hn, e3]
    simp [hne, hstd]

/-! ## C62 -/

/-- **C62.** Multiplying all weights by the same positive factor gives the very same snapshot (exact arithmetic). -/
theorem C62_scale (samples cp : List WeightedSample) (hp : Positive exact samples) (hs : IsSorted samples cp) (c : ℚ) (hc : 0 < c)
    (f : WeightedSample → WeightedSample) (hf : ∀ s w, s.weight = .fin w → (f s).value = s.value ∧ (f s).weight = .fin (c * w)) :
    IsSorted (samples.map f) (cp.map f) ∧ new exact (samples.map f) (cp.map f) = new exact samples cp := by
  have hval : ∀ s ∈ samples, (f s).value = s.value ∧ (f s).weight = .fin (c * wt s) := fun s h => hf s _ (wt_eq hp h).1
  have hvalc : ∀ s ∈ cp, (f s).value = s.value ∧ (f s).weight = .fin (c * wt s) := fun s h => hval s (hs.1.mem_iff.1 h)
  have hs' : IsSorted (samples.map f) (cp.map f) := by
    refine ⟨hs.1.map f, ?_⟩
    rw [List.pairwise_map]
    refine List.Pairwise.imp_of_mem ?_ hs.2
    intro a b ha hb h
    rw [(hvalc a ha).1, (hvalc b hb).1]; exact h
  refine ⟨hs', ?_⟩
  have hp' : Positive exact (samples.map f) := by
    intro s hs''
    obtain ⟨t, ht, rfl⟩ := List.mem_map.1 hs''
    exact ⟨c * wt t, (hval t ht).2, mul_pos hc (wt_eq hp ht).2, rfl⟩
  by_cases hne : samples = []
  · subst hne; simp [new]
  have hne' : samples.map f ≠ [] := by simpa using hne
  have hwt : ∀ s ∈ cp, wt (f s) = c * wt s := by intro s h; unfold wt; rw [(hvalc s h).2]; rfl
  have hsumw : ((cp.map f).map wt).sum = c * (cp.map wt).sum := by
    rw [List.map_map, ← List.sum_map_mul_left]
    congr 1
    exact List.map_congr_left hwt
  obtain ⟨a1, a2, apos⟩ := exact_form hp hs hne
  obtain ⟨b1, b2, bpos⟩ := exact_form hp' hs' hne'
  have e1 : (new exact (samples.map f) (cp.map f)).values = (new exact samples cp).values := by
    have h0 : ¬ samples.length = 0 := by rw [List.length_eq_zero_iff]; exact hne
    unfold new
    rw [if_neg (by simpa using hne), if_neg h0]
    simp only [List.map_map]
    exact List.map_congr_left fun s h => (hvalc s h).1
  have e2 : (new exact (samples.map f) (cp.map f)).normalizedWeights = (new exact samples cp).normalizedWeights := by
    rw [a1, b1]
    congr 1
    rw [List.map_map]
    refine List.map_congr_left fun s h => ?_
    simp only [Function.comp]
    rw [hsumw, hwt s h, mul_div_mul_left _ _ hc.ne']
  have e3 : (new exact (samples.map f) (cp.map f)).quantiles = (new exact samples cp).quantiles := by
    rw [a2, b2]
    simp only [List.length_map]
    refine List.map_congr_left fun k _ => ?_
    congr 1
    unfold before
    rw [hsumw, ← List.map_take, List.map_map]
    have : ((cp.take k).map (wt ∘ f)).sum = c * ((cp.take k).map wt).sum := by
      rw [← List.sum_map_mul_left]
      congr 1
      exact List.map_congr_left fun s h => hwt s (List.mem_of_mem_take h)
    rw [this, mul_div_mul_left _ _ hc.ne']
  cases hx : new exact (samples.map f) (cp.map f)
  cases hy : new exact samples cp
  rw [hx, hy] at e1 e2 e3
  simp only at e1 e2 e3
  rw [e1, e2, e3]

example : ∃ v, (new exact sampleCase sampleSorted).getValue exact (.fin (3 / 5)) = .ok v ∧ v = .fin 20 := by
  obtain ⟨a, b, _⟩ := sampleCase_ok
  have h := C60_between sampleCase sampleSorted a b (3 / 5) 1 (by simp [sampleSorted]) (by simp [before, sampleSorted, wt]; norm_num)
    (fun _ => by simp [before, sampleSorted, wt]; norm_num) (by norm_num)
  exact ⟨_, h, by simp [sampleSorted]⟩

end GoMetrics
