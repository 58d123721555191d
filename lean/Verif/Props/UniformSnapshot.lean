import Verif.Proofs.UniformSnapshot
import Verif.Props.UniformReservoir
/-! # C50, C54-C56: snapshots of a uniform reservoir -/
namespace GoMetrics
open Rounding UniformSnapshot

/-! ## C50 -/

/-- **C50.** Once the reservoir is full, the values of a snapshot are a permutation of a sample of `Size()` recorded values, from pairwise
different positions of the stream. -/
theorem C50_full (capacity : Nat) (h : List (Int × List Int)) (hl : h.length < 2 ^ 63) (hw : ∀ e ∈ h, ∀ x ∈ e.2, 0 ≤ x)
    (hfull : capacity ≤ h.length) :
    let r := (UniformReservoir.new capacity).run h
    r.getSnapshot.size = r.size ∧ ∃ idx : List Nat, idx.Nodup ∧ (∀ i ∈ idx, i < h.length) ∧
      (r.getSnapshot.getValues.map some).Perm (idx.map (fun i => (h.map Prod.fst)[i]?)) := by
  intro r
  have hlen : r.values.length = capacity := by show (UniformReservoir.run _ _).values.length = _; rw [UniformReservoir.length_run]; simp [UniformReservoir.new]
  obtain ⟨idx, a, _, c, d, _⟩ := C49_contents capacity h hl hw
  rw [show capacity - h.length = 0 by omega] at d
  simp only [List.replicate_zero, List.append_nil] at d
  refine ⟨?_, idx, a, c, ?_⟩
  · have hs : r.size = ((min h.length capacity : Nat) : Int) := by
      exact C48_size capacity h hl
    rw [hs]
    unfold UniformSnapshot.size UniformReservoir.getSnapshot
    rw [length_new, hlen]; congr 1; omega
  · rw [← d]
    exact (perm_new _).map some

/-- **C50.** Always: a snapshot has as many values as the reservoir has slots, and they are the recorded sample and as many zeros as there are
unused slots. -/
theorem C50_padded (capacity : Nat) (h : List (Int × List Int)) (hl : h.length < 2 ^ 63) (hw : ∀ e ∈ h, ∀ x ∈ e.2, 0 ≤ x)
    (hnot : h.length ≤ capacity) :
    let r := (UniformReservoir.new capacity).run h
    r.getSnapshot.size = capacity ∧
      r.getSnapshot.getValues.Perm (h.map Prod.fst ++ List.replicate (capacity - h.length) 0) := by
  intro r
  have hlen : r.values.length = capacity := by show (UniformReservoir.run _ _).values.length = _; rw [UniformReservoir.length_run]; simp [UniformReservoir.new]
  obtain ⟨idx, _, _, _, d, e⟩ := C49_contents capacity h hl hw
  refine ⟨by unfold UniformSnapshot.size UniformReservoir.getSnapshot; rw [length_new, hlen], ?_⟩
  rw [e hnot] at d
  have h1 : (List.range h.length).map (fun i => (h.map Prod.fst)[i]?) = (h.map Prod.fst).map some := by
    apply List.ext_getElem (by simp)
    intro i h1 h2
    simp only [List.length_map, List.length_range] at h1
    simp [h1]
  rw [h1, ← List.map_replicate, ← List.map_append] at d
  have hv : r.values = h.map Prod.fst ++ List.replicate (capacity - h.length) 0 := List.map_injective_iff.2 (Option.some_injective _) d
  rw [← hv]
  exact perm_new _

/-- **C50.** So before the reservoir is full a snapshot does not report the sample: after recording 5 and 7 into four slots it reports four
values, with minimum 0. -/
theorem C50_sample_refuted :
    let r := (UniformReservoir.new 4).run [(5, []), (7, [])]
    r.size = 2 ∧ r.getSnapshot.size = 4 ∧ r.getSnapshot.getValues = [0, 0, 5, 7] ∧ r.getSnapshot.getMin = .ok 0 := by decide

/-! ## C54 -/

/-- **C54.** `GetValue` returns an error exactly when the quantile is NaN or outside [0, 1], whatever the snapshot and the rounding. -/
theorem C54_error_iff (R : Rounding) (u : UniformSnapshot) (q : F64) :
    (∃ v, u.getValue R q = .err v) ↔ q = .nan ∨ q.lt (.fin 0) ∨ F64.lt (.fin 1) q := by
  have h1 : badQuantile q = true ↔ q = .nan ∨ q.lt (.fin 0) ∨ F64.lt (.fin 1) q := by
    unfold badQuantile
    simp only [Bool.or_eq_true, decide_eq_true_iff]
    cases q <;> simp [F64.isNaN]
  rw [← h1]
  by_cases hb : badQuantile q = true
  · simp only [hb, iff_true]
    exact ⟨.fin 0, by unfold getValue; rw [if_pos hb]⟩
  · refine iff_of_false ?_ hb
    rintro ⟨v, hv⟩
    have hb' : badQuantile q = false := by simpa using hb
    by_cases hn : 0 < u.values.length
    · rcases getValue_cases R u hb' hn with ⟨_, e⟩ | ⟨_, _, e⟩ | ⟨_, _, _, _, _, _, e⟩ <;> rw [hv] at e <;> simp at e
    · unfold getValue at hv
      rw [if_neg hb, if_pos (by unfold size; omega)] at hv
      simp at hv

/-- **C54.** `GetValue` never panics, whatever the snapshot, the quantile and the rounding. -/
theorem C54_no_panic (R : Rounding) (u : UniformSnapshot) (q : F64) : u.getValue R q ≠ .panic := by
  by_cases hb : badQuantile q = true
  · unfold getValue; rw [if_pos hb]; simp
  · have hb' : badQuantile q = false := by simpa using hb
    by_cases hn : 0 < u.values.length
    · rcases getValue_cases R u hb' hn with ⟨_, e⟩ | ⟨_, _, e⟩ | ⟨_, _, _, _, _, _, e⟩ <;> rw [e] <;> simp
    · unfold getValue
      rw [if_neg hb, if_pos (by unfold size; omega)]; simp

/-- **C54.** An empty snapshot answers 0. -/
theorem C54_empty (R : Rounding) (q : ℚ) (h0 : 0 ≤ q) (h1 : q ≤ 1) : (new []).getValue R (.fin q) = .ok (.fin 0) := by
  have := (bad_fin q).2 ⟨h0, h1⟩
  unfold getValue
  rw [this]; simp [new, size]

namespace UniformSnapshot
theorem range_aux {R : Rounding} (hR : R.Lawful) {vs : List Int} (hfit : Fits R vs) (hne : vs ≠ []) {q : ℚ} (h0 : 0 ≤ q) (h1 : q ≤ 1) :
    ∃ (r : ℚ) (hn : 0 < (new vs).values.length), (new vs).getValue R (.fin q) = .ok (.fin r) ∧
      ((new vs).values[0] : ℚ) ≤ r ∧ r ≤ ((new vs).values[(new vs).values.length - 1]'(by omega) : ℚ) := by
  have hn : 0 < (new vs).values.length := by rw [length_new]; exact List.length_pos_iff.2 hne
  have hs := sorted_new vs
  have hm : ∀ {i : Nat} (h : i < (new vs).values.length), (new vs).values[i] ∈ vs := fun h => mem_new.1 (List.getElem_mem h)
  rcases getValue_cases R (new vs) ((bad_fin q).2 ⟨h0, h1⟩) hn with ⟨_, e⟩ | ⟨_, _, e⟩ | ⟨i, hi, p, _, _, hf, e⟩
  · refine ⟨_, hn, by rw [e, F64.ofInt, hfit.val _ (hm hn)], le_refl _, ?_⟩
    exact_mod_cast sorted_get hs _ _ (by omega)
  · refine ⟨_, hn, by rw [e, F64.ofInt, hfit.val _ (hm (by omega))], ?_, le_refl _⟩
    exact_mod_cast sorted_get hs _ _ (by omega)
  · have hab := sorted_get hs (show i < (new vs).values.length by omega) hi (by omega)
    obtain ⟨r, er, hr0, hr1⟩ := interp_between hR hf hfit.one hab (hfit.val _ (hm _)) (hfit.val _ (hm hi)) (hfit.diff _ (hm _) _ (hm hi) hab)
      (hfit.nowrap _ (hm _) _ (hm hi) hab)
    refine ⟨r, hn, by rw [e, er], ?_, ?_⟩
    · refine le_trans ?_ hr0
      exact_mod_cast sorted_get hs hn (show i < (new vs).values.length by omega) (by omega)
    · refine le_trans hr1 ?_
      exact_mod_cast sorted_get hs hi (show (new vs).values.length - 1 < _ by omega) (by omega)
end UniformSnapshot

/-- What `GetMin` and `GetMax` return (see `C56_min_max`). -/
theorem C54_bounds_are (vs : List Int) (hne : vs ≠ []) : ∃ (h : 0 < (new vs).values.length),
    (new vs).getMin = .ok (new vs).values[0] ∧ (new vs).getMax = .ok ((new vs).values[(new vs).values.length - 1]'(by omega)) := by
  have hn : 0 < (new vs).values.length := by rw [length_new]; exact List.length_pos_iff.2 hne
  have e0 : ¬ (new vs).size = 0 := by unfold size; omega
  refine ⟨hn, ?_, ?_⟩
  · obtain ⟨h, e⟩ := index_some (s := (new vs).values) (i := 0) (by omega) (by omega)
    unfold getMin; rw [if_neg e0, e]; rfl
  · obtain ⟨h, e⟩ := index_some (s := (new vs).values) (i := (new vs).size - 1) (by unfold size; omega) (by unfold size; omega)
    unfold getMax; rw [if_neg e0, e]
    have : ((new vs).size - 1).toNat = (new vs).values.length - 1 := by unfold size; omega
    simp only [this]

/-- **C54.** For every quantile in [0, 1] the answer is a number between `GetMin()` and `GetMax()` — in IEEE-754 arithmetic and in every other
rounding that represents the integers below 2^53, for values below 2^52. -/
theorem C54_range (R : Rounding) (hR : R.Lawful) (hI : R.Ints) (vs : List Int) (hv : ∀ v ∈ vs, |v| < 2 ^ 52) (hne : vs ≠ [])
    (q : ℚ) (h0 : 0 ≤ q) (h1 : q ≤ 1) :
    ∃ (r : ℚ) (lo hi : Int), (new vs).getValue R (.fin q) = .ok (.fin r) ∧ (new vs).getMin = .ok lo ∧ (new vs).getMax = .ok hi ∧
      lo ≤ r ∧ r ≤ hi := by
  obtain ⟨r, hn, e, a, b⟩ := range_aux hR (fits_of_small hI hv) hne h0 h1
  obtain ⟨_, c, d⟩ := C54_bounds_are vs hne
  exact ⟨r, _, _, e, c, d, a, b⟩

/-- **C54.** In exact arithmetic no two values may be 2^63 or more apart. -/
theorem C54_range_exact (vs : List Int) (hv : ∀ a ∈ vs, ∀ b ∈ vs, b - a < 2 ^ 63) (hne : vs ≠ []) (q : ℚ) (h0 : 0 ≤ q) (h1 : q ≤ 1) :
    ∃ (r : ℚ) (lo hi : Int), (new vs).getValue exact (.fin q) = .ok (.fin r) ∧ (new vs).getMin = .ok lo ∧ (new vs).getMax = .ok hi ∧
      lo ≤ r ∧ r ≤ hi := by
  obtain ⟨r, hn, e, a, b⟩ := range_aux exact_lawful (fits_exact hv) hne h0 h1
  obtain ⟨_, c, d⟩ := C54_bounds_are vs hne
  exact ⟨r, _, _, e, c, d, a, b⟩

example : (∀ v ∈ ([3, -1, 7] : List Int), |v| < 2 ^ 52) ∧ (new [3, -1, 7]).getMin = .ok (-1) ∧ (new [3, -1, 7]).getMax = .ok 7 := by
  refine ⟨?_, by decide, by decide⟩
  intro v hv
  simp only [List.mem_cons, List.not_mem_nil, or_false] at hv
  rcases hv with rfl | rfl | rfl <;> norm_num

/-- **C54.** In float64 the bound of 2^52 on the values is needed, without any wrap-around: of 2^54+6 and 2^54+9 the 60% quantile is reported as
2^54+12, above the maximum (`0.6` is the float64 nearest to it). -/
theorem C54_range_large_refuted :
    (new [18014398509481990, 18014398509481993]).getValue binary64 (.fin (5404319552844595 / 9007199254740992)) = .ok (.fin 18014398509481996) ∧
    (new [18014398509481990, 18014398509481993]).getMax = .ok 18014398509481993 := by
  refine ⟨by decide +kernel, by decide⟩

/-- **C54.** Without the bound it is false: of -2^62 and 2^62 the median is -2^63, because the difference wraps. -/
theorem C54_range_refuted :
    (new [-4611686018427387904, 4611686018427387904]).getValue exact (.fin (1 / 2)) = .ok (.fin (-9223372036854775808)) ∧
    (new [-4611686018427387904, 4611686018427387904]).getMin = .ok (-4611686018427387904) := by
  refine ⟨?_, by decide⟩
  have hb := (bad_fin (1 / 2)).2 (by norm_num)
  have hvals : (new [-4611686018427387904, 4611686018427387904]).values = [-4611686018427387904, 4611686018427387904] := by decide
  have hpos : position exact (new [-4611686018427387904, 4611686018427387904]) (.fin (1 / 2)) = .fin (3 / 2) := by
    unfold position size; rw [hvals]; simp only [F64.ofInt, exact, F64.mul]; norm_num
  have htr : truncInt (.fin (3 / 2)) = 1 := by
    unfold truncInt toInt64
    have : ⌊(3 / 2 : ℚ)⌋ = 1 := by rw [Int.floor_eq_iff]; norm_num
    simp only [this]
    norm_num
  have hsz : size (new [-4611686018427387904, 4611686018427387904]) = 2 := by unfold size; rw [hvals]; rfl
  unfold getValue
  simp only [hb, hpos, htr, hsz, hvals]
  have hfl : F64.floor (.fin (3 / 2)) = .fin 1 := by
    have : ⌊(3 / 2 : ℚ)⌋ = 1 := by rw [Int.floor_eq_iff]; norm_num
    simp [F64.floor, this]
  simp only [hfl]
  have i0 : index [-4611686018427387904, 4611686018427387904] (1 - 1) = some (-4611686018427387904) := by decide
  have i1 : index [-4611686018427387904, 4611686018427387904] 1 = some 4611686018427387904 := by decide
  simp only [i0, i1]
  have hw : i64 (4611686018427387904 - -4611686018427387904) = -9223372036854775808 := by decide
  simp only [hw]
  norm_num [F64.sub, F64.neg, F64.add, F64.mul, F64.ofInt, exact]

/-- **C54.** Which number it is, in exact arithmetic: with the values in ascending order, v_1 ≤ ... ≤ v_n, and p = q (n + 1), it is v_1 if
p < 1, v_n if p ≥ n, and otherwise v_k + (p - k)(v_{k+1} - v_k) with k the integral part of p. -/
theorem C54_interpolation (sorted : List Int) (hs : sorted.Pairwise (· ≤ ·)) (hv : ∀ a ∈ sorted, ∀ b ∈ sorted, b - a < 2 ^ 63)
    (hlen : sorted.length + 1 < 2 ^ 63) (vs : List Int) (hp : sorted.Perm vs) (q : ℚ) (h0 : 0 ≤ q) (h1 : q ≤ 1) (k : Nat)
    (hk : (k : ℚ) ≤ q * (vs.length + 1)) (hk' : q * (vs.length + 1) < k + 1) :
    (k = 0 → ∀ v, sorted.head? = some v → (new vs).getValue exact (.fin q) = .ok (.fin v)) ∧
    (vs.length ≤ k → ∀ v, sorted.getLast? = some v → (new vs).getValue exact (.fin q) = .ok (.fin v)) ∧
    (∀ j, k = j + 1 → ∀ a b, sorted[j]? = some a → sorted[j + 1]? = some b →
      (new vs).getValue exact (.fin q) = .ok (.fin (a + (q * (vs.length + 1) - k) * (b - a)))) := by
  have hval : (new vs).values = sorted := by
    refine List.Perm.eq_of_pairwise (le := (· ≤ ·)) (fun a b _ _ h h' => le_antisymm h h') (sorted_new vs) hs ((perm_new vs).trans hp.symm)
  have hl : sorted.length = vs.length := hp.length_eq
  have hpos : (new vs).position exact (.fin q) = .fin (q * (vs.length + 1)) := by
    unfold position size; rw [length_new]; simp only [F64.ofInt, exact, F64.mul]; push_cast; rfl
  have hge : (0 : ℚ) ≤ q * (vs.length + 1) := by positivity
  have hfl : ⌊q * ((vs.length : ℚ) + 1)⌋ = k := by rw [Int.floor_eq_iff]; exact ⟨by exact_mod_cast hk, by exact_mod_cast hk'⟩
  have hkb : k < 9223372036854775808 := by
    have : (k : ℚ) < vs.length + 2 := by
      have hn : (0 : ℚ) ≤ (vs.length : ℚ) := by positivity
      nlinarith
    have : k < vs.length + 2 := by exact_mod_cast this
    norm_num at hlen; omega
  have htr : truncInt ((new vs).position exact (.fin q)) = k := by
    rw [hpos]
    unfold truncInt toInt64
    simp only [if_pos hge, hfl]
    rw [if_pos (by omega)]; rfl
  have hg := (bad_fin q).2 ⟨h0, h1⟩
  refine ⟨fun hk0 v hh => ?_, fun hkn v hh => ?_, fun j hkj a b ha hb => ?_⟩
  · have hn : 0 < (new vs).values.length := by
      rw [hval]; cases sorted with
      | nil => simp at hh
      | cons => simp
    rcases getValue_cases exact (new vs) hg hn with ⟨h, e⟩ | ⟨h, _, e⟩ | ⟨i, hi, p, _, h, hf, e⟩
    · rw [e]
      have : (new vs).values[0] = v := by
        simp only [hval]
        cases sorted with
        | nil => simp at hh
        | cons => simpa using hh
      rw [this]; rfl
    · rw [htr] at h; omega
    · rw [htr] at h; omega
  · have hne : sorted ≠ [] := by rintro rfl; simp at hh
    have hn : 0 < (new vs).values.length := by rw [hval]; exact List.length_pos_iff.2 hne
    have hln := length_new vs
    rcases getValue_cases exact (new vs) hg hn with ⟨h, e⟩ | ⟨h, _, e⟩ | ⟨i, hi, p, _, h, hf, e⟩
    · rw [htr] at h; omega
    · rw [e]
      have : (new vs).values[(new vs).values.length - 1] = v := by
        simp only [hval]
        rw [List.getLast?_eq_some_getLast hne, List.getLast_eq_getElem] at hh
        simpa using hh
      rw [this]; rfl
    · rw [htr] at h; omega
  · obtain ⟨hj, ea⟩ := List.getElem?_eq_some_iff.1 ha
    obtain ⟨hj', eb⟩ := List.getElem?_eq_some_iff.1 hb
    have hn : 0 < (new vs).values.length := by rw [hval]; omega
    rcases getValue_cases exact (new vs) hg hn with ⟨h, e⟩ | ⟨h, h', e⟩ | ⟨i, hi, p, hpp, h, hf, e⟩
    · rw [htr] at h; omega
    · rw [htr, hval] at h'; omega
    · rw [htr] at h
      have hij : i = j := by omega
      subst hij
      rw [hpos, F64.fin.injEq] at hpp
      rw [e]
      have e1 : (new vs).values[i] = a := by simp only [hval]; exact ea
      have e2 : (new vs).values[i + 1] = b := by simp only [hval]; exact eb
      rw [e1, e2]
      have hab : a ≤ b := by rw [← ea, ← eb]; exact sorted_get hs hj hj' (by omega)
      have hw := hv a (by rw [← ea]; exact List.getElem_mem _) b (by rw [← eb]; exact List.getElem_mem _)
      rw [i64_of_in (by unfold InI64; constructor <;> omega), ← hpp]
      simp only [F64.ofInt, exact, F64.mul, F64.add]
      congr 2
      rw [hkj]
      push_cast; ring

/-- The median of 1, 2, 4, 8 is 3: p = 2.5, k = 2. -/
example : (new [8, 1, 4, 2]).getValue exact (.fin (1 / 2)) = .ok (.fin 3) := by
  have h := (C54_interpolation [1, 2, 4, 8] (by decide) (by decide) (by norm_num) [8, 1, 4, 2] (by decide) (1 / 2) (by norm_num) (by norm_num) 2
    (by norm_num) (by norm_num)).2.2 1 rfl 2 4 rfl rfl
  rw [h]; norm_num

/-- **C54.** Quantile 0 is the minimum. -/
theorem C54_zero (R : Rounding) (hR : R.Lawful) (vs : List Int) (hne : vs ≠ []) :
    ∃ lo : Int, (new vs).getMin = .ok lo ∧ (new vs).getValue R (.fin 0) = .ok (F64.ofInt R lo) := by
  obtain ⟨hn, c, _⟩ := C54_bounds_are vs hne
  refine ⟨_, c, ?_⟩
  have ht : truncInt ((new vs).position R (.fin 0)) < 1 := by
    unfold position
    cases F64.ofInt R ((new vs).size + 1) with
    | nan => simp only [F64.mul]; decide
    | inf s => simp only [F64.mul, if_true]; decide
    | fin x =>
      simp only [F64.mul, zero_mul, hR.zero, truncInt, toInt64]
      norm_num
  rcases getValue_cases R (new vs) ((bad_fin 0).2 (by norm_num)) hn with ⟨_, e⟩ | ⟨h, _, e⟩ | ⟨i, hi, p, _, h, hf, e⟩
  · exact e
  · omega
  · omega

/-- **C54.** Quantile 1 is the maximum, if the number of values is below 2^53 - 1. -/
theorem C54_one (R : Rounding) (hI : R.Ints) (vs : List Int) (hne : vs ≠ []) (hlen : vs.length + 1 < 2 ^ 53) :
    ∃ hi : Int, (new vs).getMax = .ok hi ∧ (new vs).getValue R (.fin 1) = .ok (F64.ofInt R hi) := by
  obtain ⟨hn, _, c⟩ := C54_bounds_are vs hne
  refine ⟨_, c, ?_⟩
  have hsz : (new vs).size = (vs.length : Int) := by unfold size; rw [length_new]
  have hr : R.Rep (((vs.length : Int) + 1 : Int) : ℚ) := hI _ (by rw [abs_lt]; constructor <;> omega)
  have ht : truncInt ((new vs).position R (.fin 1)) = vs.length + 1 := by
    unfold position F64.ofInt
    rw [hsz, hr]
    simp only [F64.mul, one_mul]
    rw [hr]
    unfold truncInt toInt64
    simp only
    have hge : (0 : ℚ) ≤ (((vs.length : Int) + 1 : Int) : ℚ) := by exact_mod_cast (by omega : (0 : Int) ≤ (vs.length : Int) + 1)
    simp only [if_pos hge, Int.floor_intCast]
    rw [if_pos (by norm_num at hlen; omega)]
    rfl
  have hll := length_new vs
  rcases getValue_cases R (new vs) ((bad_fin 1).2 (by norm_num)) hn with ⟨h, e⟩ | ⟨_, _, e⟩ | ⟨i, hi, p, _, h, hf, e⟩
  · omega
  · exact e
  · omega

/-! ## C55 -/

namespace UniformSnapshot
theorem mono_aux {R : Rounding} (hR : R.Lawful) {vs : List Int} (hfit : Fits R vs) (hsize : R.Rep ((vs.length + 1 : Int) : ℚ))
    (hlen : vs.length + 1 < 2 ^ 63) {q q' : ℚ} (h0 : 0 ≤ q) (hqq : q ≤ q') (h1 : q' ≤ 1) {r r' : ℚ}
    (hr : (new vs).getValue R (.fin q) = .ok (.fin r)) (hr' : (new vs).getValue R (.fin q') = .ok (.fin r')) : r ≤ r' := by
  have hg := (bad_fin q).2 ⟨h0, by linarith⟩
  have hg' := (bad_fin q').2 ⟨by linarith, h1⟩
  by_cases hne : vs = []
  · subst hne
    rw [C54_empty R q h0 (by linarith)] at hr
    rw [C54_empty R q' (by linarith) h1] at hr'
    simp only [Ret.ok.injEq, F64.fin.injEq] at hr hr'
    rw [← hr, ← hr']
  have hlen' : vs.length + 1 < 9223372036854775808 := by norm_num at hlen; exact hlen
  have hll := length_new vs
  have hn : 0 < (new vs).values.length := by rw [length_new]; exact List.length_pos_iff.2 hne
  have hs := sorted_new vs
  have hm : ∀ {i : Nat} (h : i < (new vs).values.length), (new vs).values[i] ∈ vs := fun h => mem_new.1 (List.getElem_mem h)
  have hsz : (new vs).size = (vs.length : Int) := by unfold size; rw [length_new]
  have hN : (0 : ℚ) ≤ ((vs.length + 1 : Int) : ℚ) := by exact_mod_cast (by omega : (0 : Int) ≤ (vs.length : Int) + 1)
  -- the positions
  have hposn : ∀ x : ℚ, 0 ≤ x → x ≤ 1 → ∃ p : ℚ, (new vs).position R (.fin x) = .fin p ∧ R.rnd (x * ((vs.length + 1 : Int) : ℚ)) = .fin p ∧
      0 ≤ p ∧ p ≤ ((vs.length + 1 : Int) : ℚ) := by
    intro x hx0 hx1
    obtain ⟨p, ep, hp0, hp1, _⟩ := hR.between (q := x * ((vs.length + 1 : Int) : ℚ)) hR.rep_zero hsize (by nlinarith) (by nlinarith)
    refine ⟨p, ?_, ep, hp0, hp1⟩
    unfold position F64.ofInt
    rw [hsz, hsize]
    simp only [F64.mul]; exact ep
  obtain ⟨p, ep, er, hp0, hp1⟩ := hposn q h0 (by linarith)
  obtain ⟨p', ep', er', hp0', hp1'⟩ := hposn q' (by linarith) h1
  have hpp : p ≤ p' := by
    have := hR.mono (q * ((vs.length + 1 : Int) : ℚ)) (q' * ((vs.length + 1 : Int) : ℚ)) (by nlinarith)
    rw [er, er'] at this; exact this
  have htr : ∀ x : ℚ, 0 ≤ x → x ≤ ((vs.length + 1 : Int) : ℚ) → truncInt (.fin x) = ⌊x⌋ := by
    intro x hx0 hx1
    have hf0 : 0 ≤ ⌊x⌋ := Int.floor_nonneg.2 hx0
    have hf1 : ⌊x⌋ ≤ vs.length + 1 := by
      have := Int.floor_mono hx1
      rwa [Int.floor_intCast] at this
    unfold truncInt toInt64
    simp only
    rw [if_pos hx0, if_pos (by omega)]; rfl
  have ht := htr p hp0 hp1
  have ht' := htr p' hp0' hp1'
  have hff : ⌊p⌋ ≤ ⌊p'⌋ := Int.floor_mono hpp
  have hc1 := getValue_cases R (new vs) hg hn
  have hc2 := getValue_cases R (new vs) hg' hn
  rw [ep, ht] at hc1
  rw [ep', ht'] at hc2
  -- upper bound on r, lower bound on r'
  rcases hc1 with ⟨ha, e⟩ | ⟨ha1, ha2, e⟩ | ⟨i, hi, pp, hpe, ha, hf, e⟩
  · obtain ⟨s, _, es, hs1, _⟩ := range_aux hR hfit hne (by linarith : 0 ≤ q') h1
    rw [hr'] at es
    rw [hr, F64.ofInt, hfit.val _ (hm hn)] at e
    simp only [Ret.ok.injEq, F64.fin.injEq] at e es
    rw [e, es]; exact hs1
  · rcases hc2 with ⟨hb, e'⟩ | ⟨hb1, hb2, e'⟩ | ⟨i', hi', pp', hpe', hb, hf', e'⟩
    · omega
    · rw [hr] at e; rw [hr'] at e'
      rw [← e'] at e
      simp only [Ret.ok.injEq, F64.fin.injEq] at e
      rw [e]
    · omega
  · simp only [F64.fin.injEq] at hpe
    subst hpe
    have hi0 : i < (new vs).values.length := by omega
    have hab := sorted_get hs hi0 hi (by omega)
    obtain ⟨z, ez, hz0, hz1⟩ := interp_between hR hf hfit.one hab (hfit.val _ (hm hi0)) (hfit.val _ (hm hi)) (hfit.diff _ (hm hi0) _ (hm hi) hab)
      (hfit.nowrap _ (hm hi0) _ (hm hi) hab)
    have hz : r = z := by rw [hr, ez] at e; simpa using e
    rcases hc2 with ⟨hb, e'⟩ | ⟨hb1, hb2, e'⟩ | ⟨i', hi', pp', hpe', hb, hf', e'⟩
    · omega
    · have hlast : (new vs).values.length - 1 < (new vs).values.length := by omega
      rw [hr', F64.ofInt, hfit.val _ (hm hlast)] at e'
      simp only [Ret.ok.injEq, F64.fin.injEq] at e'
      rw [e', hz]
      refine le_trans hz1 ?_
      exact_mod_cast sorted_get hs hi hlast (by omega)
    · simp only [F64.fin.injEq] at hpe'
      subst hpe'
      have hi0' : i' < (new vs).values.length := by omega
      have hab' := sorted_get hs hi0' hi' (by omega)
      obtain ⟨z', ez', hz0', hz1'⟩ := interp_between hR hf' hfit.one hab' (hfit.val _ (hm hi0')) (hfit.val _ (hm hi'))
        (hfit.diff _ (hm hi0') _ (hm hi') hab') (hfit.nowrap _ (hm hi0') _ (hm hi') hab')
      have hz' : r' = z' := by rw [hr', ez'] at e'; simpa using e'
      rcases Nat.lt_or_eq_of_le (by omega : i ≤ i') with hlt | heq
      · rw [hz, hz']
        refine le_trans hz1 (le_trans ?_ hz0')
        exact_mod_cast sorted_get hs hi hi0' (by omega)
      · subst heq
        rw [hz, hz']
        exact interp_mono hR hf hf' hpp hfit.one hab (hfit.val _ (hm hi0)) (hfit.diff _ (hm hi0) _ (hm hi) hab)
          (hfit.nowrap _ (hm hi0) _ (hm hi) hab) ez ez'
end UniformSnapshot

/-- **C55.** Quantiles are monotone, in IEEE-754 arithmetic and in every other rounding that represents the integers below 2^53. -/
theorem C55_monotone (R : Rounding) (hR : R.Lawful) (hI : R.Ints) (vs : List Int) (hv : ∀ v ∈ vs, |v| < 2 ^ 52)
    (hlen : vs.length + 1 < 2 ^ 53) (q q' : ℚ) (h0 : 0 ≤ q) (hqq : q ≤ q') (h1 : q' ≤ 1) :
    ∃ r r' : ℚ, (new vs).getValue R (.fin q) = .ok (.fin r) ∧ (new vs).getValue R (.fin q') = .ok (.fin r') ∧ r ≤ r' := by
  by_cases hne : vs = []
  · subst hne
    exact ⟨0, 0, C54_empty R q h0 (by linarith), C54_empty R q' (by linarith) h1, le_refl _⟩
  have hfit := fits_of_small hI hv
  obtain ⟨r, _, e, _, _⟩ := range_aux hR hfit hne h0 (by linarith : q ≤ 1)
  obtain ⟨r', _, e', _, _⟩ := range_aux hR hfit hne (by linarith : 0 ≤ q') h1
  exact ⟨r, r', e, e', mono_aux hR hfit (hI _ (by rw [abs_lt]; constructor <;> omega)) (by norm_num at hlen ⊢; omega) h0 hqq h1 e e'⟩

/-- **C55.** In exact arithmetic, for values less than 2^63 apart. -/
theorem C55_monotone_exact (vs : List Int) (hv : ∀ a ∈ vs, ∀ b ∈ vs, b - a < 2 ^ 63) (hlen : vs.length + 1 < 2 ^ 63)
    (q q' : ℚ) (h0 : 0 ≤ q) (hqq : q ≤ q') (h1 : q' ≤ 1) :
    ∃ r r' : ℚ, (new vs).getValue exact (.fin q) = .ok (.fin r) ∧ (new vs).getValue exact (.fin q') = .ok (.fin r') ∧ r ≤ r' := by
  by_cases hne : vs = []
  · subst hne
    exact ⟨0, 0, C54_empty exact q h0 (by linarith), C54_empty exact q' (by linarith) h1, le_refl _⟩
  have hfit := fits_exact hv
  obtain ⟨r, _, e, _, _⟩ := range_aux exact_lawful hfit hne h0 (by linarith : q ≤ 1)
  obtain ⟨r', _, e', _, _⟩ := range_aux exact_lawful hfit hne (by linarith : 0 ≤ q') h1
  exact ⟨r, r', e, e', mono_aux exact_lawful hfit (exact_rep _) hlen h0 hqq h1 e e'⟩

/-- **C55.** So the named percentiles are ordered: median, 75th, 95th, 98th, 99th, 99.9th. -/
theorem C55_percentiles (R : Rounding) (hR : R.Lawful) (hI : R.Ints) (vs : List Int) (hv : ∀ v ∈ vs, |v| < 2 ^ 52)
    (hlen : vs.length + 1 < 2 ^ 53) :
    ∃ a b c d e f : ℚ, (new vs).getMedian R = .ok (.fin a) ∧ (new vs).get75thPercentile R = .ok (.fin b) ∧
      (new vs).get95thPercentile R = .ok (.fin c) ∧ (new vs).get98thPercentile R = .ok (.fin d) ∧
      (new vs).get99thPercentile R = .ok (.fin e) ∧ (new vs).get999thPercentile R = .ok (.fin f) ∧
      a ≤ b ∧ b ≤ c ∧ c ≤ d ∧ d ≤ e ∧ e ≤ f := by
  have hone : R.Rep 1 := by have := hI 1 (by norm_num); simpa using this
  have key : ∀ x y : ℚ, 0 ≤ x → x ≤ y → y ≤ 1 →
      ∃ r r' : ℚ, (new vs).getValue R (R.rnd x) = .ok (.fin r) ∧ (new vs).getValue R (R.rnd y) = .ok (.fin r') ∧ r ≤ r' := by
    intro x y hx hxy hy
    obtain ⟨p, ep, hp0, hp1, _⟩ := hR.between hR.rep_zero hone hx (by linarith : x ≤ 1)
    obtain ⟨p', ep', hp0', hp1', _⟩ := hR.between hR.rep_zero hone (by linarith : 0 ≤ y) hy
    have hpp : p ≤ p' := by have := hR.mono x y hxy; rw [ep, ep'] at this; exact this
    rw [ep, ep']
    exact C55_monotone R hR hI vs hv hlen p p' hp0 hpp hp1'
  obtain ⟨a, b, ea, eb, hab⟩ := key (5 / 10) (75 / 100) (by norm_num) (by norm_num) (by norm_num)
  obtain ⟨b', c, eb', ec, hbc⟩ := key (75 / 100) (95 / 100) (by norm_num) (by norm_num) (by norm_num)
  obtain ⟨c', d, ec', ed, hcd⟩ := key (95 / 100) (98 / 100) (by norm_num) (by norm_num) (by norm_num)
  obtain ⟨d', e, ed', ee, hde⟩ := key (98 / 100) (99 / 100) (by norm_num) (by norm_num) (by norm_num)
  obtain ⟨e', f, ee', ef, hef⟩ := key (99 / 100) (999 / 1000) (by norm_num) (by norm_num) (by norm_num)
  have h1 : b' = b := by rw [eb] at eb'; simpa using eb'.symm
  have h2 : c' = c := by rw [ec] at ec'; simpa using ec'.symm
  have h3 : d' = d := by rw [ed] at ed'; simpa using ed'.symm
  have h4 : e' = e := by rw [ee] at ee'; simpa using ee'.symm
  subst h1 h2 h3 h4
  exact ⟨a, b', c', d', e', f, ea, eb, ec, ed, ee, ef, hab, hbc, hcd, hde, hef⟩

/-! ## C56 -/

/-- **C56.** `GetValues()` is the sorted permutation of the values the snapshot was made of. -/
theorem C56_values (vs : List Int) : (new vs).getValues.Perm vs ∧ (new vs).getValues.Pairwise (· ≤ ·) ∧ (new vs).size = vs.length :=
  ⟨perm_new vs, sorted_new vs, by unfold size; rw [length_new]⟩

/-- **C56.** `GetMin()` and `GetMax()` are the extremes; both are 0 for an empty snapshot. -/
theorem C56_min_max (vs : List Int) :
    (vs = [] ∧ (new vs).getMin = .ok 0 ∧ (new vs).getMax = .ok 0) ∨
    ∃ lo hi, (new vs).getMin = .ok lo ∧ (new vs).getMax = .ok hi ∧ lo ∈ vs ∧ hi ∈ vs ∧ ∀ v ∈ vs, lo ≤ v ∧ v ≤ hi := by
  by_cases hne : vs = []
  · left; subst hne; exact ⟨rfl, by decide, by decide⟩
  · right
    obtain ⟨hn, c, d⟩ := C54_bounds_are vs hne
    refine ⟨_, _, c, d, mem_new.1 (List.getElem_mem _), mem_new.1 (List.getElem_mem _), fun v hv => ?_⟩
    obtain ⟨i, hi, rfl⟩ := List.mem_iff_getElem.1 (mem_new.2 hv)
    exact ⟨sorted_get (sorted_new vs) _ _ (by omega), sorted_get (sorted_new vs) _ _ (by omega)⟩

namespace UniformSnapshot
theorem foldl_i64 (vs : List Int) (a : Int) : vs.foldl (fun s v => i64 (s + v)) (i64 a) = i64 (a + vs.sum) := by
  induction vs generalizing a with
  | nil => simp
  | cons v t ih =>
    rw [List.foldl_cons, i64_add_left, ih, List.sum_cons]; congr 1; ring

theorem sum_new (vs : List Int) : (new vs).sum = i64 vs.sum := by
  have := foldl_i64 (new vs).values 0
  rw [i64_zero, zero_add, (perm_new vs).sum_eq] at this
  exact this

theorem sum_bounds {vs : List Int} {lo hi : Int} (h : ∀ v ∈ vs, lo ≤ v ∧ v ≤ hi) : lo * vs.length ≤ vs.sum ∧ vs.sum ≤ hi * vs.length := by
  induction vs with
  | nil => simp
  | cons v t ih =>
    have h1 := h v (by simp)
    have h2 := ih (fun w hw => h w (by simp [hw]))
    simp only [List.sum_cons, List.length_cons]
    push_cast
    constructor <;> nlinarith [h1.1, h1.2, h2.1, h2.2]

theorem mean_aux {R : Rounding} (hR : R.Lawful) {vs : List Int} (hne : vs ≠ []) (hsum : InI64 vs.sum) (hrs : R.Rep vs.sum)
    (hrl : R.Rep (vs.length : Int)) {lo hi : Int} (hlo : R.Rep lo) (hhi : R.Rep hi) (hb : ∀ v ∈ vs, lo ≤ v ∧ v ≤ hi) :
    ∃ m : ℚ, (new vs).getMean R = .fin m ∧ R.rnd ((vs.sum : ℚ) / vs.length) = .fin m ∧ lo ≤ m ∧ m ≤ hi := by
  have hsz : (new vs).size = (vs.length : Int) := by unfold size; rw [length_new]
  have hlpos : 0 < vs.length := List.length_pos_iff.2 hne
  have hlq : (0 : ℚ) < (vs.length : ℚ) := by exact_mod_cast hlpos
  obtain ⟨b1, b2⟩ := sum_bounds hb
  have c1 : (lo : ℚ) * vs.length ≤ vs.sum := by exact_mod_cast b1
  have c2 : (vs.sum : ℚ) ≤ hi * vs.length := by exact_mod_cast b2
  obtain ⟨m, em, h1, h2, _⟩ := hR.between (q := (vs.sum : ℚ) / vs.length) hlo hhi (by rw [le_div_iff₀ hlq]; exact c1)
    (by rw [div_le_iff₀ hlq]; exact c2)
  refine ⟨m, ?_, em, h1, h2⟩
  unfold getMean
  rw [if_neg (by rw [hsz]; omega), sum_new, i64_of_in hsum, hsz]
  unfold F64.ofInt
  rw [hrs, hrl]
  simp only [F64.div, Int.cast_natCast]
  rw [if_neg (by positivity)]
  exact em
end UniformSnapshot

/-- **C56.** The mean lies between the minimum and the maximum if the sum does not leave the integers represented exactly. -/
theorem C56_mean (R : Rounding) (hR : R.Lawful) (hI : R.Ints) (vs : List Int) (hne : vs ≠ []) (hv : ∀ v ∈ vs, |v| < 2 ^ 53)
    (hsum : |vs.sum| < 2 ^ 53) (hlen : vs.length < 2 ^ 53) :
    ∃ (m : ℚ) (lo hi : Int), (new vs).getMean R = .fin m ∧ (new vs).getMin = .ok lo ∧ (new vs).getMax = .ok hi ∧ lo ≤ m ∧ m ≤ hi := by
  rcases C56_min_max vs with ⟨h, _⟩ | ⟨lo, hi, e1, e2, m1, m2, hb⟩
  · exact absurd h hne
  · have hs : InI64 vs.sum := by rw [abs_lt] at hsum; unfold InI64; constructor <;> omega
    obtain ⟨m, em, _, h1, h2⟩ := mean_aux hR hne hs (hI _ hsum) (hI _ (by rw [abs_lt]; constructor <;> omega)) (hI _ (hv _ m1))
      (hI _ (hv _ m2)) hb
    exact ⟨m, lo, hi, em, e1, e2, h1, h2⟩

/-- **C56.** In exact arithmetic it is the average if the sum does not overflow. -/
theorem C56_mean_exact (vs : List Int) (hne : vs ≠ []) (hsum : InI64 vs.sum) :
    (new vs).getMean exact = .fin (vs.sum / vs.length) ∧
    ∃ (lo hi : Int), (new vs).getMin = .ok lo ∧ (new vs).getMax = .ok hi ∧ (lo : ℚ) ≤ vs.sum / vs.length ∧ (vs.sum / vs.length : ℚ) ≤ hi := by
  rcases C56_min_max vs with ⟨h, _⟩ | ⟨lo, hi, e1, e2, m1, m2, hb⟩
  · exact absurd h hne
  · obtain ⟨m, em, er, h1, h2⟩ := mean_aux exact_lawful hne hsum (exact_rep _) (exact_rep _) (exact_rep _) (exact_rep _) hb
    simp only [exact, F64.fin.injEq] at er
    rw [er]
    exact ⟨em, lo, hi, e1, e2, h1, h2⟩

example : InI64 ([3, -1, 7] : List Int).sum ∧ ([3, -1, 7] : List Int) ≠ [] := by decide

/-- **C56.** With overflow it is false: the mean of 2^62 and 2^62 is -2^62. -/
theorem C56_mean_refuted :
    (new [4611686018427387904, 4611686018427387904]).getMean exact = .fin (-4611686018427387904) ∧
    (new [4611686018427387904, 4611686018427387904]).getMin = .ok 4611686018427387904 := by
  refine ⟨?_, by decide⟩
  have hs : (new [4611686018427387904, 4611686018427387904]).sum = -9223372036854775808 := by decide
  have hz : (new [4611686018427387904, 4611686018427387904]).size = 2 := by decide
  unfold getMean
  rw [hs, hz]
  norm_num [F64.div, F64.ofInt, exact]

namespace UniformSnapshot
theorem le_add_nonneg {R : Rounding} (hR : R.Lawful) {x y : F64} (hx : F64.le (.fin 0) x) (hy : F64.le (.fin 0) y) :
    F64.le (.fin 0) (F64.add R x y) := by
  cases x with
  | nan => simp [F64.le] at hx
  | inf s => cases s with
    | true => simp [F64.le] at hx
    | false => cases y with
      | nan => simp [F64.le] at hy
      | inf t => cases t with
        | true => simp [F64.le] at hy
        | false => simp [F64.add, F64.le]
      | fin b => simp [F64.add, F64.le]
  | fin a => cases y with
    | nan => simp [F64.le] at hy
    | inf t => cases t with
      | true => simp [F64.le] at hy
      | false => simp [F64.add, F64.le]
    | fin b =>
      simp only [F64.le] at hx hy
      have := hR.mono 0 (a + b) (by linarith)
      rw [hR.zero] at this; exact this

theorem sq_nonneg' {R : Rounding} (hR : R.Lawful) {x : F64} (hx : x ≠ .nan) : F64.le (.fin 0) (F64.mul R x x) := by
  cases x with
  | nan => exact absurd rfl hx
  | inf s => cases s <;> simp [F64.mul, F64.le]
  | fin a =>
    have := hR.mono 0 (a * a) (mul_self_nonneg a)
    rw [hR.zero] at this; exact this

theorem diffSum_nonneg {R : Rounding} (hR : R.Lawful) {m : ℚ} {vs : List Int} (hv : ∀ v ∈ vs, R.Rep v) (acc : F64) (hacc : F64.le (.fin 0) acc) :
    F64.le (.fin 0) (vs.foldl (fun s v => F64.add R s (F64.mul R (F64.sub R (F64.ofInt R v) (.fin m)) (F64.sub R (F64.ofInt R v) (.fin m)))) acc) := by
  induction vs generalizing acc with
  | nil => exact hacc
  | cons v t ih =>
    refine ih (fun w hw => hv w (by simp [hw])) _ (le_add_nonneg hR hacc (sq_nonneg' hR ?_))
    unfold F64.ofInt
    rw [hv v (by simp)]
    simp only [F64.sub, F64.neg, F64.add]
    exact hR.not_nan _

theorem diffSum_exact (m : ℚ) (vs : List Int) : diffSum exact (.fin m) vs = .fin ((vs.map (fun v : Int => ((v : ℚ) - m) ^ 2)).sum) := by
  unfold diffSum
  have : ∀ acc : ℚ, vs.foldl (fun s v => F64.add exact s (F64.mul exact (F64.sub exact (F64.ofInt exact v) (.fin m)) (F64.sub exact (F64.ofInt exact v) (.fin m)))) (.fin acc) =
      .fin (acc + (vs.map (fun v : Int => ((v : ℚ) - m) ^ 2)).sum) := by
    induction vs with
    | nil => intro acc; simp
    | cons v t ih =>
      intro acc
      simp only [List.foldl_cons, List.map_cons, List.sum_cons]
      have e : F64.add exact (.fin acc) (F64.mul exact (F64.sub exact (F64.ofInt exact v) (.fin m)) (F64.sub exact (F64.ofInt exact v) (.fin m))) =
          .fin (acc + ((v : ℚ) - m) ^ 2) := by
        simp only [F64.ofInt, exact, F64.sub, F64.neg, F64.add, F64.mul]; congr 1; ring
      rw [e, ih]; congr 1; ring
  have h := this 0
  rw [zero_add] at h; exact h
end UniformSnapshot

/-- **C56.** The variance is never negative and never NaN, so the standard deviation is defined. -/
theorem C56_variance_nonneg (R : Rounding) (hR : R.Lawful) (hI : R.Ints) (vs : List Int) (h2 : 2 ≤ vs.length) (hv : ∀ v ∈ vs, |v| < 2 ^ 53)
    (hsum : |vs.sum| < 2 ^ 53) (hlen : vs.length < 2 ^ 53) : F64.le (.fin 0) ((new vs).variance R) := by
  have hne : vs ≠ [] := by rintro rfl; simp at h2
  obtain ⟨m, _, _, em, _⟩ := C56_mean R hR hI vs hne hv hsum hlen
  have hsz : (new vs).size = (vs.length : Int) := by unfold size; rw [length_new]
  unfold variance
  rw [em]
  have hd : F64.le (.fin 0) (diffSum R (.fin m) (new vs).values) :=
    diffSum_nonneg hR (fun v hv' => hI _ (hv v (mem_new.1 hv'))) _ (by simp [F64.le])
  have hr : R.Rep (((vs.length : Int) - 1 : Int) : ℚ) := hI _ (by rw [abs_lt]; constructor <;> omega)
  unfold F64.ofInt
  rw [hsz, hr]
  have hpos : (0 : ℚ) < (((vs.length : Int) - 1 : Int) : ℚ) := by exact_mod_cast (by omega : (0 : Int) < (vs.length : Int) - 1)
  cases hx : diffSum R (.fin m) (new vs).values with
  | nan => rw [hx] at hd; simp [F64.le] at hd
  | inf s =>
    rw [hx] at hd
    cases s with
    | true => simp [F64.le] at hd
    | false =>
      have hnn : ¬ (((vs.length : Int) - 1 : Int) : ℚ) < 0 := not_lt.2 hpos.le
      simp only [F64.div, decide_eq_false hnn]
      simp [F64.le]
  | fin d =>
    rw [hx] at hd
    simp only [F64.le] at hd
    simp only [F64.div]
    rw [if_neg hpos.ne']
    have := hR.mono 0 (d / (((vs.length : Int) - 1 : Int) : ℚ)) (div_nonneg hd hpos.le)
    rw [hR.zero] at this; exact this

/-- **C56.** In exact arithmetic it is the sample variance, and it is zero exactly when all values are equal. -/
theorem C56_variance_exact (vs : List Int) (h2 : 2 ≤ vs.length) (hsum : InI64 vs.sum) :
    (new vs).variance exact = .fin ((vs.map (fun v : Int => ((v : ℚ) - vs.sum / vs.length) ^ 2)).sum / (vs.length - 1)) ∧
    ((new vs).variance exact = .fin 0 ↔ ∀ a ∈ vs, ∀ b ∈ vs, a = b) := by
  have hne : vs ≠ [] := by rintro rfl; simp at h2
  obtain ⟨em, _⟩ := C56_mean_exact vs hne hsum
  have hsz : (new vs).size = (vs.length : Int) := by unfold size; rw [length_new]
  have hp : ((new vs).values.map (fun v : Int => ((v : ℚ) - vs.sum / vs.length) ^ 2)).sum =
      (vs.map (fun v : Int => ((v : ℚ) - vs.sum / vs.length) ^ 2)).sum := ((perm_new vs).map _).sum_eq
  have hpos : (0 : ℚ) < (vs.length : ℚ) - 1 := by
    have : (2 : ℚ) ≤ (vs.length : ℚ) := by exact_mod_cast h2
    linarith
  have hval : (new vs).variance exact = .fin ((vs.map (fun v : Int => ((v : ℚ) - vs.sum / vs.length) ^ 2)).sum / (vs.length - 1)) := by
    unfold variance
    rw [em, diffSum_exact, hp, hsz]
    simp only [F64.ofInt, exact, F64.div]
    push_cast
    rw [if_neg hpos.ne']
  refine ⟨hval, ?_⟩
  rw [hval, F64.fin.injEq, div_eq_zero_iff, or_iff_left hpos.ne']
  have hlq : (vs.length : ℚ) ≠ 0 := by linarith
  constructor
  · intro h
    have hall : ∀ v ∈ vs, (v : ℚ) = vs.sum / vs.length := by
      intro v hv
      have h0 := List.all_zero_of_le_zero_le_of_sum_eq_zero (l := vs.map (fun v : Int => ((v : ℚ) - vs.sum / vs.length) ^ 2))
        (by intro x hx; obtain ⟨w, _, rfl⟩ := List.mem_map.1 hx; positivity) h (List.mem_map.2 ⟨v, hv, rfl⟩)
      have := pow_eq_zero_iff (two_ne_zero) |>.1 h0
      linarith
    intro a ha b hb
    have := (hall a ha).trans (hall b hb).symm
    exact_mod_cast this
  · intro h
    have hall : ∀ v ∈ vs, ((v : ℚ) - vs.sum / vs.length) ^ 2 = 0 := by
      intro v hv
      obtain ⟨b1, b2⟩ := sum_bounds (vs := vs) (lo := v) (hi := v) (fun w hw => by have := h v hv w hw; omega)
      have hs : vs.sum = v * vs.length := le_antisymm b2 b1
      rw [hs]
      push_cast
      rw [mul_div_assoc, div_self hlq]; ring
    refine List.sum_eq_zero ?_
    intro x hx
    obtain ⟨w, hw, rfl⟩ := List.mem_map.1 hx
    exact hall w hw

/-- **C56.** No getter of a uniform snapshot panics. -/
theorem C56_no_panic (vs : List Int) : (new vs).getMin ≠ .panic ∧ (new vs).getMax ≠ .panic := by
  rcases C56_min_max vs with ⟨_, a, b⟩ | ⟨_, _, a, b, _⟩ <;> rw [a, b] <;> simp

end GoMetrics
