import Verif.Proofs.EWMA
import Verif.Proofs.Seconds
/-! # EWMA in floating point -/
namespace GoMetrics
namespace Rounding

/-- A number the format represents. -/
def Rep (R : Rounding) (q : ℚ) : Prop := R.rnd q = .fin q

theorem Lawful.between {R : Rounding} (hR : R.Lawful) {lo hi q : ℚ} (hlo : R.Rep lo) (hhi : R.Rep hi)
    (h1 : lo ≤ q) (h2 : q ≤ hi) : ∃ v, R.rnd q = .fin v ∧ lo ≤ v ∧ v ≤ hi ∧ R.Rep v := by
  have m1 := hR.mono _ _ h1
  have m2 := hR.mono _ _ h2
  rw [hlo] at m1
  rw [hhi] at m2
  cases hv : R.rnd q with
  | nan => exact absurd hv (hR.not_nan _)
  | inf s => rw [hv] at m1 m2; cases s <;> simp [F64.le] at m1 m2
  | fin v =>
    rw [hv] at m1 m2
    exact ⟨v, rfl, m1, m2, hR.idem _ _ hv⟩

theorem Lawful.rep_zero {R : Rounding} (hR : R.Lawful) : R.Rep 0 := hR.zero
theorem Lawful.rep_neg {R : Rounding} (hR : R.Lawful) {q : ℚ} (h : R.Rep q) : R.Rep (-q) := by
  unfold Rep at *
  rw [hR.odd, h]; rfl

theorem roundPos_le_double {x : ℚ} (h : (2 : ℚ) ^ (-1074 : Int) ≤ x) : roundPos x ≤ 2 * x := by
  have hx : 0 < x := lt_of_lt_of_le (two_zpow_pos _) h
  have h1 : x ≤ 2 ^ (Int.log 2 x + 1) := le_of_lt lt_pow_log
  have hl : -1074 ≤ Int.log 2 x := by
    have : (2 : ℚ) ^ (-1074 : Int) < 2 ^ (Int.log 2 x + 1) := lt_of_le_of_lt h lt_pow_log
    have := (zpow_lt_zpow_iff_right₀ (by norm_num : (1 : ℚ) < 2)).1 this
    omega
  have h2 := roundPos_le_pow (k := Int.log 2 x + 1) (by unfold ulpExp; omega) h1
  have h3 := pow_log_le hx
  rw [zpow_add₀ (by norm_num)] at h2
  linarith [h2]

theorem binary64_le_double {x v : ℚ} (h : (2 : ℚ) ^ (-1074 : Int) ≤ x) (hv : binary64.rnd x = .fin v) :
    v ≤ 2 * x := by
  have hx : 0 < x := lt_of_lt_of_le (two_zpow_pos _) h
  rw [binary64_pos hx] at hv
  split at hv
  · simp at hv
  · simp only [F64.fin.injEq] at hv
    rw [← hv]; exact roundPos_le_double h

theorem roundPos_multiple (x : ℚ) : ∃ n : Int, roundPos x = n * 2 ^ (-1074 : Int) := by
  have hmin : -1074 ≤ ulpExp x := by unfold ulpExp; omega
  obtain ⟨m, hm⟩ : ∃ m : Nat, ulpExp x + 1074 = m := ⟨_, (Int.toNat_of_nonneg (by omega)).symm⟩
  refine ⟨roundEven (x / 2 ^ ulpExp x) * 2 ^ m, ?_⟩
  unfold roundPos
  have : ulpExp x = (m : Int) + (-1074) := by omega
  push_cast
  rw [mul_assoc]
  congr 1
  rw [← zpow_natCast, ← zpow_add₀ (by norm_num), ← this]

theorem binary64_multiple {q : ℚ} (h : binary64.Rep q) : ∃ n : Int, q = n * 2 ^ (-1074 : Int) := by
  unfold Rep at h
  rcases lt_trichotomy q 0 with hq | hq | hq
  · rw [binary64_neg hq] at h
    split at h
    · simp at h
    · simp only [F64.fin.injEq] at h
      obtain ⟨n, hn⟩ := roundPos_multiple (-q)
      exact ⟨-n, by rw [← h, hn]; push_cast; ring⟩
  · exact ⟨0, by simp [hq]⟩
  · rw [binary64_pos hq] at h
    split at h
    · simp at h
    · simp only [F64.fin.injEq] at h
      obtain ⟨n, hn⟩ := roundPos_multiple q
      exact ⟨n, by rw [← hn]; exact h.symm⟩

/-- Moving a quarter of the way (or less) never overshoots, in binary64. -/
theorem binary64_quarter {a u hi : ℚ} (ha : 0 ≤ a) (ha' : a ≤ 1 / 4) (hu : 0 ≤ u) (hhi : binary64.Rep hi) (hle : u ≤ hi)
    (hm : ∃ n : Int, u = n * 2 ^ (-1074 : Int)) :
    ∃ x d, binary64.rnd u = .fin x ∧ binary64.rnd (a * x) = .fin d ∧ 0 ≤ d ∧ d ≤ u := by
  have hL := binary64_lawful
  obtain ⟨x, hx, hx0, -, hxr⟩ := hL.between hL.rep_zero hhi hu hle
  have hp0 : 0 ≤ a * x := mul_nonneg ha hx0
  have hp1 : a * x ≤ x := by nlinarith
  obtain ⟨d, hd, hd0, hdx, -⟩ := hL.between hL.rep_zero hxr hp0 hp1
  refine ⟨x, d, hx, hd, hd0, ?_⟩
  rcases eq_or_lt_of_le hu with h0 | h0
  · rw [← h0, hL.zero] at hx
    simp only [F64.fin.injEq] at hx
    subst hx; linarith
  · obtain ⟨n, hn⟩ := hm
    have hn1 : 1 ≤ n := by
      by_contra hc
      have : (n : ℚ) ≤ 0 := by exact_mod_cast (by omega : n ≤ 0)
      have := mul_nonpos_of_nonpos_of_nonneg this (le_of_lt (two_zpow_pos (-1074)))
      rw [← hn] at this; linarith
    have hmin : (2 : ℚ) ^ (-1074 : Int) ≤ u := by
      rw [hn]
      have : (1 : ℚ) ≤ n := by exact_mod_cast hn1
      nlinarith [two_zpow_pos (-1074)]
    have hx2 := binary64_le_double hmin hx
    by_cases hp : (2 : ℚ) ^ (-1074 : Int) ≤ a * x
    · have := binary64_le_double hp hd
      nlinarith
    · have hr : binary64.Rep ((2 : ℚ) ^ (-1074 : Int)) := by
        have := binary64_dyadic (n := 1) (k := -1074) (by norm_num) (by norm_num) (by norm_num)
        simpa [Rep] using this
      obtain ⟨d', hd', -, hdle, -⟩ := hL.between hL.rep_zero hr hp0 (le_of_lt (not_le.1 hp))
      rw [hd] at hd'
      simp only [F64.fin.injEq] at hd'
      rw [hd']
      exact le_trans hdle hmin

end Rounding

namespace EWMA
open Rounding

/-- One tick in binary64 keeps the rate between the old rate and the instant rate. -/
theorem binary64_newRate {a r i lo hi : ℚ} (ha : 0 ≤ a) (ha' : a ≤ 1 / 4) (hlo0 : 0 ≤ lo)
    (hlo : binary64.Rep lo) (hhi : binary64.Rep hi) (hr : binary64.Rep r) (hi' : binary64.Rep i)
    (hr1 : lo ≤ r) (hr2 : r ≤ hi) (hi1 : lo ≤ i) (hi2 : i ≤ hi) :
    ∃ v, newRate binary64 true (.fin a) (.fin r) (.fin i) = .fin v ∧ lo ≤ v ∧ v ≤ hi ∧ binary64.Rep v := by
  have hL := binary64_lawful
  have hmul : ∀ x y : ℚ, binary64.Rep x → binary64.Rep y → ∃ n : Int, x - y = n * 2 ^ (-1074 : Int) := by
    intro x y hx hy
    obtain ⟨n, hn⟩ := binary64_multiple hx
    obtain ⟨m, hm⟩ := binary64_multiple hy
    exact ⟨n - m, by rw [hn, hm]; push_cast; ring⟩
  simp only [newRate, if_true, F64.sub, F64.neg, F64.add]
  rcases le_total r i with h | h
  · obtain ⟨x, d, hx, hd, hd0, hdu⟩ := binary64_quarter ha ha' (u := i - r) (by linarith) hhi (by linarith)
      (hmul i r hi' hr)
    rw [← sub_eq_add_neg, hx]
    simp only [F64.mul, hd]
    exact hL.between hlo hhi (by linarith) (by linarith)
  · obtain ⟨x, d, hx, hd, hd0, hdu⟩ := binary64_quarter ha ha' (u := r - i) (by linarith) hhi (by linarith)
      (hmul r i hr hi')
    have e : i + -r = -(r - i) := by ring
    rw [e, hL.odd, hx]
    simp only [F64.neg, F64.mul]
    have e2 : a * -x = -(a * x) := by ring
    rw [e2, hL.odd, hd]
    simp only [F64.neg]
    exact hL.between hlo hhi (by linarith) (by linarith)

theorem foldl_binary64 {a lo hi : ℚ} {I : Int} (ha : 0 ≤ a) (ha' : a ≤ 1 / 4) (hlo0 : 0 ≤ lo)
    (hlo : binary64.Rep lo) (hhi : binary64.Rep hi) (c0 : Int) (cs : List Int) (r0 : F64)
    (h : ∀ c ∈ c0 :: cs, ∃ i, F64.div binary64 (F64.ofInt binary64 c) (F64.ofInt binary64 I) = .fin i ∧
      lo ≤ i ∧ i ≤ hi ∧ binary64.Rep i) :
    ∃ v, (c0 :: cs).foldl (coreTick binary64 (.fin a) I) (false, r0) = (true, .fin v) ∧ lo ≤ v ∧ v ≤ hi ∧
      binary64.Rep v := by
  induction cs using List.reverseRecOn with
  | nil =>
    obtain ⟨i, hi', h1, h2, h3⟩ := h c0 (by simp)
    refine ⟨i, ?_, h1, h2, h3⟩
    simp [coreTick, hi', newRate]
  | append_singleton cs c ih =>
    obtain ⟨v, hv, hv1, hv2, hv3⟩ := ih (fun x hx => h x (by simp at hx ⊢; tauto))
    obtain ⟨i, hi', h1, h2, h3⟩ := h c (by simp)
    rw [← List.cons_append, List.foldl_append, hv]
    simp only [List.foldl_cons, List.foldl_nil, coreTick, hi']
    obtain ⟨w, hw, hw1, hw2, hw3⟩ := binary64_newRate ha ha' hlo0 hlo hhi hv3 h3 hv1 hv2 h1 h2
    exact ⟨w, by rw [hw], hw1, hw2, hw3⟩

/-- An idle tick, for every lawful rounding. -/
theorem lawful_idle {R : Rounding} (hR : R.Lawful) {a r : ℚ} (ha : 0 ≤ a) (ha' : a ≤ 1) (hr : R.Rep r) (h0 : 0 ≤ r) :
    ∃ v, newRate R true (.fin a) (.fin r) (.fin 0) = .fin v ∧ 0 ≤ v ∧ v ≤ r ∧ R.Rep v := by
  simp only [newRate, if_true, F64.sub, F64.neg, F64.add, zero_add]
  rw [hR.rep_neg hr]
  simp only [F64.mul]
  obtain ⟨d, hd, hd1, hd2, -⟩ := hR.between (hR.rep_neg hr) hR.rep_zero (q := a * -r) (by nlinarith) (by nlinarith)
  rw [hd]
  exact hR.between hR.rep_zero hr (by linarith) (by linarith)

end EWMA
end GoMetrics
