import Verif.Spec.Float64
import Verif.Props.Sqrt
/-! # C93: the rounding in the model is that of IEEE-754 -/
namespace GoMetrics
open Rounding

theorem isFloat64_of_pos {x : ℚ} (hx : 0 < x) (h : binary64.rnd x = .fin x) : Spec.IsFloat64 x := by
  have hr := rep_pos hx h
  have hp := two_zpow_pos (ulpExp x)
  have e : x = roundEven (x / 2 ^ ulpExp x) * 2 ^ ulpExp x := by conv_lhs => rw [← hr]; unfold roundPos
  refine ⟨roundEven (x / 2 ^ ulpExp x), ulpExp x, ?_, ?_, ?_, e⟩
  · have h1 : (roundEven (x / 2 ^ ulpExp x) : ℚ) = x / 2 ^ ulpExp x := by rw [eq_div_iff hp.ne']; exact e.symm
    have h2 : x / 2 ^ ulpExp x < 2 ^ (53 : Int) := by
      rw [div_lt_iff₀ hp, ← zpow_add₀ (by norm_num)]
      exact (lt_pow_log (x := x)).trans_le (zpow_le_zpow_right₀ (by norm_num) (by unfold ulpExp; omega))
    have h3 : 0 ≤ x / 2 ^ ulpExp x := div_nonneg hx.le hp.le
    rw [← h1] at h2 h3
    generalize roundEven (x / 2 ^ ulpExp x) = m at *
    have h3' : 0 ≤ m := by exact_mod_cast h3
    rw [abs_of_nonneg h3']
    have : (m : ℚ) < ((2 ^ 53 : Int) : ℚ) := h2.trans_le (by norm_num)
    exact_mod_cast this
  · unfold ulpExp; omega
  · have h2 := (rep_range hx h).2
    have hh : Int.log 2 x < 1024 := by
      by_contra hc
      have h3 := (zpow_le_zpow_right₀ (by norm_num : (1 : ℚ) ≤ 2) (not_lt.1 hc)).trans (pow_log_le hx)
      exact absurd h3 (not_le.2 h2)
    unfold ulpExp; omega

theorem rep_of_mul {m e : Int} (hm : 0 < m) (hm' : m < 2 ^ 53) (h1 : -1074 ≤ e) (h2 : e ≤ 971) : binary64.rnd (m * 2 ^ e) = .fin (m * 2 ^ e) := by
  have hp := two_zpow_pos e
  have hmq : (0 : ℚ) < m := by exact_mod_cast hm
  have hmq' : (m : ℚ) < 2 ^ (53 : Int) := by
    have : (m : ℚ) < ((2 ^ 53 : Int) : ℚ) := by exact_mod_cast hm'
    exact this.trans_le (by norm_num)
  have hx : 0 < (m : ℚ) * 2 ^ e := mul_pos hmq hp
  have hlt : (m : ℚ) * 2 ^ e < 2 ^ (53 + e) := by
    rw [zpow_add₀ (by norm_num)]; exact mul_lt_mul_of_pos_right hmq' hp
  have hlog : Int.log 2 ((m : ℚ) * 2 ^ e) ≤ 52 + e := by
    by_contra hc
    have h3 := (zpow_le_zpow_right₀ (by norm_num : (1 : ℚ) ≤ 2) (show 53 + e ≤ Int.log 2 ((m : ℚ) * 2 ^ e) by omega)).trans (pow_log_le hx)
    exact absurd h3 (not_le.2 hlt)
  have hu : ulpExp ((m : ℚ) * 2 ^ e) ≤ e := by unfold ulpExp; omega
  have hr : roundPos ((m : ℚ) * 2 ^ e) = m * 2 ^ e := by
    apply roundPos_of_int (n := m * 2 ^ (e - ulpExp ((m : ℚ) * 2 ^ e)).toNat)
    generalize ulpExp ((m : ℚ) * 2 ^ e) = u at *
    push_cast
    rw [mul_assoc, ← zpow_natCast (2 : ℚ), ← zpow_add₀ (by norm_num), Int.toNat_of_nonneg (by omega)]
    congr 2; omega
  rw [binary64_pos hx, hr, if_neg]
  rw [not_le]
  exact hlt.trans_le (zpow_le_zpow_right₀ (by norm_num) (by omega))

/-- **C93.** The numbers that rounding leaves alone are exactly the finite numbers of IEEE-754 binary64. -/
theorem C93_float64 (x : ℚ) : binary64.rnd x = .fin x ↔ Spec.IsFloat64 x := by
  constructor
  · intro h
    rcases lt_trichotomy 0 x with hx | hx | hx
    · exact isFloat64_of_pos hx h
    · exact ⟨0, 0, by norm_num, by norm_num, by norm_num, by simp [← hx]⟩
    · obtain ⟨m, e, h1, h2, h3, h4⟩ := isFloat64_of_pos (x := -x) (by linarith) (by rw [binary64_lawful.odd, h]; rfl)
      exact ⟨-m, e, by rw [abs_neg]; exact h1, h2, h3, by push_cast; linarith⟩
  · rintro ⟨m, e, h1, h2, h3, rfl⟩
    rcases lt_trichotomy 0 m with hm | hm | hm
    · exact rep_of_mul hm (by rwa [abs_of_pos hm] at h1) h2 h3
    · subst hm; simpa using binary64_lawful.zero
    · have := rep_of_mul (m := -m) (by omega) (by rwa [abs_of_neg hm] at h1) h2 h3
      have e1 : ((-m : Int) : ℚ) * 2 ^ e = -((m : ℚ) * 2 ^ e) := by push_cast; ring
      rw [e1, binary64_lawful.odd] at this
      cases hc : binary64.rnd ((m : ℚ) * 2 ^ e) with
      | nan => rw [hc] at this; simp [F64.neg] at this
      | inf s => rw [hc] at this; simp [F64.neg] at this
      | fin q => rw [hc] at this; simp only [F64.neg, F64.fin.injEq, neg_inj] at this; rw [this]

/-- **C93.** Rounding is to nearest: the result is a `float64`, and none is nearer. -/
theorem C93_nearest (t y : ℚ) (h : binary64.rnd t = .fin y) : Spec.IsFloat64 y ∧ ∀ z, Spec.IsFloat64 z → |y - t| ≤ |z - t| :=
  ⟨(C93_float64 y).1 (binary64_lawful.idem _ _ h), fun z hz => binary64_nearest h ((C93_float64 z).2 hz)⟩

theorem ties_pos {t y z : ℚ} (ht : 0 < t) (h : binary64.rnd t = .fin y) (hz : binary64.rnd z = .fin z) (hne : z ≠ y) (heq : |z - t| = |y - t|) :
    ∃ i : Int, y = 2 * i * |y - z| := by
  have hy' : y = roundPos t := by
    rw [binary64_pos ht] at h
    split at h
    · simp at h
    · injection h with h; exact h.symm
  have hp := two_zpow_pos (ulpExp t)
  have hyu : y = roundEven (t / 2 ^ ulpExp t) * 2 ^ ulpExp t := hy'
  -- `z` is a multiple of the same unit
  have hmul : ∃ j : Int, z = j * 2 ^ ulpExp t := by
    rcases lt_trichotomy 0 z with hz0 | hz0 | hz0
    · by_cases hu : ulpExp t ≤ ulpExp z
      · exact rep_mul hz0 (rep_pos hz0 hz) hu
      · exfalso
        have hlt : z < t := by
          by_contra hc
          have := log_mono ht (not_lt.1 hc)
          unfold ulpExp at hu; omega
        have hlog : Int.log 2 z < Int.log 2 t := by unfold ulpExp at hu; omega
        have hue : ulpExp t = Int.log 2 t - 52 := by unfold ulpExp at hu ⊢; omega
        have h1 := pow_log_le ht
        have h2 : z < 2 ^ Int.log 2 t := (lt_pow_log (x := z)).trans_le (zpow_le_zpow_right₀ (by norm_num) (by omega))
        have h3 := roundPos_nearest_mul t (2 ^ 52)
        have h4 : ((2 ^ 52 : Int) : ℚ) * 2 ^ ulpExp t = 2 ^ Int.log 2 t := by
          rw [hue]
          generalize Int.log 2 t = l
          push_cast
          rw [zpow_sub₀ (by norm_num : (2 : ℚ) ≠ 0), show (2 : ℚ) ^ (52 : Int) = 4503599627370496 by norm_num]
          field_simp
        rw [h4, ← hy'] at h3
        generalize (2 : ℚ) ^ Int.log 2 t = p at *
        rw [← heq, abs_of_nonpos (by linarith : z - t ≤ 0), abs_of_nonpos (by linarith)] at h3
        linarith
    · exact ⟨0, by simp [← hz0]⟩
    · exfalso
      have h3 := roundPos_nearest_mul t 0
      rw [← hy', ← heq, abs_of_nonpos (by linarith : z - t ≤ 0), abs_of_nonpos (by push_cast; linarith)] at h3
      push_cast at h3
      linarith
  obtain ⟨j, hj⟩ := hmul
  generalize (2 : ℚ) ^ ulpExp t = u at *
  have hta : t = t / u * u := by field_simp
  generalize ha : t / u = a at *
  subst hyu
  subst hj
  clear hy' h hz ht
  subst hta
  have hjr : j ≠ roundEven a := by rintro rfl; exact hne rfl
  rw [← sub_mul, ← sub_mul, abs_mul, abs_mul] at heq
  have heq' := mul_right_cancel₀ (abs_pos.2 hp.ne').ne' heq
  have h1 := roundEven_err a
  have h2 : (1 : ℚ) ≤ |(j : ℚ) - roundEven a| := by
    have : (1 : Int) ≤ |j - roundEven a| := Int.one_le_abs (by omega)
    exact_mod_cast this
  have h3 := abs_sub_le (j : ℚ) a (roundEven a)
  rw [abs_sub_comm a] at h3
  have h4 : |(roundEven a : ℚ) - a| = 1 / 2 := by linarith
  have h5 : |(j : ℚ) - roundEven a| = 1 := by linarith
  have heven : roundEven a % 2 = 0 := by
    unfold roundEven at h4 ⊢
    simp only at h4 ⊢
    split at h4
    · rename_i hc
      have := Int.floor_le a
      rw [abs_of_nonpos (by linarith)] at h4
      linarith
    · rename_i hc
      rw [if_neg hc]
      split at h4
      · rename_i hc2
        have := Int.lt_floor_add_one a
        push_cast at h4
        rw [abs_of_nonneg (by linarith)] at h4
        linarith
      · rename_i hc2
        rw [if_neg hc2]
        split
        · assumption
        · omega
  refine ⟨roundEven a / 2, ?_⟩
  rw [← sub_mul, abs_mul, abs_sub_comm, h5, abs_of_pos hp, one_mul]
  congr 1
  have : 2 * (roundEven a / 2) = roundEven a := by omega
  exact_mod_cast this.symm

/-- **C93.** Ties are broken to even: if another `float64` is as near, the result is an even multiple of the distance of the two. -/
theorem C93_ties (t y z : ℚ) (h : binary64.rnd t = .fin y) (hz : Spec.IsFloat64 z) (hne : z ≠ y) (heq : |z - t| = |y - t|) : ∃ i : Int, y = 2 * i * |y - z| := by
  have hz' := (C93_float64 z).2 hz
  rcases lt_trichotomy 0 t with ht | ht | ht
  · exact ties_pos ht h hz' hne heq
  · subst ht
    rw [binary64_lawful.zero] at h
    injection h with h
    rw [← h] at heq hne
    simp at heq
    exact absurd heq hne
  · have e1 : binary64.rnd (-t) = .fin (-y) := by rw [binary64_lawful.odd, h]; rfl
    have e2 : binary64.rnd (-z) = .fin (-z) := by rw [binary64_lawful.odd, hz']; rfl
    obtain ⟨i, hi⟩ := ties_pos (by linarith : 0 < -t) e1 e2 (by simpa using hne) (by
      rw [show -y - -t = -(y - t) by ring, show -z - -t = -(z - t) by ring, abs_neg, abs_neg]; exact heq)
    rw [show -y - -z = -(y - z) by ring, abs_neg] at hi
    exact ⟨-i, by push_cast; linarith⟩

/-- **C93.** Overflow: the result is infinite, with the sign of the number, from `2¹⁰²⁴ - 2⁹⁷⁰` (half a unit beyond the largest `float64`) on. -/
theorem C93_overflow (t : ℚ) (s : Bool) : binary64.rnd t = .inf s ↔ 2 ^ (1024 : Int) - 2 ^ (970 : Int) ≤ |t| ∧ (s = true ↔ t < 0) := by
  have main : ∀ t : ℚ, 0 < t → (2 ^ (1024 : Int) ≤ roundPos t ↔ 2 ^ (1024 : Int) - 2 ^ (970 : Int) ≤ t) := by
    intro t ht
    constructor
    · intro h
      by_contra hc
      rw [not_le] at hc
      have h970 := two_zpow_pos 970
      have hlt : t < 2 ^ (1024 : Int) := by
        generalize (2 : ℚ) ^ (1024 : Int) = p at *
        generalize (2 : ℚ) ^ (970 : Int) = q at *
        linarith
      have hlog : Int.log 2 t < 1024 := by
        by_contra hc'
        have h3 := (zpow_le_zpow_right₀ (by norm_num : (1 : ℚ) ≤ 2) (not_lt.1 hc')).trans (pow_log_le ht)
        exact absurd h3 (not_le.2 hlt)
      have hu : ulpExp t ≤ 971 := by unfold ulpExp; omega
      have he := roundEven_err (t / 2 ^ ulpExp t)
      have hp := two_zpow_pos (ulpExp t)
      have herr : |roundPos t - t| ≤ 2 ^ ulpExp t / 2 := by
        unfold roundPos
        generalize (2 : ℚ) ^ ulpExp t = u at *
        rw [show (roundEven (t / u) : ℚ) * u - t = ((roundEven (t / u) : ℚ) - t / u) * u by field_simp, abs_mul, abs_of_pos hp]
        calc _ ≤ 1 / 2 * u := mul_le_mul_of_nonneg_right he hp.le
          _ = u / 2 := by ring
      have hu2 : (2 : ℚ) ^ ulpExp t / 2 ≤ 2 ^ (970 : Int) := by
        rw [div_le_iff₀ (by norm_num)]
        refine (zpow_le_zpow_right₀ (by norm_num) hu).trans (le_of_eq ?_)
        rw [show (971 : Int) = 970 + 1 by norm_num, zpow_add₀ (by norm_num), zpow_one]
      have := (abs_le.1 herr).2
      clear hu
      generalize (2 : ℚ) ^ (1024 : Int) = p at *
      generalize (2 : ℚ) ^ (970 : Int) = q at *
      linarith
    · intro h
      have hT : (2 : ℚ) ^ (1024 : Int) ≤ roundPos (2 ^ (1024 : Int) - 2 ^ (970 : Int)) := by decide +kernel
      have hT0 : (0 : ℚ) < 2 ^ (1024 : Int) - 2 ^ (970 : Int) := by decide +kernel
      exact hT.trans (roundPos_mono hT0 h)
  rcases lt_trichotomy 0 t with ht | ht | ht
  · rw [binary64_pos ht, abs_of_pos ht, ← main t ht]
    generalize (2 : ℚ) ^ (1024 : Int) = p at *
    split
    · rename_i hc
      cases s <;> simp [hc, not_lt.2 ht.le]
    · rename_i hc
      simp [hc]
  · subst ht
    rw [binary64_lawful.zero, abs_zero]
    have : ¬ (2 : ℚ) ^ (1024 : Int) - 2 ^ (970 : Int) ≤ 0 := by decide +kernel
    simp only [reduceCtorEq, false_iff]
    exact fun h => this h.1
  · rw [binary64_neg ht, abs_of_neg ht, ← main (-t) (by linarith)]
    generalize (2 : ℚ) ^ (1024 : Int) = p at *
    split
    · rename_i hc
      cases s <;> simp [hc, ht]
    · rename_i hc
      simp [hc]

/-- One third, a tie (2^53 + 1 is between 2^53 and 2^53 + 2), and a number beyond the largest. -/
example : binary64.rnd (1 / 3) = .fin (6004799503160661 / 18014398509481984) ∧ binary64.rnd 9007199254740993 = .fin 9007199254740992 ∧
    binary64.rnd 9007199254740995 = .fin 9007199254740996 ∧ binary64.rnd (2 ^ 1024 - 2 ^ 969) = .inf false ∧ binary64.rnd (2 ^ 1024 - 2 ^ 971) = .fin (2 ^ 1024 - 2 ^ 971) := by
  decide +kernel

end GoMetrics
