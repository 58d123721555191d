import Verif.Model.Float
/-! # binary64 is a lawful rounding -/
namespace GoMetrics

theorem roundEven_int (n : Int) : roundEven n = n := by
  unfold roundEven
  simp

theorem roundEven_le {x : ℚ} {n : Int} (h : x ≤ n) : roundEven x ≤ n := by
  unfold roundEven
  have h1 := Int.floor_le x
  have h3 : ⌊x⌋ ≤ n := by
    have : (⌊x⌋ : ℚ) ≤ n := le_trans h1 h
    exact_mod_cast this
  simp only
  rcases lt_or_eq_of_le h3 with hlt | heq
  · split
    · exact h3
    · split
      · omega
      · split <;> omega
  · have : x = n := by
      apply le_antisymm h
      rw [← heq]; exact h1
    subst this
    simp

theorem le_roundEven {x : ℚ} {n : Int} (h : (n : ℚ) ≤ x) : n ≤ roundEven x := by
  have h3 : n ≤ ⌊x⌋ := Int.le_floor.2 h
  unfold roundEven
  simp only
  split
  · exact h3
  · split
    · omega
    · split <;> omega

theorem roundEven_mono {x y : ℚ} (h : x ≤ y) : roundEven x ≤ roundEven y := by
  have hf : ⌊x⌋ ≤ ⌊y⌋ := Int.floor_le_floor h
  rcases lt_or_eq_of_le hf with hlt | heq
  · -- different floors
    have h1 : roundEven x ≤ ⌊x⌋ + 1 := by
      apply roundEven_le
      have := Int.lt_floor_add_one x
      push_cast; exact le_of_lt this
    have h2 : ⌊y⌋ ≤ roundEven y := le_roundEven (Int.floor_le y)
    omega
  · unfold roundEven
    simp only [heq]
    have hd : x - ⌊y⌋ ≤ y - ⌊y⌋ := by linarith
    split
    · rename_i h1
      split
      · exact le_rfl
      · split
        · omega
        · split <;> omega
    · rename_i h1
      split
      · rename_i h2
        have h3 : ¬ (y - ⌊y⌋ < 1 / 2) := by push Not; linarith
        have h4 : 1 / 2 < y - ⌊y⌋ := by linarith
        rw [if_neg h3, if_pos h4]
      · rename_i h2
        have h3 : ¬ (y - ⌊y⌋ < 1 / 2) := by push Not at *; linarith
        rw [if_neg h3]
        split
        · split
          · omega
          · exact le_rfl
        · split <;> omega

theorem two_zpow_pos (e : Int) : (0 : ℚ) < 2 ^ e := by positivity

theorem roundPos_nonneg {x : ℚ} (h : 0 ≤ x) : 0 ≤ roundPos x := by
  unfold roundPos
  apply mul_nonneg _ (le_of_lt (two_zpow_pos _))
  have : (0 : Int) ≤ roundEven (x / 2 ^ ulpExp x) := by
    apply le_roundEven
    push_cast
    exact div_nonneg h (le_of_lt (two_zpow_pos _))
  exact_mod_cast this

/-- `2^k` is an upper bound after rounding if it was before, for `k` at least the ulp exponent. -/
theorem roundPos_le_pow {x : ℚ} {k : Int} (hk : ulpExp x ≤ k) (h : x ≤ 2 ^ k) : roundPos x ≤ 2 ^ k := by
  unfold roundPos
  obtain ⟨n, hn⟩ : ∃ n : Nat, k - ulpExp x = n := ⟨(k - ulpExp x).toNat, by omega⟩
  have hpow : (2 : ℚ) ^ k = ((2 : Int) ^ n : Int) * 2 ^ ulpExp x := by
    have : k = (n : Int) + ulpExp x := by omega
    rw [this, zpow_add₀ (by norm_num), zpow_natCast]; push_cast; rfl
  have h1 : roundEven (x / 2 ^ ulpExp x) ≤ (2 : Int) ^ n := by
    apply roundEven_le
    rw [div_le_iff₀ (two_zpow_pos _), ← hpow]; exact h
  rw [hpow]
  apply mul_le_mul_of_nonneg_right _ (le_of_lt (two_zpow_pos _))
  exact_mod_cast h1

theorem pow_le_roundPos {x : ℚ} {k : Int} (hk : ulpExp x ≤ k) (h : 2 ^ k ≤ x) : 2 ^ k ≤ roundPos x := by
  unfold roundPos
  obtain ⟨n, hn⟩ : ∃ n : Nat, k - ulpExp x = n := ⟨(k - ulpExp x).toNat, by omega⟩
  have hpow : (2 : ℚ) ^ k = ((2 : Int) ^ n : Int) * 2 ^ ulpExp x := by
    have : k = (n : Int) + ulpExp x := by omega
    rw [this, zpow_add₀ (by norm_num), zpow_natCast]; push_cast; rfl
  have h1 : (2 : Int) ^ n ≤ roundEven (x / 2 ^ ulpExp x) := by
    apply le_roundEven
    rw [le_div_iff₀ (two_zpow_pos _), ← hpow]; exact h
  rw [hpow]
  apply mul_le_mul_of_nonneg_right _ (le_of_lt (two_zpow_pos _))
  exact_mod_cast h1

theorem lt_pow_log {x : ℚ} : x < 2 ^ (Int.log 2 x + 1) := by
  have := Int.lt_zpow_succ_log_self (b := 2) (by norm_num) x
  exact_mod_cast this

theorem pow_log_le {x : ℚ} (h : 0 < x) : 2 ^ (Int.log 2 x) ≤ x := by
  have := Int.zpow_log_le_self (b := 2) (by norm_num) h
  exact_mod_cast this

theorem log_mono {x y : ℚ} (h : 0 < x) (hxy : x ≤ y) : Int.log 2 x ≤ Int.log 2 y :=
  Int.log_mono_right h hxy

theorem roundPos_mono {x y : ℚ} (h : 0 < x) (hxy : x ≤ y) : roundPos x ≤ roundPos y := by
  have hl := log_mono h hxy
  have hy : 0 < y := lt_of_lt_of_le h hxy
  have he : ulpExp x ≤ ulpExp y := by unfold ulpExp; omega
  rcases lt_or_eq_of_le he with hlt | heq
  · -- the last place of `y` is coarser: a power of two separates them
    have hey : ulpExp y = Int.log 2 y - 52 := by unfold ulpExp at *; omega
    have hx52 : Int.log 2 x - 52 ≤ ulpExp x := by unfold ulpExp; omega
    have hmin : -1074 ≤ ulpExp x := by unfold ulpExp; omega
    have hlog : Int.log 2 x + 1 ≤ Int.log 2 y := by omega
    have h1 : x ≤ 2 ^ (Int.log 2 y) := by
      refine le_trans (le_of_lt lt_pow_log) ?_
      exact zpow_le_zpow_right₀ (by norm_num) hlog
    refine le_trans (roundPos_le_pow (k := Int.log 2 y) (by omega) h1) ?_
    exact pow_le_roundPos (by omega) (pow_log_le hy)
  · unfold roundPos
    rw [heq]
    apply mul_le_mul_of_nonneg_right _ (le_of_lt (two_zpow_pos _))
    have : roundEven (x / 2 ^ ulpExp y) ≤ roundEven (y / 2 ^ ulpExp y) := by
      apply roundEven_mono
      exact div_le_div_of_nonneg_right hxy (le_of_lt (two_zpow_pos _))
    exact_mod_cast this

theorem roundPos_of_int {r : ℚ} {n : Int} (h : r = n * 2 ^ ulpExp r) : roundPos r = r := by
  have : r / 2 ^ ulpExp r = n := by
    rw [div_eq_iff (ne_of_gt (two_zpow_pos _))]; exact h
  unfold roundPos
  rw [this, roundEven_int]; exact h.symm

theorem roundPos_idem {x : ℚ} (h : 0 < x) (hr : 0 < roundPos x) : roundPos (roundPos x) = roundPos x := by
  -- write `r = m * 2^e`
  obtain ⟨m, hm⟩ : ∃ m, roundEven (x / 2 ^ ulpExp x) = m := ⟨_, rfl⟩
  have hrm : roundPos x = m * 2 ^ ulpExp x := by unfold roundPos; rw [hm]
  generalize hrdef : roundPos x = r at *
  by_cases hle : ulpExp r ≤ ulpExp x
  · obtain ⟨n, hn⟩ : ∃ n : Nat, ulpExp x - ulpExp r = n := ⟨(ulpExp x - ulpExp r).toNat, by omega⟩
    apply roundPos_of_int (n := m * 2 ^ n)
    have : ulpExp x = (n : Int) + ulpExp r := by omega
    conv_lhs => rw [hrm, this, zpow_add₀ (by norm_num), zpow_natCast]
    push_cast; ring
  · -- then `r` has been rounded up to the next power of two
    have hx52 : Int.log 2 x - 52 ≤ ulpExp x := by unfold ulpExp; omega
    have hmin : -1074 ≤ ulpExp x := by unfold ulpExp; omega
    have her : ulpExp r = Int.log 2 r - 52 := by unfold ulpExp at *; omega
    have hup : r ≤ 2 ^ (ulpExp x + 53) := by
      rw [← hrdef]
      apply roundPos_le_pow (by omega)
      refine le_trans (le_of_lt lt_pow_log) ?_
      exact zpow_le_zpow_right₀ (by norm_num) (by omega)
    have hlo : 2 ^ (ulpExp x + 53) ≤ r := by
      refine le_trans ?_ (pow_log_le hr)
      exact zpow_le_zpow_right₀ (by norm_num) (by omega)
    have hre : r = 2 ^ (ulpExp x + 53) := le_antisymm hup hlo
    obtain ⟨n, hn⟩ : ∃ n : Nat, ulpExp x + 53 - ulpExp r = n := by
      have : Int.log 2 r ≤ ulpExp x + 53 := by
        have h1 := pow_log_le hr
        have h2 : (2 : ℚ) ^ Int.log 2 r ≤ 2 ^ (ulpExp x + 53) := le_trans h1 hup
        exact (zpow_le_zpow_iff_right₀ (by norm_num)).1 h2
      exact ⟨(ulpExp x + 53 - ulpExp r).toNat, by omega⟩
    apply roundPos_of_int (n := 2 ^ n)
    have : ulpExp x + 53 = (n : Int) + ulpExp r := by omega
    conv_lhs => rw [hre, this, zpow_add₀ (by norm_num), zpow_natCast]
    push_cast; rfl

namespace Rounding

theorem binary64_pos {q : ℚ} (h : 0 < q) :
    binary64.rnd q = if 2 ^ (1024 : Int) ≤ roundPos q then .inf false else .fin (roundPos q) := by
  unfold binary64
  simp only [ne_of_gt h, if_false, abs_of_pos h, not_lt.2 (le_of_lt h), decide_false]

theorem binary64_neg {q : ℚ} (h : q < 0) :
    binary64.rnd q = if 2 ^ (1024 : Int) ≤ roundPos (-q) then .inf true else .fin (-roundPos (-q)) := by
  unfold binary64
  simp only [ne_of_lt h, if_false, abs_of_neg h, h, decide_true, if_true]

theorem binary64_lawful : binary64.Lawful where
  zero := by simp [binary64]
  not_nan := by
    intro q
    rcases lt_trichotomy q 0 with h | h | h
    · rw [binary64_neg h]; split <;> simp
    · subst h; simp [binary64]
    · rw [binary64_pos h]; split <;> simp
  odd := by
    intro q
    rcases lt_trichotomy q 0 with h | h | h
    · rw [binary64_pos (q := -q) (by linarith), binary64_neg h]
      split <;> simp [F64.neg]
    · subst h; simp [binary64, F64.neg]
    · rw [binary64_neg (q := -q) (by linarith), binary64_pos h, neg_neg]
      split <;> simp [F64.neg]
  mono := by
    have hpos : ∀ a b : ℚ, 0 < a → a ≤ b → (binary64.rnd a).le (binary64.rnd b) := by
      intro a b ha hab
      rw [binary64_pos ha, binary64_pos (lt_of_lt_of_le ha hab)]
      have := roundPos_mono ha hab
      split
      · rename_i h1
        rw [if_pos (le_trans h1 this)]; simp [F64.le]
      · split
        · simp [F64.le]
        · exact this
    intro a b hab
    rcases lt_trichotomy a 0 with ha | ha | ha
    · rcases lt_trichotomy b 0 with hb | hb | hb
      · rw [binary64_neg ha, binary64_neg hb]
        have := roundPos_mono (x := -b) (y := -a) (by linarith) (by linarith)
        split
        · split <;> simp [F64.le]
        · rename_i h1
          rw [if_neg (by intro h2; exact h1 (le_trans h2 this))]
          simp only [F64.le]; linarith
      · subst hb
        rw [binary64_neg ha]
        have := roundPos_nonneg (x := -a) (by linarith)
        have h0 : binary64.rnd 0 = .fin 0 := by simp [binary64]
        rw [h0]
        split
        · simp [F64.le]
        · simp only [F64.le]; linarith
      · rw [binary64_neg ha, binary64_pos hb]
        have h1 := roundPos_nonneg (x := -a) (by linarith)
        have h2 := roundPos_nonneg (x := b) (by linarith)
        split
        · split <;> simp [F64.le]
        · split
          · simp [F64.le]
          · simp only [F64.le]; linarith
    · subst ha
      have h0 : binary64.rnd 0 = .fin 0 := by simp [binary64]
      rw [h0]
      rcases lt_or_eq_of_le hab with hb | hb
      · rw [binary64_pos hb]
        have h2 := roundPos_nonneg (x := b) (by linarith)
        split
        · simp [F64.le]
        · exact h2
      · rw [← hb, h0]; simp [F64.le]
    · exact hpos a b ha hab
  idem := by
    have h0 : binary64.rnd 0 = .fin 0 := by simp [binary64]
    have hpos : ∀ a b : ℚ, 0 < a → binary64.rnd a = .fin b → binary64.rnd b = .fin b := by
      intro a b ha h
      rw [binary64_pos ha] at h
      split at h
      · simp at h
      · rename_i h1
        simp only [F64.fin.injEq] at h
        rcases lt_or_eq_of_le (roundPos_nonneg (x := a) (by linarith)) with hr | hr
        · rw [← h, binary64_pos hr, roundPos_idem ha hr, if_neg h1]
        · rw [← h, ← hr, h0]
    intro a b h
    rcases lt_trichotomy a 0 with ha | ha | ha
    · rw [binary64_neg ha] at h
      split at h
      · simp at h
      · rename_i h1
        simp only [F64.fin.injEq] at h
        have := hpos (-a) (roundPos (-a)) (by linarith) (by rw [binary64_pos (by linarith), if_neg h1])
        rcases lt_or_eq_of_le (roundPos_nonneg (x := -a) (by linarith)) with hr | hr
        · rw [binary64_pos hr] at this
          rw [← h, binary64_neg (q := -roundPos (-a)) (by linarith), neg_neg]
          split at this
          · simp at this
          · rename_i h2
            rw [if_neg h2]
            simp only [F64.fin.injEq] at this ⊢
            rw [this]
        · rw [← h, ← hr, neg_zero, h0]
    · subst ha
      rw [h0] at h
      simp only [F64.fin.injEq] at h
      rw [← h]; exact h0
    · exact hpos a b ha h

theorem exact_lawful : exact.Lawful where
  zero := rfl
  not_nan := by intro q; simp [exact]
  odd := by intro q; rfl
  mono := by intro a b h; exact h
  idem := by intro a b h; rfl

end Rounding
end GoMetrics
