import Verif.Model.Signed
import Verif.Spec.EDR
import Verif.Proofs.EDR
import Verif.Proofs.Float
/-! # Proofs about signed zeros -/
namespace GoMetrics
namespace Z64

variable {R : Rounding}

@[simp] theorem unsigned_round (q : ℚ) (s : Bool) : (round R q s).unsigned = R.rnd q := by
  unfold round
  cases h : R.rnd q with
  | nan => rfl
  | inf b => rfl
  | fin r =>
    simp only
    split
    · rename_i h0; simp [unsigned, h0]
    · rfl

@[simp] theorem unsigned_ofInt (n : Int) : (ofInt R n).unsigned = F64.ofInt R n := unsigned_round _ _
@[simp] theorem unsigned_const (q : ℚ) : (const R q).unsigned = R.rnd q := unsigned_round _ _
@[simp] theorem unsigned_zero (s : Bool) : (zero s).unsigned = .fin 0 := rfl

@[simp] theorem unsigned_neg (x : Z64) : x.neg.unsigned = x.unsigned.neg := by cases x <;> simp [neg, unsigned, F64.neg]

@[simp] theorem unsigned_nan : nan.unsigned = .nan := rfl
@[simp] theorem unsigned_inf (s : Bool) : (inf s).unsigned = .inf s := rfl
@[simp] theorem unsigned_fin (q : ℚ) (h : q ≠ 0) : (fin q h).unsigned = .fin q := rfl

@[simp] theorem unsigned_add (x y : Z64) : (add R x y).unsigned = F64.add R x.unsigned y.unsigned := by
  cases x <;> cases y <;> simp [add, F64.add]
  split <;> rfl

@[simp] theorem unsigned_sub (x y : Z64) : (sub R x y).unsigned = F64.sub R x.unsigned y.unsigned := by
  unfold sub F64.sub; rw [unsigned_add, unsigned_neg]

@[simp] theorem unsigned_mul (x y : Z64) : (mul R x y).unsigned = F64.mul R x.unsigned y.unsigned := by
  cases x <;> cases y <;> simp_all [mul, F64.mul]

theorem unsigned_div (x y : Z64) (hy : y ≠ zero true) : (div R x y).unsigned = F64.div R x.unsigned y.unsigned := by
  cases x <;> cases y <;> simp_all [div, F64.div]

@[simp] theorem unsigned_floor (x : Z64) : x.floor.unsigned = x.unsigned.floor := by
  cases x with
  | fin q h =>
    by_cases h0 : (⌊q⌋ : ℚ) = 0
    · have : (fin q h).floor = zero false := by simp only [floor]; rw [dif_pos h0]
      rw [this]
      simp [F64.floor, h0]
    · simp only [floor, F64.floor, unsigned_fin, dif_neg h0]
  | _ => simp [floor, F64.floor]

theorem isNaN_unsigned (x : Z64) : x.isNaN = x.unsigned.isNaN := by cases x <;> rfl

theorem badQuantile_unsigned (q : Z64) : q.badQuantile = GoMetrics.badQuantile q.unsigned := by
  unfold badQuantile GoMetrics.badQuantile
  rw [isNaN_unsigned]
  congr 2

theorem round_eq_negZero {q : ℚ} {s : Bool} (h : round R q s = zero true) : R.rnd q = .fin 0 ∧ ((q = 0 ∧ s = true) ∨ q < 0) := by
  unfold round at h
  cases hr : R.rnd q with
  | nan => simp [hr] at h
  | inf b => simp [hr] at h
  | fin r =>
    simp only [hr] at h
    by_cases h0 : r = 0
    · rw [dif_pos h0] at h
      refine ⟨by rw [h0], ?_⟩
      by_cases hq : q = 0
      · rw [if_pos hq] at h
        exact .inl ⟨hq, by simpa using h⟩
      · rw [if_neg hq] at h
        exact .inr (by simpa using h)
    · rw [dif_neg h0] at h; simp at h

/-- With 1 a float64, integers do not round to zero. -/
theorem rnd_int_ne (hR : R.Lawful) (h1 : R.rnd 1 = .fin 1) {n : Int} (hn : n ≠ 0) : R.rnd n ≠ .fin 0 := by
  intro h
  have hneg : R.rnd (-1 : ℚ) = .fin (-1) := by rw [hR.odd, h1]; rfl
  rcases lt_or_gt_of_ne hn with h' | h'
  · have := hR.mono n (-1) (by have : n ≤ -1 := by omega
                               exact_mod_cast this)
    rw [h, hneg] at this
    simp [F64.le] at this
    linarith
  · have := hR.mono 1 n (by have : 1 ≤ n := by omega
                            exact_mod_cast this)
    rw [h, h1] at this
    simp [F64.le] at this
    linarith

theorem ofInt_ne (hR : R.Lawful) (h1 : R.rnd 1 = .fin 1) (n : Int) : ofInt R n ≠ zero true := by
  intro h
  obtain ⟨h2, h3⟩ := round_eq_negZero h
  rcases h3 with ⟨_, h3⟩ | h3
  · simp at h3
  · exact rnd_int_ne hR h1 (n := n) (by rintro rfl; simp at h3) h2

/-! ## When a sum is -0 -/

/-- A float64 is a multiple of the least positive one. -/
theorem roundPos_grid (x : ℚ) : ∃ k : Int, roundPos x = k * 2 ^ (-1074 : Int) := by
  unfold roundPos
  have h : -1074 ≤ ulpExp x := le_max_right _ _
  obtain ⟨n, hn⟩ := Int.eq_ofNat_of_zero_le (show 0 ≤ ulpExp x + 1074 by omega)
  refine ⟨roundEven (x / 2 ^ ulpExp x) * 2 ^ n, ?_⟩
  have : ulpExp x = (n : Int) + (-1074) := by omega
  generalize roundEven (x / 2 ^ ulpExp x) = m
  rw [this, zpow_add₀ (by norm_num), zpow_natCast]
  push_cast
  ring

theorem binary64_grid {q r : ℚ} (h : Rounding.binary64.rnd q = .fin r) : ∃ k : Int, r = k * 2 ^ (-1074 : Int) := by
  unfold Rounding.binary64 at h
  simp only at h
  split at h
  · exact ⟨0, by simp at h; simp [← h]⟩
  · obtain ⟨k, hk⟩ := roundPos_grid |q|
    split at h
    · simp at h
    · split at h
      · exact ⟨-k, by simp at h; rw [← h, hk]; push_cast; ring⟩
      · exact ⟨k, by simp at h; rw [← h, hk]⟩

/-- Nothing from the least positive float64 on rounds to zero. -/
theorem binary64_ne_zero {q : ℚ} (h : 2 ^ (-1074 : Int) ≤ |q|) : Rounding.binary64.rnd q ≠ .fin 0 := by
  have hp : (0 : ℚ) < 2 ^ (-1074 : Int) := two_zpow_pos _
  have hlog : ulpExp (2 ^ (-1074 : Int) : ℚ) ≤ -1074 := by
    unfold ulpExp
    have : Int.log 2 ((2 : ℚ) ^ (-1074 : Int)) = -1074 := by
      have := Int.log_zpow (R := ℚ) (b := 2) (by norm_num) (-1074)
      exact_mod_cast this
    rw [this]
    norm_num
  have hpos : ∀ q : ℚ, 2 ^ (-1074 : Int) ≤ q → Rounding.binary64.rnd q ≠ .fin 0 := by
    intro q hq h
    have h2 := (pow_le_roundPos hlog le_rfl).trans (roundPos_mono hp hq)
    rw [Rounding.binary64_pos (hp.trans_le hq)] at h
    split at h
    · simp at h
    · simp at h; rw [h] at h2; linarith
  rcases abs_cases q with ⟨h', _⟩ | ⟨h', _⟩
  · exact hpos q (h' ▸ h)
  · intro h0
    apply hpos (-q) (h' ▸ h)
    rw [Rounding.binary64_lawful.odd, h0]
    simp [F64.neg]

theorem grid_le {k : Int} (hk : k ≠ 0) : (2 : ℚ) ^ (-1074 : Int) ≤ |(k * 2 ^ (-1074 : Int) : ℚ)| := by
  have hp : (0 : ℚ) < 2 ^ (-1074 : Int) := two_zpow_pos _
  rw [abs_mul, abs_of_pos hp]
  have : (1 : ℚ) ≤ |(k : ℚ)| := by exact_mod_cast Int.one_le_abs hk
  exact le_mul_of_one_le_left hp.le this

/-- Multiples of the least positive float64 do not round to zero. -/
theorem binary64_grid_ne {k : Int} (hk : k ≠ 0) : Rounding.binary64.rnd (k * 2 ^ (-1074 : Int)) ≠ .fin 0 := binary64_ne_zero (grid_le hk)

theorem binary64_lt {q r : ℚ} (h : Rounding.binary64.rnd q = .fin r) : |r| < 2 ^ (1024 : Int) := by
  rcases lt_trichotomy q 0 with h' | h' | h'
  · rw [Rounding.binary64_neg h'] at h
    split at h
    · simp at h
    · rename_i hlt
      simp at h
      rw [← h, abs_neg, abs_of_nonneg (roundPos_nonneg (by linarith))]
      exact not_le.1 hlt
  · subst h'
    rw [Rounding.binary64_lawful.zero] at h
    simp at h
    rw [← h, abs_zero]
    exact two_zpow_pos _
  · rw [Rounding.binary64_pos h'] at h
    split at h
    · simp at h
    · rename_i hlt
      simp at h
      rw [← h, abs_of_nonneg (roundPos_nonneg h'.le)]
      exact not_le.1 hlt

theorem isFloat64_round (q : ℚ) (s : Bool) : IsFloat64 (round .binary64 q s) := by
  intro r hr h
  have h2 := congrArg unsigned h
  rw [unsigned_round] at h2
  exact Rounding.binary64_lawful.idem q r h2

theorem isFloat64_zero (s : Bool) : IsFloat64 (zero s) := by intro q h e; simp at e
theorem isFloat64_inf (s : Bool) : IsFloat64 (inf s) := by intro q h e; simp at e
theorem isFloat64_nan : IsFloat64 nan := by intro q h e; simp at e
theorem isFloat64_ofInt (n : Int) : IsFloat64 (ofInt .binary64 n) := isFloat64_round _ _

theorem isFloat64_neg {x : Z64} (hx : IsFloat64 x) : IsFloat64 x.neg := by
  cases x with
  | fin q h =>
    intro r hr e
    simp only [neg, fin.injEq] at e
    subst e
    rw [Rounding.binary64_lawful.odd, hx q h rfl]
    rfl
  | _ => intro q h e; simp [neg] at e

theorem isFloat64_add (x y : Z64) : IsFloat64 (add .binary64 x y) := by
  cases x <;> cases y <;> simp only [add] <;> first | exact isFloat64_round _ _ | exact isFloat64_nan | exact isFloat64_inf _ | skip
  split
  · exact isFloat64_inf _
  · exact isFloat64_nan

theorem isFloat64_mul (x y : Z64) : IsFloat64 (mul .binary64 x y) := by
  cases x <;> cases y <;> simp only [mul] <;> first | exact isFloat64_round _ _ | exact isFloat64_nan | exact isFloat64_inf _

theorem isFloat64_div (x y : Z64) : IsFloat64 (div .binary64 x y) := by
  cases x <;> cases y <;> simp only [div] <;> first | exact isFloat64_round _ _ | exact isFloat64_nan | exact isFloat64_inf _ | exact isFloat64_zero _

/-- The sum of float64 values is -0 only if both are. -/
theorem add_eq_negZero {x y : Z64} (hx : IsFloat64 x) (hy : IsFloat64 y) (h : add .binary64 x y = zero true) : x = zero true ∧ y = zero true := by
  have grid : ∀ q : ℚ, Rounding.binary64.rnd q = .fin 0 → (∃ k : Int, q = k * 2 ^ (-1074 : Int)) → q = 0 := by
    rintro q h ⟨k, rfl⟩
    by_contra hne
    exact binary64_grid_ne (k := k) (by rintro rfl; simp at hne) h
  cases x with
  | nan => simp [add] at h
  | inf s => cases y <;> simp [add] at h; split at h <;> simp at h
  | zero s =>
    cases y with
    | nan => simp [add] at h
    | inf s => simp [add] at h
    | zero s' =>
      have h : round .binary64 0 (s && s') = zero true := h
      obtain ⟨_, h2⟩ := round_eq_negZero h
      simpa using h2
    | fin b hb =>
      obtain ⟨h1, h2⟩ := round_eq_negZero h
      exact absurd (grid _ h1 (binary64_grid (hy b hb rfl))) hb
  | fin a ha =>
    cases y with
    | nan => simp [add] at h
    | inf s => simp [add] at h
    | zero s' =>
      obtain ⟨h1, h2⟩ := round_eq_negZero h
      exact absurd (grid _ h1 (binary64_grid (hx a ha rfl))) ha
    | fin b hb =>
      obtain ⟨h1, h2⟩ := round_eq_negZero h
      obtain ⟨k, hk⟩ := binary64_grid (hx a ha rfl)
      obtain ⟨l, hl⟩ := binary64_grid (hy b hb rfl)
      have := grid _ h1 ⟨k + l, by rw [hk, hl]; push_cast; ring⟩
      rcases h2 with ⟨_, h2⟩ | h2
      · simp at h2
      · linarith

/-! ## float64(n) -/

theorem ofInt_zero (hR : R.Lawful) : ofInt R 0 = zero false := by
  unfold ofInt round
  simp [hR.zero]

theorem ofInt_pos (hR : R.Lawful) (h1 : R.rnd 1 = .fin 1) {n : Int} (hn : 0 < n) : ofInt R n = inf false ∨ ∃ b h, ofInt R n = fin b h ∧ 1 ≤ b := by
  have hle := hR.mono 1 n (by exact_mod_cast hn)
  rw [h1] at hle
  unfold ofInt round
  cases hr : R.rnd n with
  | nan => exact absurd hr (hR.not_nan _)
  | inf b =>
    rw [hr] at hle
    cases b
    · exact .inl rfl
    · simp [F64.le] at hle
  | fin r =>
    rw [hr] at hle
    have hle : 1 ≤ r := hle
    have h0 : ¬ r = 0 := by rintro rfl; linarith
    simp only
    rw [dif_neg h0]
    exact .inr ⟨r, h0, rfl, hle⟩

theorem ofInt_neg (hR : R.Lawful) (h1 : R.rnd 1 = .fin 1) {n : Int} (hn : n < 0) : ofInt R n = inf true ∨ ∃ b h, ofInt R n = fin b h ∧ b ≤ -1 := by
  have hle := hR.mono n (-1) (by have : n ≤ -1 := by omega
                                 exact_mod_cast this)
  rw [hR.odd, h1] at hle
  unfold ofInt round
  cases hr : R.rnd n with
  | nan => exact absurd hr (hR.not_nan _)
  | inf b =>
    rw [hr] at hle
    cases b
    · simp [F64.le, F64.neg] at hle
    · exact .inl rfl
  | fin r =>
    rw [hr] at hle
    have hle : r ≤ -1 := hle
    have h0 : ¬ r = 0 := by rintro rfl; linarith
    simp only
    rw [dif_neg h0]
    exact .inr ⟨r, h0, rfl, hle⟩

/-! ## Neither negative nor -0 -/

/-- NaN, or +0, or positive. -/
def Pos (x : Z64) : Prop := x = nan ∨ x = inf false ∨ x = zero false ∨ ∃ q h, x = fin q h ∧ 0 < q

theorem Pos.ne {x : Z64} (h : Pos x) : x ≠ zero true := by
  rcases h with rfl | rfl | rfl | ⟨q, h, rfl, _⟩ <;> simp

theorem pos_of_nonNeg {x : Z64} (h : x.unsigned.NonNeg) (hz : x ≠ zero true) : Pos x := by
  cases x with
  | nan => exact .inl rfl
  | inf s => cases s
             · exact .inr (.inl rfl)
             · simp [F64.NonNeg, F64.lt] at h
  | zero s => cases s
              · exact .inr (.inr (.inl rfl))
              · exact absurd rfl hz
  | fin q hq =>
    refine .inr (.inr (.inr ⟨q, hq, rfl, ?_⟩))
    have h : ¬ q < 0 := h
    exact lt_of_le_of_ne (not_lt.1 h) (Ne.symm hq)

theorem pos_round (hR : R.Lawful) {q : ℚ} (hq : 0 ≤ q) {s : Bool} (hs : q = 0 → s = false) : Pos (round R q s) := by
  apply pos_of_nonNeg
  · rw [unsigned_round]; exact F64.nonNeg_rnd hR hq
  · intro h
    rcases (round_eq_negZero h).2 with ⟨h1, h2⟩ | h1
    · rw [hs h1] at h2; simp at h2
    · linarith

theorem pos_add (hR : R.Lawful) {x y : Z64} (hx : Pos x) (hy : Pos y) : Pos (add R x y) := by
  rcases hx with rfl | rfl | rfl | ⟨a, ha, rfl, ha0⟩ <;> rcases hy with rfl | rfl | rfl | ⟨b, hb, rfl, hb0⟩ <;> simp only [add] <;>
    first
      | exact .inl rfl
      | exact .inr (.inl rfl)
      | exact pos_round hR le_rfl (by simp)
      | exact pos_round hR (by linarith) (by simp)

theorem pos_mul (hR : R.Lawful) {x y : Z64} (hx : Pos x) (hy : Pos y) : Pos (mul R x y) := by
  rcases hx with rfl | rfl | rfl | ⟨a, ha, rfl, ha0⟩ <;> rcases hy with rfl | rfl | rfl | ⟨b, hb, rfl, hb0⟩ <;> simp only [mul] <;>
    first
      | exact .inl rfl
      | exact .inr (.inl rfl)
      | (have := le_of_lt ha0; refine .inr (.inl ?_); simp [*]; done)
      | (have := le_of_lt hb0; refine .inr (.inl ?_); simp [*]; done)
      | (refine pos_round hR le_rfl ?_; simp; done)
      | (have := le_of_lt ha0; refine pos_round hR le_rfl ?_; simp [*]; done)
      | (have := le_of_lt hb0; refine pos_round hR le_rfl ?_; simp [*]; done)
      | exact pos_round hR (mul_pos ha0 hb0).le (fun _ => rfl)

theorem pos_div (hR : R.Lawful) {x y : Z64} (hx : Pos x) (hy : Pos y) : Pos (div R x y) := by
  rcases hx with rfl | rfl | rfl | ⟨a, ha, rfl, ha0⟩ <;> rcases hy with rfl | rfl | rfl | ⟨b, hb, rfl, hb0⟩ <;> simp only [div] <;>
    first
      | exact .inl rfl
      | exact .inr (.inl rfl)
      | exact .inr (.inr (.inl rfl))
      | (have := le_of_lt ha0; refine .inr (.inl ?_); simp [*]; done)
      | (have := le_of_lt hb0; refine .inr (.inl ?_); simp [*]; done)
      | (have := le_of_lt ha0; refine .inr (.inr (.inl ?_)); simp [*]; done)
      | (have := le_of_lt hb0; refine .inr (.inr (.inl ?_)); simp [*]; done)
      | (have := le_of_lt ha0; refine pos_round hR le_rfl ?_; simp [*]; done)
      | (have := le_of_lt hb0; refine pos_round hR le_rfl ?_; simp [*]; done)
      | exact pos_round hR (div_pos ha0 hb0).le (fun _ => rfl)

theorem pos_square (hR : R.Lawful) (x : Z64) : Pos (mul R x x) := by
  cases x <;> simp only [mul] <;>
    first
      | exact .inl rfl
      | (refine .inr (.inl ?_); simp; done)
      | (refine pos_round hR le_rfl ?_; simp; done)
      | exact pos_round hR (mul_self_nonneg _) (fun _ => rfl)

theorem pos_ofInt (hR : R.Lawful) {n : Int} (hn : 0 ≤ n) : Pos (ofInt R n) := pos_round hR (by exact_mod_cast hn) (by simp)

end Z64
end GoMetrics
