import Verif.Model.UniformSnapshot
import Verif.Proofs.EWMAFloat
import Verif.Proofs.Seconds
import Mathlib.Data.List.Sort
import Mathlib.Algebra.BigOperators.Ring.List
/-! Lemmas about uniform snapshots. -/
namespace GoMetrics
open Rounding

/-- Integers below 2^53 are represented exactly. -/
def Rounding.Ints (R : Rounding) : Prop := ∀ n : Int, |n| < 2 ^ 53 → R.Rep n

theorem binary64_ints : binary64.Ints := fun _ h => binary64_int h
theorem exact_ints : exact.Ints := fun _ _ => rfl
theorem exact_rep (q : ℚ) : exact.Rep q := rfl

namespace UniformSnapshot

theorem sorted_new (vs : List Int) : (new vs).values.Pairwise (· ≤ ·) := by
  exact List.pairwise_insertionSort _ _

theorem perm_new (vs : List Int) : (new vs).values.Perm vs := List.perm_insertionSort _ _

theorem length_new (vs : List Int) : (new vs).values.length = vs.length := (perm_new vs).length_eq

theorem mem_new {vs : List Int} {x : Int} : x ∈ (new vs).values ↔ x ∈ vs := (perm_new vs).mem_iff

theorem index_some {α : Type} {s : List α} {i : Int} (h0 : 0 ≤ i) (h1 : i < s.length) :
    ∃ h : i.toNat < s.length, index s i = some s[i.toNat] := by
  have h : i.toNat < s.length := by omega
  exact ⟨h, by unfold index; rw [if_neg (by omega), List.getElem?_eq_getElem h]⟩

theorem sorted_get {s : List Int} (h : s.Pairwise (· ≤ ·)) {i j : Nat} (hi : i < s.length) (hj : j < s.length) (hij : i ≤ j) :
    s[i] ≤ s[j] := by
  rcases Nat.lt_or_eq_of_le hij with h' | h'
  · exact List.pairwise_iff_getElem.1 h i j hi hj h'
  · subst h'; exact le_refl _

theorem bad_fin (q : ℚ) : badQuantile (.fin q) = false ↔ 0 ≤ q ∧ q ≤ 1 := by
  simp only [badQuantile, Bool.or_eq_false_iff, decide_eq_false_iff_not]; simp [F64.lt, F64.isNaN]

theorem good_iff (q : F64) : badQuantile q = false ↔ ∃ x : ℚ, q = .fin x ∧ 0 ≤ x ∧ x ≤ 1 := by
  cases q with
  | nan => simp [badQuantile, F64.isNaN]
  | inf s => simp only [badQuantile, Bool.or_eq_false_iff, decide_eq_false_iff_not]; cases s <;> simp [F64.lt]
  | fin x => rw [bad_fin]; simp

/-- If the truncated position is a usable index, the position is finite and this is its floor. -/
theorem trunc_floor {x : F64} (h : 1 ≤ truncInt x) : ∃ p : ℚ, x = .fin p ∧ truncInt x = ⌊p⌋ ∧ 1 ≤ p := by
  cases x with
  | nan => exact absurd h (by decide)
  | inf s => exact absurd h (by unfold truncInt toInt64; simp)
  | fin p =>
    refine ⟨p, rfl, ?_, ?_⟩
    all_goals
      unfold truncInt toInt64 at h
      simp only at h
      by_cases hp : 0 ≤ p
    · unfold truncInt toInt64
      simp only
      rw [if_pos hp] at h ⊢
      split at h <;> rename_i hr
      · rw [if_pos hr]; rfl
      · simp at h
    · rw [if_neg hp] at h
      have : 0 ≤ ⌊-p⌋ := Int.floor_nonneg.2 (by linarith)
      split at h <;> simp at h; omega
    · rw [if_pos hp] at h
      split at h
      · simp only [Option.getD_some] at h
        have := Int.floor_le p
        have h' : (1 : ℚ) ≤ ⌊p⌋ := by exact_mod_cast h
        linarith
      · simp at h
    · rw [if_neg hp] at h
      have : 0 ≤ ⌊-p⌋ := Int.floor_nonneg.2 (by linarith)
      split at h <;> simp at h; omega

theorem getElem_mem_vals {u : UniformSnapshot} {i : Nat} (h : i < u.values.length) : u.values[i] ∈ u.values := List.getElem_mem h

/-- The three branches of `GetValue` for a permitted quantile and a non-empty snapshot. -/
theorem getValue_cases (R : Rounding) (u : UniformSnapshot) {q : F64} (hq : badQuantile q = false) (hn : 0 < u.values.length) :
    (truncInt (u.position R q) < 1 ∧ u.getValue R q = .ok (F64.ofInt R u.values[0])) ∨
    (1 ≤ truncInt (u.position R q) ∧ (u.values.length : Int) ≤ truncInt (u.position R q) ∧
      u.getValue R q = .ok (F64.ofInt R (u.values[u.values.length - 1]'(by omega)))) ∨
    ∃ (i : Nat) (hi : i + 1 < u.values.length) (p : ℚ), u.position R q = .fin p ∧ truncInt (u.position R q) = (i : Int) + 1 ∧ ⌊p⌋ = (i : Int) + 1 ∧
      u.getValue R q = .ok (F64.add R (F64.ofInt R u.values[i])
        (F64.mul R (R.rnd (p - ((i : Int) + 1 : Int))) (F64.ofInt R (i64 (u.values[i + 1] - u.values[i]))))) := by
  have hs : u.size = (u.values.length : Int) := rfl
  have e0 : ¬ u.size = 0 := by rw [hs]; omega
  unfold getValue
  rw [hq]
  simp only [Bool.false_eq_true, if_false, e0]
  by_cases h1 : truncInt (u.position R q) < 1
  · left
    refine ⟨h1, ?_⟩
    obtain ⟨h, e⟩ := index_some (s := u.values) (i := 0) (by omega) (by omega)
    rw [if_pos h1, e]; rfl
  · right
    rw [if_neg h1]
    by_cases h2 : truncInt (u.position R q) ≥ u.size
    · left
      refine ⟨by omega, by omega, ?_⟩
      obtain ⟨h, e⟩ := index_some (s := u.values) (i := u.size - 1) (by omega) (by omega)
      rw [if_pos h2, e]
      have : (u.size - 1).toNat = u.values.length - 1 := by omega
      simp only [this]
    · right
      rw [if_neg h2]
      obtain ⟨p, hp, hf, hp1⟩ := trunc_floor (by omega : 1 ≤ truncInt (u.position R q))
      obtain ⟨i, hi⟩ : ∃ i : Nat, truncInt (u.position R q) = (i : Int) + 1 := ⟨(truncInt (u.position R q) - 1).toNat, by omega⟩
      rw [hi] at h1 h2 ⊢
      rw [hi] at hf
      refine ⟨i, by omega, p, hp, rfl, hf.symm, ?_⟩
      obtain ⟨a1, a2⟩ := index_some (s := u.values) (i := (i : Int) + 1 - 1) (by omega) (by omega)
      obtain ⟨b1, b2⟩ := index_some (s := u.values) (i := (i : Int) + 1) (by omega) (by omega)
      rw [a2, b2, hp]
      have ea : ((i : Int) + 1 - 1).toNat = i := by omega
      have eb : ((i : Int) + 1).toNat = i + 1 := by omega
      simp only [ea, eb]
      congr 3
      simp only [F64.floor, F64.sub, F64.neg, F64.add, ← hf]
      congr 1
      push_cast; ring

/-- What interpolation needs of the rounding: 1, the values and their differences are represented exactly, and the differences do not wrap. -/
structure Fits (R : Rounding) (vs : List Int) : Prop where
  one : R.Rep 1
  val : ∀ v ∈ vs, R.Rep v
  diff : ∀ a ∈ vs, ∀ b ∈ vs, a ≤ b → R.Rep ((b - a : Int) : ℚ)
  nowrap : ∀ a ∈ vs, ∀ b ∈ vs, a ≤ b → InI64 (b - a)

theorem fits_of_small {R : Rounding} (hR : R.Ints) {vs : List Int} (h : ∀ v ∈ vs, |v| < 2 ^ 52) : Fits R vs := by
  refine ⟨by have := hR 1 (by norm_num); simpa using this, fun v hv => hR v ?_, fun a ha b hb hab => hR _ ?_, fun a ha b hb hab => ?_⟩
  · have := h v hv; rw [abs_lt] at this ⊢; constructor <;> omega
  · have h1 := h a ha; have h2 := h b hb
    rw [abs_lt] at h1 h2 ⊢; constructor <;> omega
  · have h1 := h a ha; have h2 := h b hb
    rw [abs_lt] at h1 h2; unfold InI64; constructor <;> omega

theorem fits_exact {vs : List Int} (h : ∀ a ∈ vs, ∀ b ∈ vs, b - a < 2 ^ 63) : Fits exact vs := by
  refine ⟨rfl, fun _ _ => rfl, fun _ _ _ _ _ => rfl, fun a ha b hb hab => ?_⟩
  have := h a ha b hb
  unfold InI64; constructor <;> omega

/-- The interpolated value is between the two neighbours, ... -/
theorem interp_between {R : Rounding} (hR : R.Lawful) {p : ℚ} {i : Int} (hf : ⌊p⌋ = i) (h1 : R.Rep 1) {a b : Int} (hab : a ≤ b)
    (ha : R.Rep a) (hb : R.Rep b) (hd : R.Rep ((b - a : Int) : ℚ)) (hw : InI64 (b - a)) :
    ∃ r : ℚ, F64.add R (F64.ofInt R a) (F64.mul R (R.rnd (p - (i : Int))) (F64.ofInt R (i64 (b - a)))) = .fin r ∧ (a : ℚ) ≤ r ∧ r ≤ b := by
  have f0 : (0 : ℚ) ≤ p - i := by rw [← hf]; linarith [Int.floor_le p]
  have f1 : p - i ≤ 1 := by rw [← hf]; linarith [Int.lt_floor_add_one p]
  obtain ⟨f, ef, hf0, hf1⟩ := hR.between hR.rep_zero h1 f0 f1
  have hdpos : (0 : ℚ) ≤ ((b - a : Int) : ℚ) := by exact_mod_cast (by omega : (0 : Int) ≤ b - a)
  rw [i64_of_in hw]
  unfold F64.ofInt
  rw [ef, ha, hd]
  simp only [F64.mul]
  obtain ⟨m, em, hm0, hm1⟩ := hR.between (q := f * ((b - a : Int) : ℚ)) hR.rep_zero hd (mul_nonneg hf0 hdpos)
    (by nlinarith)
  rw [em]
  simp only [F64.add]
  have hc : ((b - a : Int) : ℚ) = b - a := by push_cast; ring
  obtain ⟨r, er, hr0, hr1⟩ := hR.between (q := a + m) ha hb (by linarith) (by rw [hc] at hm1; linarith)
  exact ⟨r, er, hr0, hr1.1⟩

/-- ... and grows with the position. -/
theorem interp_mono {R : Rounding} (hR : R.Lawful) {p p' : ℚ} {i : Int} (hf : ⌊p⌋ = i) (hf' : ⌊p'⌋ = i) (hpp : p ≤ p') (h1 : R.Rep 1)
    {a b : Int} (hab : a ≤ b) (ha : R.Rep a) (hd : R.Rep ((b - a : Int) : ℚ)) (hw : InI64 (b - a)) {r r' : ℚ}
    (hr : F64.add R (F64.ofInt R a) (F64.mul R (R.rnd (p - (i : Int))) (F64.ofInt R (i64 (b - a)))) = .fin r)
    (hr' : F64.add R (F64.ofInt R a) (F64.mul R (R.rnd (p' - (i : Int))) (F64.ofInt R (i64 (b - a)))) = .fin r') : r ≤ r' := by
  have f0 : (0 : ℚ) ≤ p - i := by rw [← hf]; linarith [Int.floor_le p]
  have f1 : p - i ≤ 1 := by rw [← hf]; linarith [Int.lt_floor_add_one p]
  have f0' : (0 : ℚ) ≤ p' - i := by linarith
  have f1' : p' - i ≤ 1 := by rw [← hf']; linarith [Int.lt_floor_add_one p']
  obtain ⟨f, ef, hf0, hf1⟩ := hR.between hR.rep_zero h1 f0 f1
  obtain ⟨f', ef', hf0', hf1'⟩ := hR.between hR.rep_zero h1 f0' f1'
  have hff : f ≤ f' := by
    have := hR.mono (p - i) (p' - i) (by linarith)
    rw [ef, ef'] at this; exact this
  have hdpos : (0 : ℚ) ≤ ((b - a : Int) : ℚ) := by exact_mod_cast (by omega : (0 : Int) ≤ b - a)
  rw [i64_of_in hw] at hr hr'
  unfold F64.ofInt at hr hr'
  rw [ef, ha, hd] at hr
  rw [ef', ha, hd] at hr'
  simp only [F64.mul] at hr hr'
  obtain ⟨m, em, hm0, hm1⟩ := hR.between (q := f * ((b - a : Int) : ℚ)) hR.rep_zero hd (mul_nonneg hf0 hdpos) (by nlinarith)
  obtain ⟨m', em', hm0', hm1'⟩ := hR.between (q := f' * ((b - a : Int) : ℚ)) hR.rep_zero hd (mul_nonneg hf0' hdpos) (by nlinarith)
  have hmm : m ≤ m' := by
    have := hR.mono (f * ((b - a : Int) : ℚ)) (f' * ((b - a : Int) : ℚ)) (by nlinarith)
    rw [em, em'] at this; exact this
  rw [em] at hr
  rw [em'] at hr'
  simp only [F64.add] at hr hr'
  have := hR.mono (a + m) (a + m') (by linarith)
  rw [hr, hr'] at this; exact this

end UniformSnapshot
end GoMetrics
