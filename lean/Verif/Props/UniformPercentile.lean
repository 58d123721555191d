import Verif.Props.Accuracy
/-! # C94, uniform snapshots: the error of percentiles in binary64 -/
namespace GoMetrics
open Rounding

namespace Interp

def clamp (x : ℚ) : ℚ := max 0 (min 1 x)

theorem clamp_lip (x y : ℚ) : |clamp x - clamp y| ≤ |x - y| := by
  unfold clamp
  rw [abs_le]
  have h1 := le_abs_self (x - y)
  have h2 := neg_abs_le (x - y)
  have h3 := abs_nonneg (x - y)
  constructor
  all_goals
    rcases max_cases 0 (min 1 x) with ⟨e1, f1⟩ | ⟨e1, f1⟩ <;> rcases max_cases 0 (min 1 y) with ⟨e2, f2⟩ | ⟨e2, f2⟩ <;>
      rcases min_cases 1 x with ⟨e3, f3⟩ | ⟨e3, f3⟩ <;> rcases min_cases 1 y with ⟨e4, f4⟩ | ⟨e4, f4⟩ <;>
      linarith

/-- Interpolation, as a sum of ramps. -/
def ramps : List Int → ℚ → ℚ
  | [], _ => 0
  | [a], _ => a
  | a :: b :: t, p => ramps (b :: t) (p - 1) + ((a : ℚ) - b) * (1 - clamp (p - 1))

theorem ramps_lip : ∀ (l : List Int) (a : Int), (a :: l).Pairwise (· ≤ ·) → ∀ p p' : ℚ,
    |ramps (a :: l) p - ramps (a :: l) p'| ≤ (((a :: l).getLastD 0 : Int) - (a : ℚ)) * |p - p'|
  | [], a, _, p, p' => by simp [ramps]
  | b :: t, a, h, p, p' => by
    have ih := ramps_lip t b (List.pairwise_cons.1 h).2 (p - 1) (p' - 1)
    have hab : (a : ℚ) ≤ b := by exact_mod_cast (List.pairwise_cons.1 h).1 b (by simp)
    have e : (a :: b :: t).getLastD 0 = (b :: t).getLastD 0 := by simp [List.getLastD_cons]
    rw [e]
    have e2 : ramps (a :: b :: t) p - ramps (a :: b :: t) p' = (ramps (b :: t) (p - 1) - ramps (b :: t) (p' - 1)) + ((b : ℚ) - a) * (clamp (p - 1) - clamp (p' - 1)) := by
      simp only [ramps]; ring
    rw [e2]
    refine (abs_add_le _ _).trans ?_
    have hc := clamp_lip (p - 1) (p' - 1)
    rw [show p - 1 - (p' - 1) = p - p' by ring] at hc ih
    have h1 : |((b : ℚ) - a) * (clamp (p - 1) - clamp (p' - 1))| ≤ ((b : ℚ) - a) * |p - p'| := by
      rw [abs_mul, abs_of_nonneg (by linarith : (0 : ℚ) ≤ b - a)]
      exact mul_le_mul_of_nonneg_left hc (by linarith)
    linarith

theorem interpolated_eq : ∀ (l : List Int) (a : Int) (p : ℚ), Spec.interpolated (a :: l) p = ramps (a :: l) p
  | [], a, p => by
    unfold Spec.interpolated ramps
    by_cases h : p < 1
    · rw [if_pos h]; rfl
    · rw [if_neg h, if_pos (by simpa using h)]; rfl
  | b :: t, a, p => by
    have ih := interpolated_eq t b (p - 1)
    have hr : ramps (a :: b :: t) p = ramps (b :: t) (p - 1) + ((a : ℚ) - b) * (1 - clamp (p - 1)) := rfl
    rw [hr, ← ih]
    by_cases h1 : p < 1
    · have : clamp (p - 1) = 0 := by
        unfold clamp; rw [min_eq_right (by linarith), max_eq_left (by linarith)]
      rw [this]
      unfold Spec.interpolated
      rw [if_pos h1, if_pos (by linarith)]
      simp
    by_cases h2 : p < 2
    · have : clamp (p - 1) = p - 1 := by
        unfold clamp; rw [min_eq_right (by linarith), max_eq_right (by linarith)]
      rw [this]
      unfold Spec.interpolated
      have hfl : ⌊p⌋ = 1 := by rw [Int.floor_eq_iff]; constructor <;> norm_num <;> linarith
      have hlen : ¬ (((a :: b :: t).length : ℕ) : ℚ) ≤ p := by
        have : (0 : ℚ) ≤ (t.length : ℚ) := by positivity
        simp only [List.length_cons]; push_cast; linarith
      rw [if_neg h1, if_neg hlen, if_pos (by linarith), hfl]
      simp
      ring
    · have : clamp (p - 1) = 1 := by
        unfold clamp; rw [min_eq_left (by linarith), max_eq_right (by norm_num)]
      rw [this]
      unfold Spec.interpolated
      have hf : ⌊p - 1⌋ = ⌊p⌋ - 1 := by rw [Int.floor_sub_one]
      have h2f : 2 ≤ ⌊p⌋ := by rw [Int.le_floor]; push_cast; linarith
      obtain ⟨k, hk⟩ : ∃ k : ℕ, ⌊p⌋ = k + 2 := ⟨(⌊p⌋ - 2).toNat, by omega⟩
      rw [if_neg h1, if_neg (by linarith : ¬ p - 1 < 1), hf, hk]
      by_cases h3 : (((b :: t).length : ℕ) : ℚ) ≤ p - 1
      · rw [if_pos h3, if_pos (by rw [List.length_cons]; push_cast; linarith)]
        simp
      · rw [if_neg h3, if_neg (by rw [List.length_cons]; push_cast; intro h; exact h3 (by linarith))]
        have e1 : ((k : Int) + 2).toNat = k + 2 := by omega
        have e2 : ((k : Int) + 2 - 1).toNat = k + 1 := by omega
        rw [e1, e2]
        simp

theorem lip {l : List Int} (hne : l ≠ []) (hs : l.Pairwise (· ≤ ·)) {M : ℚ} (hM : ∀ v ∈ l, |(v : ℚ)| ≤ M) (p p' : ℚ) :
    |Spec.interpolated l p - Spec.interpolated l p'| ≤ 2 * M * |p - p'| := by
  cases l with
  | nil => exact absurd rfl hne
  | cons a t =>
    rw [interpolated_eq, interpolated_eq]
    refine (ramps_lip t a hs p p').trans (mul_le_mul_of_nonneg_right ?_ (abs_nonneg _))
    have h1 := hM a (by simp)
    have h2 := hM ((a :: t).getLastD 0) (by rw [List.getLastD_cons]; cases t with
      | nil => simp
      | cons b t => rw [List.getLastD_cons, List.getLastD_eq_getLast?]; exact List.mem_cons_of_mem _ (by
                      cases t with
                      | nil => simp
                      | cons c t => rw [List.getLast?_eq_some_getLast (by simp)]; exact List.mem_cons_of_mem _ (List.getLast_mem _)))
    have := abs_le.1 h1
    have := abs_le.1 h2
    linarith

end Interp

namespace UniformSnapshot

/-- The rounded interpolation step. -/
theorem step_err {M : ℚ} (hM : 1 ≤ M) (hM' : M ≤ 2 ^ 63) {a b : Int} (ha : |(a : ℚ)| ≤ M) (hb : |(b : ℚ)| ≤ M) (hab : a ≤ b) {f : ℚ} (f0 : 0 ≤ f) (f1 : f ≤ 1) :
    ∃ r, F64.add binary64 (F64.ofInt binary64 a) (F64.mul binary64 (binary64.rnd f) (F64.ofInt binary64 (b - a))) = .fin r ∧
      |r - (a + f * (b - a))| ≤ 11 * (hulp * M) := by
  have hu0 := hulp_pos
  have hus := hulp_small
  have huM : hulp * M ≤ M / 1000000 := by
    rw [div_eq_inv_mul]
    exact mul_le_mul_of_nonneg_right (hus.trans (by norm_num)) (by linarith)
  have huM0 : 0 ≤ hulp * M := by positivity
  have hd0 : (0 : ℚ) ≤ (b : ℚ) - a := by have : (a : ℚ) ≤ b := by exact_mod_cast hab
                                         linarith
  have hd1 : (b : ℚ) - a ≤ 2 * M := by have := abs_le.1 ha; have := abs_le.1 hb; linarith
  obtain ⟨da, hda, ea⟩ := ofInt_rel (n := a) (by
    have : |(a : ℚ)| ≤ 2 ^ 64 := ha.trans (hM'.trans (by norm_num))
    exact_mod_cast this)
  obtain ⟨dd, hdd, ed⟩ := ofInt_rel (n := b - a) (by
    have : |((b - a : Int) : ℚ)| ≤ 2 ^ 64 := by
      push_cast
      rw [abs_of_nonneg hd0]
      linarith [show (2 : ℚ) * 2 ^ 63 = 2 ^ 64 by norm_num]
    exact_mod_cast this)
  obtain ⟨f', ef, hf⟩ := rnd_err' (q := f) (B := 1) (by rw [abs_of_nonneg f0]; exact f1) (by norm_num) (by norm_num)
  have hf' : |f' - f| ≤ hulp := by have : |f' - f| ≤ hulp * 1 := hf
                                   linarith
  push_cast at ed
  have h1 : |(a : ℚ) * (1 + da) - a| ≤ hulp * M := by
    have e : (a : ℚ) * (1 + da) - a = da * a := by ring
    rw [e, abs_mul]
    exact mul_le_mul hda ha (abs_nonneg _) hu0.le
  have h2 : |((b : ℚ) - a) * (1 + dd) - (b - a)| ≤ hulp * (2 * M) := by
    have e : ((b : ℚ) - a) * (1 + dd) - (b - a) = dd * (b - a) := by ring
    rw [e, abs_mul]
    exact mul_le_mul hdd (by rw [abs_of_nonneg hd0]; exact hd1) (abs_nonneg _) hu0.le
  have h3 : |f' * (((b : ℚ) - a) * (1 + dd)) - f * (b - a)| ≤ 4.1 * (hulp * M) := by
    have e : f' * (((b : ℚ) - a) * (1 + dd)) - f * (b - a) = (f' - f) * (((b : ℚ) - a) * (1 + dd)) + f * (((b : ℚ) - a) * (1 + dd) - (b - a)) := by ring
    rw [e]
    refine (abs_add_le _ _).trans ?_
    have hbig : |((b : ℚ) - a) * (1 + dd)| ≤ 2.05 * M := by
      have e : ((b : ℚ) - a) * (1 + dd) = (((b : ℚ) - a) * (1 + dd) - (b - a)) + (b - a) := by ring
      rw [e]
      refine (abs_add_le _ _).trans ?_
      rw [abs_of_nonneg hd0]
      linarith
    have k1 : |(f' - f) * (((b : ℚ) - a) * (1 + dd))| ≤ hulp * (2.05 * M) := by
      rw [abs_mul]; exact mul_le_mul hf' hbig (abs_nonneg _) hu0.le
    have k2 : |f * (((b : ℚ) - a) * (1 + dd) - (b - a))| ≤ 1 * (hulp * (2 * M)) := by
      rw [abs_mul]; exact mul_le_mul (by rw [abs_of_nonneg f0]; exact f1) h2 (abs_nonneg _) (by norm_num)
    linarith
  have hfd : |f * ((b : ℚ) - a)| ≤ 2 * M := by
    rw [abs_of_nonneg (mul_nonneg f0 hd0)]
    calc f * ((b : ℚ) - a) ≤ 1 * (b - a) := mul_le_mul_of_nonneg_right f1 hd0
      _ ≤ 2 * M := by linarith
  have h4 : |f' * (((b : ℚ) - a) * (1 + dd))| ≤ 2.01 * M := by
    have e : f' * (((b : ℚ) - a) * (1 + dd)) = (f' * (((b : ℚ) - a) * (1 + dd)) - f * (b - a)) + f * (b - a) := by ring
    rw [e]
    refine (abs_add_le _ _).trans ?_
    linarith
  obtain ⟨m, em, hm⟩ := rnd_err' h4 (le_trans (by norm_num) (by linarith : (1 : ℚ) ≤ 2.01 * M)) (by
    calc 2.01 * M ≤ 3 * 2 ^ 63 := by linarith
      _ ≤ 2 ^ (200 : Int) := by norm_num)
  have hm' : |m - f' * (((b : ℚ) - a) * (1 + dd))| ≤ hulp * (2.01 * M) := hm
  have h5 : |(a * (1 + da) + m) - (a + f * (b - a))| ≤ 7.2 * (hulp * M) := by
    have e : ((a : ℚ) * (1 + da) + m) - (a + f * (b - a)) =
        (a * (1 + da) - a) + ((m - f' * (((b : ℚ) - a) * (1 + dd))) + (f' * (((b : ℚ) - a) * (1 + dd)) - f * (b - a))) := by ring
    rw [e]
    refine (abs_add_le _ _).trans ?_
    have := abs_add_le (m - f' * (((b : ℚ) - a) * (1 + dd))) (f' * (((b : ℚ) - a) * (1 + dd)) - f * (b - a))
    linarith
  have h6 : |(a : ℚ) * (1 + da) + m| ≤ 3.1 * M := by
    have e : (a : ℚ) * (1 + da) + m = ((a * (1 + da) + m) - (a + f * (b - a))) + (a + f * (b - a)) := by ring
    rw [e]
    refine (abs_add_le _ _).trans ?_
    have := abs_add_le (a : ℚ) (f * (b - a))
    linarith
  obtain ⟨r, er, hr⟩ := rnd_err' h6 (le_trans (by norm_num) (by linarith : (1 : ℚ) ≤ 3.1 * M)) (by
    calc 3.1 * M ≤ 4 * 2 ^ 63 := by linarith
      _ ≤ 2 ^ (200 : Int) := by norm_num)
  have hr' : |r - ((a : ℚ) * (1 + da) + m)| ≤ hulp * (3.1 * M) := hr
  refine ⟨r, ?_, ?_⟩
  · rw [ea, ed, ef]
    simp only [F64.mul, F64.add]
    rw [em]
    exact er
  · have e : r - (a + f * (b - a)) = (r - (a * (1 + da) + m)) + (((a : ℚ) * (1 + da) + m) - (a + f * (b - a))) := by ring
    rw [e]
    refine (abs_add_le _ _).trans ?_
    linarith

theorem ofInt_err {M : ℚ} (hM' : M ≤ 2 ^ 63) {a : Int} (ha : |(a : ℚ)| ≤ M) : ∃ r, F64.ofInt binary64 a = .fin r ∧ |r - a| ≤ hulp * M := by
  obtain ⟨da, hda, ea⟩ := ofInt_rel (n := a) (by
    have : |(a : ℚ)| ≤ 2 ^ 64 := ha.trans (hM'.trans (by norm_num))
    exact_mod_cast this)
  refine ⟨_, ea, ?_⟩
  have e : (a : ℚ) * (1 + da) - a = da * a := by ring
  rw [e, abs_mul]
  exact mul_le_mul hda ha (abs_nonneg _) hulp_pos.le

theorem trunc_small {p : ℚ} (h0 : 0 ≤ p) (h : p < 2 ^ 62) : truncInt (.fin p) = ⌊p⌋ := by
  have h1 : 0 ≤ ⌊p⌋ := Int.floor_nonneg.2 h0
  have h2 : ⌊p⌋ < 4611686018427387904 := by rw [Int.floor_lt]; push_cast; linarith
  unfold truncInt toInt64
  simp only [if_pos h0]
  rw [if_pos (by omega)]; rfl

end UniformSnapshot
open UniformSnapshot

/-- **C94.** A percentile of a uniform snapshot in binary64, for any fraction `c` (rounded to a `float64`): the interpolated value at position `c (n + 1)` of the sorted
values, up to `(n + 4) 2⁻⁵¹` of the largest magnitude. -/
theorem C94_uniform (vs sorted : List Int) (hs : sorted.Pairwise (· ≤ ·)) (hp : sorted.Perm vs) (hne : vs ≠ []) (hn : vs.length + 1 < 2 ^ 53) (M : Int) (hM : 1 ≤ M)
    (hM' : M ≤ 2 ^ 63) (hv : ∀ v ∈ vs, |v| ≤ M) (hd : ∀ a ∈ vs, ∀ b ∈ vs, b - a < 2 ^ 63) (c : ℚ) (h0 : 0 ≤ c) (h1 : c ≤ 1) :
    ∃ r : ℚ, (new vs).getValue binary64 (binary64.rnd c) = .ok (.fin r) ∧
      |r - Spec.interpolated sorted (c * (vs.length + 1))| ≤ (vs.length + 4) * 2 ^ (-51 : Int) * M := by
  have hval : (new vs).values = sorted := by
    refine List.Perm.eq_of_pairwise (le := (· ≤ ·)) (fun a b _ _ h h' => le_antisymm h h') (sorted_new vs) hs ((perm_new vs).trans hp.symm)
  have hl : sorted.length = vs.length := hp.length_eq
  have hsne : sorted ≠ [] := by rintro rfl; exact hne (by simpa using hp.symm)
  have hu0 := hulp_pos
  have hus := hulp_small
  have hMq : (1 : ℚ) ≤ M := by exact_mod_cast hM
  have hMq' : (M : ℚ) ≤ 2 ^ 63 := by exact_mod_cast hM'
  have hv' : ∀ v ∈ sorted, |(v : ℚ)| ≤ M := fun v h => by exact_mod_cast hv v (hp.mem_iff.1 h)
  have hn0 : (0 : ℚ) ≤ vs.length := by positivity
  have hnq : (vs.length : ℚ) + 1 < 2 ^ 53 := by exact_mod_cast hn
  have hone : binary64.rnd 1 = .fin 1 := by have := binary64_int (n := 1) (by norm_num); exact_mod_cast this
  obtain ⟨q, e1, e2⟩ := rnd_err' (q := c) (B := 1) (by rw [abs_of_nonneg h0]; exact h1) (by norm_num) (by norm_num)
  have e2' : |q - c| ≤ hulp := by have : |q - c| ≤ hulp * 1 := e2
                                  linarith
  have hq0 : 0 ≤ q := by
    have := binary64_lawful.mono 0 c h0
    rw [binary64_lawful.zero, e1] at this; exact this
  have hq1 : q ≤ 1 := by
    have := binary64_lawful.mono c 1 h1
    rw [hone, e1] at this; exact this
  have hprod0 : 0 ≤ q * ((vs.length : ℚ) + 1) := by positivity
  obtain ⟨p', e3, e4⟩ := rnd_err' (q := q * ((vs.length : ℚ) + 1)) (B := vs.length + 1) (by
      rw [abs_of_nonneg hprod0]; nlinarith) (le_trans (by norm_num) (by linarith : (1 : ℚ) ≤ vs.length + 1)) (hnq.le.trans (by norm_num))
  have e4' : |p' - q * ((vs.length : ℚ) + 1)| ≤ hulp * (vs.length + 1) := e4
  have hp0 : 0 ≤ p' := by
    have := binary64_lawful.mono 0 _ hprod0
    rw [binary64_lawful.zero, e3] at this; exact this
  have hlen1 : binary64.rnd (((vs.length : Int) + 1 : Int) : ℚ) = .fin (((vs.length : Int) + 1 : Int) : ℚ) := binary64_int (by
    rw [abs_of_nonneg (by omega)]; exact_mod_cast hn)
  have hpos : (new vs).position binary64 (binary64.rnd c) = .fin p' := by
    unfold position size
    rw [length_new, e1]
    unfold F64.ofInt
    rw [hlen1]
    simp only [F64.mul]
    push_cast
    exact e3
  have hpp : |p' - c * ((vs.length : ℚ) + 1)| ≤ 2 * hulp * (vs.length + 1) := by
    have e : p' - c * ((vs.length : ℚ) + 1) = (p' - q * (vs.length + 1)) + (q - c) * (vs.length + 1) := by ring
    rw [e]
    refine (abs_add_le _ _).trans ?_
    rw [abs_mul, abs_of_nonneg (by linarith : (0 : ℚ) ≤ vs.length + 1)]
    have := mul_le_mul_of_nonneg_right e2' (by linarith : (0 : ℚ) ≤ (vs.length : ℚ) + 1)
    linarith
  have hpbig : p' < 2 ^ 62 := by
    have h5 := (abs_le.1 e4').2
    have h6 : q * ((vs.length : ℚ) + 1) ≤ 1 * (vs.length + 1) := mul_le_mul_of_nonneg_right hq1 (by linarith)
    have h7 : hulp * ((vs.length : ℚ) + 1) ≤ 1 * (vs.length + 1) := mul_le_mul_of_nonneg_right (hus.trans (by norm_num)) (by linarith)
    have : (2 : ℚ) * 2 ^ 53 < 2 ^ 62 := by norm_num
    linarith
  have hlip := Interp.lip hsne hs hv' p' (c * (vs.length + 1))
  have hgood : badQuantile (binary64.rnd c) = false := by rw [e1]; exact (bad_fin q).2 ⟨hq0, hq1⟩
  have hnpos : 0 < (new vs).values.length := by rw [hval]; exact List.length_pos_iff.2 hsne
  have htr : truncInt ((new vs).position binary64 (binary64.rnd c)) = ⌊p'⌋ := by rw [hpos]; exact trunc_small hp0 hpbig
  have key : ∃ r, (new vs).getValue binary64 (binary64.rnd c) = .ok (.fin r) ∧ |r - Spec.interpolated sorted p'| ≤ 11 * (hulp * M) := by
    have huM0 : 0 ≤ hulp * (M : ℚ) := by positivity
    rcases getValue_cases binary64 (new vs) hgood hnpos with ⟨h, e⟩ | ⟨h, h', e⟩ | ⟨i, hi, p, hpp', h, hf, e⟩
    · rw [htr] at h
      have hlt : p' < 1 := by
        have := Int.lt_floor_add_one p'
        have h2 : (⌊p'⌋ : ℚ) + 1 ≤ 1 := by exact_mod_cast (by omega : ⌊p'⌋ + 1 ≤ 1)
        linarith
      obtain ⟨r, er, hr⟩ := ofInt_err hMq' (hv' (new vs).values[0] (by rw [← hval]; exact List.getElem_mem _))
      refine ⟨r, by rw [e, er], ?_⟩
      unfold Spec.interpolated
      rw [if_pos hlt]
      have : (new vs).values[0] = sorted.headD 0 := by
        simp only [hval]
        cases sorted with
        | nil => exact absurd rfl hsne
        | cons => rfl
      rw [this] at hr
      linarith
    · rw [htr] at h h'
      have hge : ¬ p' < 1 := by
        have := Int.floor_le p'
        have h2 : (1 : ℚ) ≤ ⌊p'⌋ := by exact_mod_cast h
        intro h3; linarith
      have hge' : (sorted.length : ℚ) ≤ p' := by
        have := Int.floor_le p'
        have h2 : ((sorted.length : Int) : ℚ) ≤ ⌊p'⌋ := by
          rw [hval] at h'
          exact_mod_cast h'
        push_cast at h2
        linarith
      obtain ⟨r, er, hr⟩ := ofInt_err hMq' (hv' ((new vs).values[(new vs).values.length - 1]) (by rw [← hval]; exact List.getElem_mem _))
      refine ⟨r, by rw [e, er], ?_⟩
      unfold Spec.interpolated
      rw [if_neg hge, if_pos hge']
      have : (new vs).values[(new vs).values.length - 1] = sorted.getLastD 0 := by
        simp only [hval]
        rw [List.getLastD_eq_getLast?, List.getLast?_eq_some_getLast hsne, List.getLast_eq_getElem]
        rfl
      rw [this] at hr
      linarith
    · rw [hpos, F64.fin.injEq] at hpp'
      subst hpp'
      have e5 : (new vs).values[i] = sorted[i]'(by rw [← hval]; omega) := by simp only [hval]
      have e6 : (new vs).values[i + 1] = sorted[i + 1]'(by rw [← hval]; omega) := by simp only [hval]
      rw [e5, e6] at e
      have hi' : i + 1 < sorted.length := by rw [← hval]; exact hi
      have m1 : sorted[i] ∈ sorted := List.getElem_mem _
      have m2 : sorted[i + 1] ∈ sorted := List.getElem_mem _
      have hab : sorted[i] ≤ sorted[i + 1] := sorted_get hs (by omega) hi' (by omega)
      have hw := hd _ (hp.mem_iff.1 m1) _ (hp.mem_iff.1 m2)
      rw [i64_of_in (by unfold InI64; constructor <;> omega)] at e
      have hfl := Int.floor_le p'
      have hfl' := Int.lt_floor_add_one p'
      rw [hf] at hfl hfl'
      obtain ⟨r, er, hr⟩ := step_err hMq hMq' (hv' _ m1) (hv' _ m2) hab (f := p' - ((i : Int) + 1 : Int)) (by linarith) (by linarith)
      refine ⟨r, by rw [e, er], ?_⟩
      unfold Spec.interpolated
      push_cast at hfl hfl' hr
      have hi0 : (0 : ℚ) ≤ i := by positivity
      have hle : (i : ℚ) + 1 + 1 ≤ sorted.length := by exact_mod_cast hi'
      rw [if_neg (by linarith), if_neg (by intro h; linarith), hf]
      have t1 : ((i : Int) + 1).toNat = i + 1 := by omega
      rw [t1]
      have t2 : ∀ (j : Nat) (h : j < sorted.length), sorted.getD j 0 = sorted[j] := fun j h => by rw [List.getD_eq_getElem?_getD, List.getElem?_eq_getElem h]; rfl
      rw [t2 _ (show i + 1 - 1 < sorted.length by omega), t2 _ hi']
      push_cast
      exact hr
  obtain ⟨r, er, hr⟩ := key
  refine ⟨r, er, ?_⟩
  have e : r - Spec.interpolated sorted (c * (vs.length + 1)) =
      (r - Spec.interpolated sorted p') + (Spec.interpolated sorted p' - Spec.interpolated sorted (c * (vs.length + 1))) := by ring
  rw [e]
  refine (abs_add_le _ _).trans ?_
  have h8 : 2 * (M : ℚ) * |p' - c * ((vs.length : ℚ) + 1)| ≤ 2 * M * (2 * hulp * (vs.length + 1)) := mul_le_mul_of_nonneg_left hpp (by linarith)
  rw [show (2 : ℚ) ^ (-51 : Int) = 4 * hulp by unfold hulp; norm_num]
  have huM0 : 0 ≤ hulp * (M : ℚ) := by positivity
  calc |r - Spec.interpolated sorted p'| + |Spec.interpolated sorted p' - Spec.interpolated sorted (c * (vs.length + 1))|
      ≤ 11 * (hulp * M) + 2 * M * (2 * hulp * (vs.length + 1)) := add_le_add hr (hlip.trans h8)
    _ ≤ (vs.length + 4) * (4 * hulp) * M := by linarith [show (vs.length + 4) * (4 * hulp) * (M : ℚ) = 2 * M * (2 * hulp * (vs.length + 1)) + 12 * (hulp * M) by ring]

/-- **C94.** The named percentiles of a uniform snapshot are the ones their names say. -/
theorem C94_uniform_named (vs sorted : List Int) (hs : sorted.Pairwise (· ≤ ·)) (hp : sorted.Perm vs) (hne : vs ≠ []) (hn : vs.length + 1 < 2 ^ 53) (M : Int) (hM : 1 ≤ M)
    (hM' : M ≤ 2 ^ 63) (hv : ∀ v ∈ vs, |v| ≤ M) (hd : ∀ a ∈ vs, ∀ b ∈ vs, b - a < 2 ^ 63) :
    let near (g : Ret F64) (c : ℚ) : Prop := ∃ r : ℚ, g = .ok (.fin r) ∧
      |r - Spec.interpolated sorted (c * (vs.length + 1))| ≤ (vs.length + 4) * 2 ^ (-51 : Int) * M
    near ((new vs).getMedian binary64) 0.5 ∧ near ((new vs).get75thPercentile binary64) 0.75 ∧ near ((new vs).get95thPercentile binary64) 0.95 ∧
      near ((new vs).get98thPercentile binary64) 0.98 ∧ near ((new vs).get99thPercentile binary64) 0.99 ∧ near ((new vs).get999thPercentile binary64) 0.999 := by
  have h := C94_uniform vs sorted hs hp hne hn M hM hM' hv hd
  have e (c d : ℚ) (hc : c = d) (h0 : 0 ≤ d) (h1 : d ≤ 1) : ∃ r : ℚ, (new vs).getValue binary64 (binary64.rnd d) = .ok (.fin r) ∧
      |r - Spec.interpolated sorted (c * (vs.length + 1))| ≤ (vs.length + 4) * 2 ^ (-51 : Int) * M := by
    rw [hc]; exact h d h0 h1
  exact ⟨e _ _ (by norm_num) (by norm_num) (by norm_num), e _ _ (by norm_num) (by norm_num) (by norm_num), e _ _ (by norm_num) (by norm_num) (by norm_num),
    e _ _ (by norm_num) (by norm_num) (by norm_num), e _ _ (by norm_num) (by norm_num) (by norm_num), e _ _ (by norm_num) (by norm_num) (by norm_num)⟩

/-- Four durations; the median is the value at position 2.5, i.e. 3, within 8 · 2⁻⁵¹ · 8. -/
example : ∃ r : ℚ, (new [8, 1, 4, 2]).getMedian binary64 = .ok (.fin r) ∧ |r - 3| ≤ 8 * 2 ^ (-51 : Int) * 8 := by
  obtain ⟨⟨r, e, h⟩, _⟩ := C94_uniform_named [8, 1, 4, 2] [1, 2, 4, 8] (by decide) (by decide) (by decide) (by norm_num) 8 (by norm_num) (by norm_num) (by decide) (by decide)
  refine ⟨r, e, ?_⟩
  have e2 : Spec.interpolated [1, 2, 4, 8] (0.5 * (([8, 1, 4, 2] : List Int).length + 1)) = 3 := by
    have hf : ⌊(0.5 : ℚ) * ((4 : ℕ) + 1)⌋ = 2 := by rw [Int.floor_eq_iff]; norm_num
    unfold Spec.interpolated
    rw [show ([8, 1, 4, 2] : List Int).length = 4 from rfl, hf]
    simp
    norm_num
  rw [e2] at h
  norm_num at h ⊢
  exact h

end GoMetrics
