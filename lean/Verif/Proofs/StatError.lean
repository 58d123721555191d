import Verif.Proofs.FloatError
import Verif.Proofs.UniformSnapshot
/-! # Rounding errors of quotients and sums -/
namespace GoMetrics
open Rounding

/-- Half a unit in the last place of 1. -/
def hulp : ℚ := 2 ^ (-53 : Int)

theorem hulp_pos : 0 < hulp := by unfold hulp; positivity
theorem hulp_small : hulp ≤ 1 / 1000000000000000 := by norm_num [hulp]

/-- Relative form: a number of moderate size is rounded by a factor close to 1. -/
theorem rnd_rel {q : ℚ} (h1 : q = 0 ∨ 2 ^ (-200 : Int) ≤ |q|) (h2 : |q| ≤ 2 ^ (200 : Int)) :
    ∃ d, |d| ≤ hulp ∧ binary64.rnd q = .fin (q * (1 + d)) := by
  rcases h1 with rfl | h1
  · exact ⟨0, by rw [abs_zero]; exact hulp_pos.le, by rw [zero_mul]; exact binary64_lawful.zero⟩
  obtain ⟨r, e1, e2⟩ := rnd_err' (le_refl |q|) h1 h2
  have h0 : q ≠ 0 := by
    rintro rfl
    rw [abs_zero] at h1
    have : (0 : ℚ) < 2 ^ (-200 : Int) := by positivity
    linarith
  refine ⟨(r - q) / q, ?_, ?_⟩
  · rw [abs_div, div_le_iff₀ (abs_pos.2 h0)]
    exact e2
  · rw [e1]
    congr 1
    field_simp
    ring

/-- `float64(n)` of an `int64`. -/
theorem ofInt_rel {n : Int} (h : |n| ≤ 2 ^ 64) : ∃ d, |d| ≤ hulp ∧ F64.ofInt binary64 n = .fin (n * (1 + d)) := by
  refine rnd_rel ?_ ?_
  · by_cases h0 : n = 0
    · left; rw [h0]; norm_num
    · right
      have : (1 : Int) ≤ |n| := Int.one_le_abs h0
      have h1 : (1 : ℚ) ≤ |(n : ℚ)| := by exact_mod_cast this
      exact le_trans (by norm_num) h1
  · have : |(n : ℚ)| ≤ 2 ^ 64 := by exact_mod_cast h
    exact this.trans (by norm_num)

theorem near_one {d : ℚ} (h : |d| ≤ hulp) : 1 / 2 ≤ 1 + d ∧ 1 + d ≤ 2 := by
  have := abs_le.1 h
  have := hulp_small
  constructor <;> linarith

theorem quot_factor {a b c : ℚ} (ha : |a| ≤ hulp) (hb : |b| ≤ hulp) (hc : |c| ≤ hulp) : |(1 + a) / (1 + b) * (1 + c) - 1| ≤ 4 * hulp := by
  have hu := hulp_small
  have hu0 := hulp_pos
  generalize hulp = u at *
  rw [abs_le] at ha hb hc
  have hb0 : 0 < 1 + b := by linarith
  have e : (1 + a) / (1 + b) * (1 + c) - 1 = (a + c + a * c - b) / (1 + b) := by field_simp; ring
  rw [e, abs_le, le_div_iff₀ hb0, div_le_iff₀ hb0]
  have hac : |a * c| ≤ u * u := by
    rw [abs_mul]
    exact mul_le_mul (abs_le.2 ha) (abs_le.2 hc) (abs_nonneg _) hu0.le
  rw [abs_le] at hac
  constructor <;> nlinarith [hac.1, hac.2]

/-- The quotient of two `int64`s in binary64. -/
theorem div_rel {s c : Int} (hs : |s| ≤ 2 ^ 64) (hc : |c| ≤ 2 ^ 64) (h0 : c ≠ 0) :
    ∃ k, |k - 1| ≤ 4 * hulp ∧ F64.div binary64 (F64.ofInt binary64 s) (F64.ofInt binary64 c) = .fin ((s : ℚ) / c * k) := by
  obtain ⟨a, ha, ea⟩ := ofInt_rel hs
  obtain ⟨b, hb, eb⟩ := ofInt_rel hc
  have hna := near_one ha
  have hnb := near_one hb
  have hcq : (c : ℚ) ≠ 0 := by exact_mod_cast h0
  have hb0 : (c : ℚ) * (1 + b) ≠ 0 := mul_ne_zero hcq (by linarith)
  have hcl : (1 : ℚ) ≤ |(c : ℚ)| := by exact_mod_cast Int.one_le_abs h0
  have hcu : |(c : ℚ)| ≤ 2 ^ 64 := by exact_mod_cast hc
  have hsu : |(s : ℚ)| ≤ 2 ^ 64 := by exact_mod_cast hs
  have hden1 : 1 / 2 ≤ |(c : ℚ) * (1 + b)| := by
    rw [abs_mul, abs_of_pos (by linarith : 0 < 1 + b)]; nlinarith
  have hden2 : |(c : ℚ) * (1 + b)| ≤ 2 ^ 65 := by
    rw [abs_mul, abs_of_pos (by linarith : 0 < 1 + b)]
    calc |(c : ℚ)| * (1 + b) ≤ 2 ^ 64 * 2 := by gcongr <;> linarith
      _ = 2 ^ 65 := by norm_num
  obtain ⟨d, hd, ed⟩ := rnd_rel (q := (s : ℚ) * (1 + a) / (c * (1 + b))) (by
    by_cases h : s = 0
    · left; rw [h]; simp
    · right
      have h1 : (1 : ℚ) ≤ |(s : ℚ)| := by exact_mod_cast Int.one_le_abs h
      rw [abs_div, le_div_iff₀ (by linarith), abs_mul (s : ℚ), abs_of_pos (by linarith : 0 < 1 + a)]
      calc (2 : ℚ) ^ (-200 : Int) * |(c : ℚ) * (1 + b)| ≤ 2 ^ (-200 : Int) * 2 ^ 65 := by gcongr
        _ ≤ 1 * (1 / 2) := by norm_num
        _ ≤ |(s : ℚ)| * (1 + a) := by gcongr; linarith) (by
    rw [abs_div, div_le_iff₀ (by linarith), abs_mul (s : ℚ), abs_of_pos (by linarith : 0 < 1 + a)]
    calc |(s : ℚ)| * (1 + a) ≤ 2 ^ 64 * 2 := by gcongr <;> linarith
      _ ≤ 2 ^ (200 : Int) * (1 / 2) := by norm_num
      _ ≤ 2 ^ (200 : Int) * |(c : ℚ) * (1 + b)| := by gcongr)
  refine ⟨(1 + a) / (1 + b) * (1 + d), quot_factor ha hb hd, ?_⟩
  rw [ea, eb]
  simp only [F64.div]
  rw [if_neg hb0, ed]
  congr 1
  field_simp

/-- From a factor close to 1 to a relative error. -/
theorem rel_of_factor {q k e : ℚ} (h : |k - 1| ≤ e) : |q * k - q| ≤ e * |q| := by
  have : q * k - q = (k - 1) * q := by ring
  rw [this, abs_mul]
  exact mul_le_mul_of_nonneg_right h (abs_nonneg _)

/-- A sum, term by term, of numbers whose absolute values add up to at most `C`: each addition is off by at most `1.01 C` times half an ulp. -/
theorem sum_err {α : Type} {C : ℚ} (hC : 2 ^ (-990 : Int) ≤ C) (hC' : C ≤ 2 ^ (990 : Int)) (f : α → F64) (g : α → ℚ) (l : List α)
    (hf : ∀ a ∈ l, f a = .fin (g a)) (k : ℕ) (hk : (k + l.length : ℕ) * hulp ≤ 1 / 110) (s s' : ℚ) (hs : |s' - s| ≤ k * (hulp * (1.01 * C)))
    (hsum : |s| + (l.map fun a => |g a|).sum ≤ C) :
    ∃ x, l.foldl (fun t a => F64.add binary64 t (f a)) (.fin s') = .fin x ∧
      |x - (s + (l.map g).sum)| ≤ (k + l.length : ℕ) * (hulp * (1.01 * C)) := by
  have hC0 : 0 < C := lt_of_lt_of_le (by positivity) hC
  have hu0 := hulp_pos
  induction l generalizing k s s' with
  | nil => exact ⟨s', rfl, by simpa using hs⟩
  | cons a t ih =>
    simp only [List.map_cons, List.sum_cons, List.length_cons] at hsum hk ⊢
    have hga := hf a (by simp)
    have htn : 0 ≤ (t.map fun a => |g a|).sum := List.sum_nonneg (by simp only [List.mem_map]; rintro x ⟨y, _, rfl⟩; exact abs_nonneg _)
    have hsg : |s + g a| ≤ C := (abs_add_le _ _).trans (by linarith)
    have hkC : (k : ℚ) * (hulp * (1.01 * C)) ≤ 1 / 100 * C := by
      have h1 : (k : ℚ) * hulp ≤ (k + (t.length + 1) : ℕ) * hulp := by
        apply mul_le_mul_of_nonneg_right _ hu0.le
        push_cast
        have : (0 : ℚ) ≤ t.length := Nat.cast_nonneg _
        linarith
      have h2 : (k : ℚ) * hulp ≤ 1 / 110 := h1.trans hk
      calc (k : ℚ) * (hulp * (1.01 * C)) = k * hulp * (1.01 * C) := by ring
        _ ≤ 1 / 110 * (1.01 * C) := mul_le_mul_of_nonneg_right h2 (by linarith)
        _ ≤ 1 / 100 * C := by linarith
    have hb : |s' + g a| ≤ 1.01 * C := by
      have e : s' + g a = (s' - s) + (s + g a) := by ring
      rw [e]
      refine (abs_add_le _ _).trans ?_
      linarith
    obtain ⟨r, e1, e2⟩ := rnd_err hb ((zpow_le_zpow_right₀ (by norm_num) (by norm_num)).trans (hC.trans (by linarith))) (by
      calc 1.01 * C ≤ 2 * 2 ^ (990 : Int) := mul_le_mul (by norm_num) hC' hC0.le (by norm_num)
        _ = 2 ^ (991 : Int) := by rw [show (991 : Int) = 1 + 990 by norm_num, zpow_add₀ (by norm_num), zpow_one]
        _ ≤ 2 ^ (1000 : Int) := zpow_le_zpow_right₀ (by norm_num) (by norm_num))
    rw [List.foldl_cons, hga]
    have e3 : F64.add binary64 (.fin s') (.fin (g a)) = .fin r := e1
    rw [e3]
    obtain ⟨x, f1, f2⟩ := ih (fun b hb => hf b (by simp [hb])) (k + 1) (by convert hk using 2; push_cast; ring) (s + g a) r (by
      have e : r - (s + g a) = (r - (s' + g a)) + (s' - s) := by ring
      rw [e]
      refine (abs_add_le _ _).trans ?_
      have e2' : |r - (s' + g a)| ≤ hulp * (1.01 * C) := e2
      have h := add_le_add e2' hs
      refine h.trans (le_of_eq ?_)
      push_cast
      ring) ((add_le_add_left (abs_add_le _ _) _).trans (by linarith))
    refine ⟨x, f1, ?_⟩
    rw [← add_assoc]
    convert f2 using 2
    push_cast; ring

end GoMetrics
