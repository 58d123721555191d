import Verif.Proofs.Hoeffding
import Verif.Props.UniformSnapshot
import Verif.Props.UniformWords
/-! From the number of sampled values in a set to quantiles, and from sequences of positions to tables of random words. -/
namespace GoMetrics.Estimate
open Rounding UniformSnapshot UniformFair UniformReservoir UniformWords

/-! ## Ranks in the sorted sample -/

theorem countP_ge_of_sorted {s : List Int} (hs : s.Pairwise (· ≤ ·)) {i : Nat} (hi : i < s.length) (r : ℚ) (h : (s[i] : ℚ) ≤ r) :
    i + 1 ≤ s.countP fun v : Int => decide ((v : ℚ) ≤ r) := by
  have h1 : (s.take (i + 1)).countP (fun v : Int => decide ((v : ℚ) ≤ r)) = (s.take (i + 1)).length := by
    rw [List.countP_eq_length]
    intro v hv
    obtain ⟨j, hj, rfl⟩ := List.mem_iff_getElem.1 hv
    simp only [List.length_take] at hj
    rw [List.getElem_take, decide_eq_true_iff]
    refine le_trans ?_ h
    exact_mod_cast sorted_get hs (by omega) hi (by omega)
  have h2 : (s.take (i + 1)).countP (fun v : Int => decide ((v : ℚ) ≤ r)) ≤ s.countP (fun v : Int => decide ((v : ℚ) ≤ r)) :=
    (List.take_sublist _ _).countP_le
  rw [h1, List.length_take] at h2
  omega

theorem countP_lt_of_sorted {s : List Int} (hs : s.Pairwise (· ≤ ·)) {i : Nat} (hi : i < s.length) (r : ℚ) (h : r ≤ (s[i] : ℚ)) :
    s.countP (fun v : Int => decide ((v : ℚ) < r)) ≤ i := by
  have h1 : (s.drop i).countP (fun v : Int => decide ((v : ℚ) < r)) = 0 := by
    rw [List.countP_eq_zero]
    intro v hv
    obtain ⟨j, hj, rfl⟩ := List.mem_iff_getElem.1 hv
    simp only [List.length_drop] at hj
    rw [List.getElem_drop, decide_eq_true_iff, not_lt]
    refine le_trans h ?_
    exact_mod_cast sorted_get hs hi (by omega) (by omega)
  have h2 := List.countP_append (p := fun v : Int => decide ((v : ℚ) < r)) (l₁ := s.take i) (l₂ := s.drop i)
  rw [List.take_append_drop, h1] at h2
  have h3 := List.countP_le_length (p := fun v : Int => decide ((v : ℚ) < r)) (l := s.take i)
  rw [List.length_take] at h3
  omega

theorem perm_share {l m : List Int} (h : l.Perm m) (A : Int → Bool) : share l A = share m A := by
  unfold share; rw [h.countP_eq, h.length_eq]

/-- The truncated position is within 1 of the exact one. -/
theorem position_near {R : Rounding} (hR : R.Lawful) (hI : R.Ints) (u : UniformSnapshot) (hlen : u.values.length + 1 < 2 ^ 52) {q : ℚ} (h0 : 0 ≤ q)
    (h1 : q ≤ 1) : ∃ i : Nat, truncInt (u.position R (.fin q)) = i ∧ q * (u.values.length + 1) ≤ i + 1 ∧ (i : ℚ) ≤ q * (u.values.length + 1) + 1 := by
  have e52 : (2 : Nat) ^ 52 = 4503599627370496 := by norm_num
  rw [e52] at hlen
  have hr : R.Rep (((u.values.length : Int) + 1 : Int) : ℚ) := hI _ (by rw [abs_lt]; constructor <;> omega)
  have hx0 : (0 : ℚ) ≤ q * (u.values.length + 1) := by positivity
  have hx1 : q * (u.values.length + 1) ≤ u.values.length + 1 := by
    have : (0 : ℚ) ≤ u.values.length + 1 := by positivity
    nlinarith
  have hp : u.position R (.fin q) = R.rnd (q * (u.values.length + 1)) := by
    unfold position UniformSnapshot.size F64.ofInt
    rw [hr]; simp only [F64.mul]; push_cast; rfl
  obtain ⟨x, hx⟩ : ∃ x : ℚ, q * (u.values.length + 1) = x := ⟨_, rfl⟩
  rw [hx] at hx0 hx1 hp ⊢
  have hf0 : 0 ≤ ⌊x⌋ := Int.floor_nonneg.2 hx0
  have hf1 : ⌊x⌋ ≤ (u.values.length : Int) + 1 := by
    have : ⌊x⌋ ≤ ⌊(((u.values.length : Int) + 1 : Int) : ℚ)⌋ := Int.floor_le_floor (by push_cast; exact hx1)
    rwa [Int.floor_intCast] at this
  have hra : R.Rep ((⌊x⌋ : Int) : ℚ) := hI _ (by rw [abs_lt]; constructor <;> omega)
  have hrb : R.Rep ((⌊x⌋ + 1 : Int) : ℚ) := hI _ (by rw [abs_lt]; constructor <;> omega)
  obtain ⟨p, ep, hp1, hp2, _⟩ := hR.between hra hrb (Int.floor_le x) (by push_cast; exact (Int.lt_floor_add_one x).le)
  have hpf0 : ⌊x⌋ ≤ ⌊p⌋ := Int.le_floor.2 hp1
  have hpf1 : ⌊p⌋ ≤ ⌊x⌋ + 1 := by
    have : ⌊p⌋ ≤ ⌊((⌊x⌋ + 1 : Int) : ℚ)⌋ := Int.floor_le_floor hp2
    rwa [Int.floor_intCast] at this
  have hp0 : 0 ≤ p := le_trans (by exact_mod_cast hf0) hp1
  have ht : truncInt (u.position R (.fin q)) = ⌊p⌋ := by
    rw [hp, ep]
    unfold truncInt toInt64
    simp only
    rw [if_pos hp0, if_pos ⟨by omega, by omega⟩]; rfl
  refine ⟨⌊p⌋.toNat, by rw [ht]; omega, ?_, ?_⟩
  · have : (⌊x⌋ : ℚ) ≤ ⌊p⌋ := by exact_mod_cast hpf0
    have h3 : ((⌊p⌋.toNat : Nat) : ℚ) = (⌊p⌋ : ℚ) := by exact_mod_cast Int.toNat_of_nonneg (by omega : 0 ≤ ⌊p⌋)
    rw [h3]; linarith [Int.lt_floor_add_one x]
  · have : (⌊p⌋ : ℚ) ≤ ⌊x⌋ + 1 := by exact_mod_cast hpf1
    have h3 : ((⌊p⌋.toNat : Nat) : ℚ) = (⌊p⌋ : ℚ) := by exact_mod_cast Int.toNat_of_nonneg (by omega : 0 ≤ ⌊p⌋)
    rw [h3]; linarith [Int.floor_le x]

/-- The reported quantile of a list of values is a quantile of that list, up to two of its values. -/
theorem sample_rank {R : Rounding} (hR : R.Lawful) (hI : R.Ints) (T : List Int) (hT : T ≠ []) (hv : ∀ v ∈ T, |v| < 2 ^ 52)
    (hlen : T.length + 1 < 2 ^ 52) {q : ℚ} (h0 : 0 ≤ q) (h1 : q ≤ 1) :
    ∃ r : ℚ, (UniformSnapshot.new T).getValue R (.fin q) = .ok (.fin r) ∧ q - 2 / T.length ≤ share T (fun v : Int => decide ((v : ℚ) ≤ r)) ∧
      share T (fun v : Int => decide ((v : ℚ) < r)) ≤ q + 2 / T.length := by
  have hfit := fits_of_small hI hv
  have hn : 0 < (UniformSnapshot.new T).values.length := by rw [length_new]; exact List.length_pos_iff.2 hT
  have hs := sorted_new T
  have hm : ∀ {i : Nat} (h : i < (UniformSnapshot.new T).values.length), (UniformSnapshot.new T).values[i] ∈ T := fun h => mem_new.1 (List.getElem_mem h)
  have hl := length_new T
  obtain ⟨i, hi, hi1, hi2⟩ := position_near hR hI (UniformSnapshot.new T) (by rw [hl]; exact hlen) h0 h1
  have hLpos : (0 : ℚ) < T.length := by exact_mod_cast List.length_pos_iff.2 hT
  have fin : ∀ r : ℚ, (q * T.length - 2 ≤ (UniformSnapshot.new T).values.countP fun v : Int => decide ((v : ℚ) ≤ r)) →
      (((UniformSnapshot.new T).values.countP fun v : Int => decide ((v : ℚ) < r) : ℕ) : ℚ) ≤ q * T.length + 2 →
      q - 2 / T.length ≤ share T (fun v : Int => decide ((v : ℚ) ≤ r)) ∧ share T (fun v : Int => decide ((v : ℚ) < r)) ≤ q + 2 / T.length := by
    intro r ha hb
    rw [← perm_share (perm_new T), ← perm_share (perm_new T)]
    unfold share
    rw [hl]
    constructor
    · rw [le_div_iff₀ hLpos, sub_mul, div_mul_cancel₀ _ hLpos.ne']; exact ha
    · rw [div_le_iff₀ hLpos, add_mul, div_mul_cancel₀ _ hLpos.ne']; exact hb
  rw [hl] at hi1 hi2
  rcases getValue_cases R (UniformSnapshot.new T) ((bad_fin q).2 ⟨h0, h1⟩) hn with ⟨ht, e⟩ | ⟨_, ht, e⟩ | ⟨j, hj, p, _, ht, hf, e⟩
  · refine ⟨_, by rw [e, F64.ofInt, hfit.val _ (hm hn)], fin _ ?_ ?_⟩
    · have : i = 0 := by omega
      subst this
      have : (0 : ℚ) ≤ ((UniformSnapshot.new T).values.countP fun v : Int => decide ((v : ℚ) ≤ ((UniformSnapshot.new T).values[0] : ℚ)) : ℕ) := by positivity
      push_cast at hi1
      nlinarith
    · have := countP_lt_of_sorted hs hn _ (le_refl ((UniformSnapshot.new T).values[0] : ℚ))
      have h' : (((UniformSnapshot.new T).values.countP fun v : Int => decide ((v : ℚ) < ((UniformSnapshot.new T).values[0] : ℚ)) : ℕ) : ℚ) ≤ 0 := by
        exact_mod_cast this
      have : 0 ≤ q * T.length := by positivity
      linarith
  · refine ⟨_, by rw [e, F64.ofInt, hfit.val _ (hm (by omega))], fin _ ?_ ?_⟩
    · have := countP_ge_of_sorted hs (show (UniformSnapshot.new T).values.length - 1 < _ by omega) _ (le_refl ((UniformSnapshot.new T).values[(UniformSnapshot.new T).values.length - 1] : ℚ))
      have h' : ((T.length : ℕ) : ℚ) ≤ ((UniformSnapshot.new T).values.countP fun v : Int => decide ((v : ℚ) ≤
          ((UniformSnapshot.new T).values[(UniformSnapshot.new T).values.length - 1] : ℚ)) : ℕ) := by
        exact Nat.cast_le.2 (by omega)
      have : q * T.length ≤ T.length := by nlinarith
      linarith
    · have := countP_lt_of_sorted hs (show (UniformSnapshot.new T).values.length - 1 < _ by omega) _ (le_refl ((UniformSnapshot.new T).values[(UniformSnapshot.new T).values.length - 1] : ℚ))
      have h' : (((UniformSnapshot.new T).values.countP fun v : Int => decide ((v : ℚ) <
          ((UniformSnapshot.new T).values[(UniformSnapshot.new T).values.length - 1] : ℚ)) : ℕ) : ℚ) ≤ (T.length : ℚ) := by
        exact Nat.cast_le.2 (by omega)
      have h2 : T.length ≤ i := by omega
      have h3 : (T.length : ℚ) ≤ i := by exact_mod_cast h2
      nlinarith
  · have hab := sorted_get hs (show j < (UniformSnapshot.new T).values.length by omega) hj (by omega)
    obtain ⟨r, er, hr0, hr1⟩ := interp_between hR hf hfit.one hab (hfit.val _ (hm _)) (hfit.val _ (hm hj)) (hfit.diff _ (hm _) _ (hm hj) hab)
      (hfit.nowrap _ (hm _) _ (hm hj) hab)
    have hij : i = j + 1 := by omega
    refine ⟨r, by rw [e, er], fin r ?_ ?_⟩
    · have := countP_ge_of_sorted hs (by omega) r hr0
      have h' : ((j + 1 : ℕ) : ℚ) ≤ ((UniformSnapshot.new T).values.countP fun v : Int => decide ((v : ℚ) ≤ r) : ℕ) := by exact_mod_cast this
      rw [hij] at hi1
      linarith
    · have := countP_lt_of_sorted hs hj r hr1
      have h' : (((UniformSnapshot.new T).values.countP fun v : Int => decide ((v : ℚ) < r) : ℕ) : ℚ) ≤ ((j + 1 : ℕ) : ℚ) := by exact_mod_cast this
      rw [hij] at hi2
      linarith

/-! ## From a random threshold to a fixed set -/

theorem share_mono {α : Type} (l : List α) {P Q : α → Bool} (h : ∀ a ∈ l, P a = true → Q a = true) : share l P ≤ share l Q := by
  unfold share
  have : l.countP P ≤ l.countP Q := List.countP_mono_left h
  have h' : (l.countP P : ℚ) ≤ l.countP Q := by exact_mod_cast this
  gcongr

theorem threshold_sub (vs T : List Int) (f : Int → ℚ) (θ r : ℚ) (h : share vs (fun v => decide (f v ≤ r)) < θ) :
    share T (fun v => decide (f v ≤ r)) ≤ share T fun v => decide (share vs (fun w => decide (f w ≤ f v)) < θ) := by
  refine share_mono T fun a _ ha => ?_
  simp only [decide_eq_true_iff] at ha ⊢
  refine lt_of_le_of_lt (share_mono vs fun b _ hb => ?_) h
  simp only [decide_eq_true_iff] at hb ⊢
  exact le_trans hb ha

theorem threshold_small (vs : List Int) (f : Int → ℚ) (θ : ℚ) (hθ : 0 ≤ θ) :
    share vs (fun v => decide (share vs (fun w => decide (f w ≤ f v)) < θ)) ≤ θ := by
  by_cases he : ∃ v ∈ vs.toFinset.filter (fun v => share vs (fun w => decide (f w ≤ f v)) < θ), True
  · obtain ⟨v0, hv0, _⟩ := he
    obtain ⟨m, hm, hmax⟩ := Finset.exists_max_image _ f ⟨v0, hv0⟩
    rw [Finset.mem_filter] at hm
    refine le_trans (share_mono vs fun a ha h => ?_) hm.2.le
    simp only [decide_eq_true_iff] at h ⊢
    exact hmax a (Finset.mem_filter.2 ⟨by simpa using ha, h⟩)
  · have : vs.countP (fun v => decide (share vs (fun w => decide (f w ≤ f v)) < θ)) = 0 := by
      rw [List.countP_eq_zero]
      intro a ha h
      simp only [decide_eq_true_iff] at h
      exact he ⟨a, Finset.mem_filter.2 ⟨by simpa using ha, h⟩, trivial⟩
    have h0 : share vs (fun v => decide (share vs (fun w => decide (f w ≤ f v)) < θ)) = 0 := by
      unfold share at this ⊢; rw [this]; simp
    rw [h0]; exact hθ

/-- The chance that the share below a random threshold is far off, on one side. -/
theorem threshold_tail (c : Nat) (vs : List Int) (hc0 : 0 < c) (hc : c ≤ vs.length) (hl : vs.length < 2 ^ 63) (f : Int → ℚ) (θ ε : ℚ) (hε : 0 ≤ ε)
    (P : List Nat → Bool)
    (hP : ∀ s ∈ draws vs.length, P s = true → ∃ r : ℚ, share vs (fun v => decide (f v ≤ r)) < θ ∧ θ + ε ≤ share (sampleOf c vs s) fun v => decide (f v ≤ r)) :
    ((share (draws vs.length) P : ℚ) : ℝ) ≤ Real.exp (-2 * c * (ε : ℝ) ^ 2) := by
  by_cases hθ : 0 ≤ θ
  · refine le_trans ?_ (tail c vs (fun v => decide (share vs (fun w => decide (f w ≤ f v)) < θ)) hc0 hc hl ε hε)
    have : share (draws vs.length) P ≤ share (draws vs.length) (fun s => decide (share vs (fun v => decide (share vs (fun w => decide (f w ≤ f v)) < θ)) + ε ≤
        share (sampleOf c vs s) (fun v => decide (share vs (fun w => decide (f w ≤ f v)) < θ)))) := by
      refine share_mono _ fun s hs h => ?_
      obtain ⟨r, h1, h2⟩ := hP s hs h
      have h3 := threshold_sub vs (sampleOf c vs s) f θ r h1
      have h4 := threshold_small vs f θ hθ
      simp only [decide_eq_true_iff]
      linarith
    exact_mod_cast this
  · have : (draws vs.length).countP P = 0 := by
      rw [List.countP_eq_zero]
      intro s hs h
      obtain ⟨r, h1, _⟩ := hP s hs h
      exact hθ (le_trans (share_nonneg vs _) h1.le)
    have h0 : share (draws vs.length) P = 0 := by unfold share; rw [this]; simp
    rw [h0]
    simp only [Rat.cast_zero]
    exact (Real.exp_pos _).le

theorem share_or {α : Type} (l : List α) (P Q : α → Bool) : share l (fun a => P a || Q a) ≤ share l P + share l Q := by
  unfold share
  rw [← add_div]
  have : l.countP (fun a => P a || Q a) ≤ l.countP P + l.countP Q := by
    induction l with
    | nil => simp
    | cons a l ih =>
      simp only [List.countP_cons]
      cases P a <;> cases Q a <;> simp <;> omega
  have h' : (l.countP (fun a => P a || Q a) : ℚ) ≤ l.countP P + l.countP Q := by exact_mod_cast this
  gcongr

theorem share_not {α : Type} (l : List α) (hl : l ≠ []) (P : α → Bool) : share l (fun a => !P a) = 1 - share l P := by
  unfold share
  have hL : (0 : ℚ) < l.length := by exact_mod_cast List.length_pos_iff.2 hl
  rw [eq_sub_iff_add_eq, ← add_div, div_eq_one_iff_eq hL.ne']
  have := List.length_eq_countP_add_countP P (l := l)
  have e : l.countP (fun a => !P a) = l.countP (fun a => decide ¬P a = true) := by
    refine List.countP_congr fun a _ => ?_
    cases P a <;> simp
  rw [e]
  exact_mod_cast (by omega)

end GoMetrics.Estimate
