import Verif.Props.UniformFair
import Verif.Spec.Estimate
import Mathlib.Algebra.BigOperators.Ring.List
import Mathlib.Data.Nat.Choose.Basic
import Mathlib.Tactic.Ring
import Mathlib.Tactic.LinearCombination
import Mathlib.Tactic.FieldSimp
/-! Sums over all sequences of positions of a function of the sample. -/
namespace GoMetrics.Estimate
open UniformFair

/-- The sum over the positions a full reservoir may draw for one more value. -/
theorem sum_step {M : Type} [CommSemiring M] {c : Nat} {vs : List Int} {s : List Nat} (h : vs.length = s.length) (hc : c ≤ vs.length)
    (hl : vs.length + 1 < 2 ^ 63) (v : Int) (F : List Int → M) :
    ((List.range (vs.length + 1)).map fun p => F (sampleOf c (vs ++ [v]) (s ++ [p]))).sum =
      ((List.range c).map fun p => F ((sampleOf c vs s).set p v)).sum + ((vs.length + 1 - c : Nat) : M) * F (sampleOf c vs s) := by
  have e : ∀ p ∈ List.range (vs.length + 1), F (sampleOf c (vs ++ [v]) (s ++ [p])) =
      F (if p < c then (sampleOf c vs s).set p v else sampleOf c vs s) := by
    intro p hp
    rw [List.mem_range] at hp
    rw [sample_snoc h hc hl v hp]
  rw [List.map_congr_left e]
  obtain ⟨m, hm⟩ : ∃ m, vs.length + 1 - c = m := ⟨_, rfl⟩
  rw [hm, show vs.length + 1 = c + m by omega, List.range_add, List.map_append, List.sum_append]
  congr 1
  · congr 1
    refine List.map_congr_left fun p hp => ?_
    rw [List.mem_range] at hp
    rw [if_pos hp]
  · rw [List.map_map]
    have : (List.range m).map ((fun p => F (if p < c then (sampleOf c vs s).set p v else sampleOf c vs s)) ∘ fun x => c + x) =
        (List.range m).map fun _ => F (sampleOf c vs s) := by
      refine List.map_congr_left fun p _ => ?_
      simp
    rw [this]
    simp

theorem sum_draws {M : Type} [AddCommMonoid M] (n : Nat) (F : List Nat → M) :
    ((draws (n + 1)).map F).sum = ((draws n).map fun s => ((List.range (n + 1)).map fun p => F (s ++ [p])).sum).sum := by
  rw [draws, List.map_flatMap, List.flatMap_def, List.sum_flatten, List.map_map]
  congr 1
  refine List.map_congr_left fun s _ => ?_
  simp [Function.comp_def]

theorem sum_get {M : Type} [AddCommMonoid M] (T : List Int) (h : Int → M) :
    ((List.range T.length).map fun p => h (T.getD p 0)).sum = (T.map h).sum := by
  congr 1
  apply List.ext_getElem (by simp)
  intro i h1 h2
  simp only [List.length_map, List.length_range] at h1
  simp [h1]

theorem sum_set_weight (g : Int → ℚ) (T : List Int) (v : Int) {p : Nat} (hp : p < T.length) :
    ((T.set p v).map g).sum = (T.map g).sum - g (T.getD p 0) + g v := by
  induction T generalizing p with
  | nil => simp at hp
  | cons a T ih =>
    cases p with
    | zero => simp; ring
    | succ p =>
      have := ih (p := p) (by simpa using hp)
      simp only [List.set_cons_succ, List.map_cons, List.sum_cons, this, List.getD_cons_succ]
      ring

theorem countP_set_cases (A : Int → Bool) (T : List Int) (v : Int) {p : Nat} (hp : p < T.length) :
    (T.set p v).countP A = T.countP A - (if A (T.getD p 0) then 1 else 0) + (if A v then 1 else 0) ∧
      (A (T.getD p 0) = true → 1 ≤ T.countP A) := by
  have h0 : T.getD p 0 = T[p] := by simp [hp]
  refine ⟨?_, fun h => ?_⟩
  · rw [List.countP_set hp, h0]
  · rw [h0] at h
    exact List.countP_pos_iff.2 ⟨_, List.getElem_mem hp, h⟩

theorem sum_ite_split {M : Type} [CommSemiring M] (T : List Int) (A : Int → Bool) (x y : M) :
    (T.map fun t => if A t then x else y).sum = (T.countP A : M) * x + ((T.length - T.countP A : Nat) : M) * y := by
  induction T with
  | nil => simp
  | cons a T ih =>
    have hle : T.countP A ≤ T.length := List.countP_le_length
    rw [List.map_cons, List.sum_cons, ih, List.countP_cons, List.length_cons]
    by_cases h : A a = true
    · simp only [h, if_true]
      rw [show T.length + 1 - (T.countP A + 1) = T.length - T.countP A by omega]; push_cast; ring
    · simp only [h, if_false, Nat.add_zero, Bool.false_eq_true]
      rw [show T.length + 1 - T.countP A = (T.length - T.countP A) + 1 by omega]; push_cast; ring

/-- Replacing one value of the sample after another: how a function of the number of values in `A` adds up. -/
theorem sum_set_count {M : Type} [CommSemiring M] (A : Int → Bool) (F : Nat → M) (T : List Int) (v : Int) :
    ((List.range T.length).map fun p => F ((T.set p v).countP A)).sum =
      (T.countP A : M) * F (T.countP A - 1 + if A v then 1 else 0) +
        ((T.length - T.countP A : Nat) : M) * F (T.countP A + if A v then 1 else 0) := by
  rw [← sum_ite_split, ← sum_get]
  congr 1
  refine List.map_congr_left fun p hp => ?_
  rw [List.mem_range] at hp
  rw [(countP_set_cases A T v hp).1]
  by_cases h : A (T.getD p 0) = true
  · simp only [h, if_true]
  · simp only [h, if_false, Nat.sub_zero, Bool.false_eq_true]

/-! ## Factorial moments of the number of sampled values in a set -/

theorem full_or {c : Nat} {vs : List Int} {v : Int} (hc : c ≤ (vs ++ [v]).length) : c = (vs ++ [v]).length ∨ c ≤ vs.length := by
  simp only [List.length_append, List.length_singleton] at hc ⊢; omega

theorem sum_map_const {α M : Type} [CommSemiring M] (l : List α) (f : α → M) (x : M) (h : ∀ a ∈ l, f a = x) :
    (l.map f).sum = (l.length : M) * x := by
  rw [List.map_congr_left h]; simp

theorem sum_map_lin {α M : Type} [CommSemiring M] (l : List α) (f g : α → M) (x y : M) :
    (l.map fun a => x * f a + y * g a).sum = x * (l.map f).sum + y * (l.map g).sum := by
  rw [List.sum_map_add, List.sum_map_mul_left, List.sum_map_mul_left]

theorem choose_sum (c : Nat) (vs : List Int) (A : Int → Bool) (hc : c ≤ vs.length) (hl : vs.length < 2 ^ 63) (j : Nat) (hj : j ≤ c) :
    ((draws vs.length).map fun s => ((((sampleOf c vs s).countP A).choose j : Nat) : ℚ)).sum * (vs.length.choose j : ℚ) =
      vs.length.factorial * c.choose j * ((vs.countP A).choose j : ℚ) := by
  induction vs using List.reverseRecOn generalizing j with
  | nil =>
    simp only [List.length_nil, Nat.le_zero] at hc
    subst hc
    have : j = 0 := by omega
    subst this
    simp [draws]
  | append_singleton vs v ih =>
    rcases full_or hc with rfl | hc'
    · rw [sum_map_const (draws _) _ (((vs ++ [v]).countP A).choose j : ℚ)]
      · rw [length_draws]; ring
      · intro s hs
        have hlen := ((mem_draws _ s).1 hs).1
        rw [sample_full hlen.symm hl]
    · simp only [List.length_append, List.length_singleton] at hl ⊢
      have hstep : ∀ j, j ≤ c → ∀ s ∈ draws vs.length,
          ((List.range (vs.length + 1)).map fun p => ((((sampleOf c (vs ++ [v]) (s ++ [p])).countP A).choose j : Nat) : ℚ)).sum =
            ((vs.length : ℚ) + 1 - j) * (((sampleOf c vs s).countP A).choose j : ℚ) +
              (if A v = true ∧ 1 ≤ j then (c : ℚ) - j + 1 else 0) * (((sampleOf c vs s).countP A).choose (j - 1) : ℚ) := by
        intro j hj s hs
        have hlen := ((mem_draws _ s).1 hs).1
        have hls := length_sample c vs s
        rw [sum_step hlen.symm hc' hl v (fun T => ((T.countP A).choose j : ℚ))]
        have := sum_set_count A (fun x => (x.choose j : ℚ)) (sampleOf c vs s) v
        rw [hls] at this
        rw [this]
        have hXc : (sampleOf c vs s).countP A ≤ c := by
          have := List.countP_le_length (p := A) (l := sampleOf c vs s)
          rw [hls] at this; exact this
        generalize (sampleOf c vs s).countP A = X at *
        rw [Nat.cast_sub (by omega : c ≤ vs.length + 1), Nat.cast_sub hXc]
        push_cast
        cases j with
        | zero =>
          simp only [Nat.choose_zero_right]; simp
        | succ j =>
          cases X with
          | zero =>
            by_cases hv : A v = true
            · simp only [hv, if_true, Nat.choose_zero_succ, true_and]
              simp only [Nat.le_add_left, if_true, Nat.add_sub_cancel]
              cases j with
              | zero => simp; 
              | succ j => simp [Nat.choose_eq_zero_of_lt]
            · simp [hv]
          | succ X =>
            have p1 : ((X + 1).choose (j + 1) : ℚ) = X.choose j + X.choose (j + 1) := by exact_mod_cast Nat.choose_succ_succ X j
            have p2 : ((X : ℚ) + 1) * X.choose j = (X + 1).choose (j + 1) * (j + 1) := by exact_mod_cast Nat.add_one_mul_choose_eq X j
            by_cases hv : A v = true
            · simp only [hv, if_true, true_and, Nat.le_add_left, Nat.add_sub_cancel]
              have p3 : ((X + 1 + 1).choose (j + 1) : ℚ) = (X + 1).choose j + (X + 1).choose (j + 1) := by
                exact_mod_cast Nat.choose_succ_succ (X + 1) j
              have p4 : (((X + 1).choose (j + 1) : ℕ) : ℚ) * (j + 1) = (X + 1).choose j * ((X : ℚ) + 1 - j) := by
                by_cases hjX : j ≤ X + 1
                · have := Nat.choose_succ_right_eq (X + 1) j
                  have h' : (((X + 1).choose (j + 1) * (j + 1) : ℕ) : ℚ) = (((X + 1).choose j * (X + 1 - j) : ℕ) : ℚ) := by rw [this]
                  rw [Nat.cast_mul, Nat.cast_mul, Nat.cast_sub hjX] at h'
                  push_cast at h'; exact h'
                · rw [Nat.choose_eq_zero_of_lt (by omega), Nat.choose_eq_zero_of_lt (by omega)]; simp
              rw [p3]
              push_cast
              linear_combination p4
            · simp only [hv, if_false, Bool.false_eq_true, false_and, Nat.add_zero, Nat.add_sub_cancel]
              push_cast
              linear_combination ((X : ℚ) + 1) * (-1) * p1 - p2
      rw [sum_draws, List.map_congr_left (hstep j hj), sum_map_lin, List.countP_append]
      have i1 := ih hc' (by omega) j hj
      have hn1 : ((vs.length + 1).choose j : ℚ) * ((vs.length : ℚ) + 1 - j) = (vs.length.choose j : ℚ) * (vs.length + 1) := by
        have := Nat.choose_mul_succ_eq vs.length j
        have h' : ((vs.length.choose j * (vs.length + 1) : ℕ) : ℚ) = (((vs.length + 1).choose j * (vs.length + 1 - j) : ℕ) : ℚ) := by rw [this]
        rw [Nat.cast_mul, Nat.cast_mul, Nat.cast_sub (by omega)] at h'
        push_cast at h'; exact h'.symm
      have hf : (((vs.length + 1).factorial : ℕ) : ℚ) = (vs.length + 1) * vs.length.factorial := by
        rw [Nat.factorial_succ]; push_cast; ring
      rw [hf]
      generalize hS : ((draws vs.length).map fun s => (((sampleOf c vs s).countP A).choose j : ℚ)).sum = S at *
      by_cases hcond : A v = true ∧ 1 ≤ j
      · rw [if_pos hcond]
        obtain ⟨hv, hj1⟩ := hcond
        obtain ⟨i, rfl⟩ : ∃ i, j = i + 1 := ⟨j - 1, by omega⟩
        have i2 := ih hc' (by omega) i (by omega)
        simp only [Nat.add_sub_cancel]
        generalize hS2 : ((draws vs.length).map fun s => (((sampleOf c vs s).countP A).choose i : ℚ)).sum = S2 at *
        have hcv : [v].countP A = 1 := by simp [hv]
        rw [hcv]
        have pk : (((vs.countP A) + 1).choose (i + 1) : ℚ) = (vs.countP A).choose i + (vs.countP A).choose (i + 1) := by
          exact_mod_cast Nat.choose_succ_succ (vs.countP A) i
        have hn2 : ((vs.length + 1).choose (i + 1) : ℚ) * (i + 1) = ((vs.length : ℚ) + 1) * vs.length.choose i := by
          exact_mod_cast (Nat.add_one_mul_choose_eq vs.length i).symm
        have hc2 : (c.choose (i + 1) : ℚ) * (i + 1) = c.choose i * ((c : ℚ) - i) := by
          have := Nat.choose_succ_right_eq c i
          have h' : ((c.choose (i + 1) * (i + 1) : ℕ) : ℚ) = ((c.choose i * (c - i) : ℕ) : ℚ) := by rw [this]
          rw [Nat.cast_mul, Nat.cast_mul, Nat.cast_sub (by omega)] at h'
          push_cast at h'; exact h'
        rw [pk]
        push_cast at *
        have hi1 : ((i : ℚ) + 1) ≠ 0 := by positivity
        apply mul_left_cancel₀ hi1
        linear_combination ((i : ℚ) + 1) * S * hn1 + ((i : ℚ) + 1) * ((vs.length : ℚ) + 1) * i1 + S2 * ((c : ℚ) - i) * hn2 +
          ((vs.length : ℚ) + 1) * ((c : ℚ) - i) * i2 - ((vs.length : ℚ) + 1) * vs.length.factorial * (vs.countP A).choose i * hc2
      · rw [if_neg hcond]
        have hch : (((vs.countP A + [v].countP A).choose j : ℕ) : ℚ) = ((vs.countP A).choose j : ℚ) := by
          by_cases hv : A v = true
          · have : j = 0 := by
              by_contra h; exact hcond ⟨hv, by omega⟩
            subst this; simp
          · simp [hv]
        rw [hch]
        linear_combination S * hn1 + ((vs.length : ℚ) + 1) * i1

/-! ## The first two moments of a weight -/

theorem sum_weight (c : Nat) (vs : List Int) (g : Int → ℚ) (hc : c ≤ vs.length) (hl : vs.length < 2 ^ 63) :
    ((draws vs.length).map fun s => ((sampleOf c vs s).map g).sum).sum * (vs.length : ℚ) = vs.length.factorial * c * (vs.map g).sum := by
  induction vs using List.reverseRecOn with
  | nil =>
    simp only [List.length_nil, Nat.le_zero] at hc
    subst hc
    simp
  | append_singleton vs v ih =>
    rcases full_or hc with rfl | hc'
    · rw [sum_map_const (draws _) _ (((vs ++ [v]).map g).sum : ℚ)]
      · rw [length_draws]; ring
      · intro s hs
        have hlen := ((mem_draws _ s).1 hs).1
        rw [sample_full hlen.symm hl]
    · simp only [List.length_append, List.length_singleton] at hl ⊢
      have hstep : ∀ s ∈ draws vs.length,
          ((List.range (vs.length + 1)).map fun p => ((sampleOf c (vs ++ [v]) (s ++ [p])).map g).sum).sum =
            (vs.length : ℚ) * ((sampleOf c vs s).map g).sum + (c * g v) * 1 := by
        intro s hs
        have hlen := ((mem_draws _ s).1 hs).1
        have hls := length_sample c vs s
        rw [sum_step hlen.symm hc' hl v (fun T => (T.map g).sum)]
        generalize sampleOf c vs s = T at *
        subst hls
        have : (List.range T.length).map (fun p => ((T.set p v).map g).sum) =
            (List.range T.length).map (fun p => (fun x => ((T.map g).sum + g v) * 1 + (-1) * g x) (T.getD p 0)) := by
          refine List.map_congr_left fun p hp => ?_
          rw [List.mem_range] at hp
          rw [sum_set_weight g T v hp]; ring
        rw [this, sum_get T (fun x => ((T.map g).sum + g v) * 1 + (-1) * g x), sum_map_lin, Nat.cast_sub (by omega)]
        simp; ring
      rw [sum_draws, List.map_congr_left hstep, sum_map_lin]
      have i1 := ih hc' (by omega)
      rw [List.map_append, List.sum_append, Nat.factorial_succ]
      generalize ((draws vs.length).map fun s => ((sampleOf c vs s).map g).sum).sum = S at *
      simp only [List.map_const', List.sum_replicate, length_draws, List.map_cons, List.map_nil, List.sum_singleton]
      simp only [nsmul_eq_mul, mul_one]
      push_cast
      linear_combination ((vs.length : ℚ) + 1) * i1

theorem sum_pairs (c : Nat) (vs : List Int) (g : Int → ℚ) (hc : c ≤ vs.length) (hl : vs.length < 2 ^ 63) :
    ((draws vs.length).map fun s => ((sampleOf c vs s).map g).sum ^ 2 - ((sampleOf c vs s).map fun x => g x ^ 2).sum).sum *
        ((vs.length : ℚ) * (vs.length - 1)) =
      vs.length.factorial * (c * (c - 1)) * ((vs.map g).sum ^ 2 - (vs.map fun x => g x ^ 2).sum) := by
  induction vs using List.reverseRecOn with
  | nil =>
    simp only [List.length_nil, Nat.le_zero] at hc
    subst hc
    simp
  | append_singleton vs v ih =>
    rcases full_or hc with rfl | hc'
    · rw [sum_map_const (draws _) _ (((vs ++ [v]).map g).sum ^ 2 - ((vs ++ [v]).map fun x => g x ^ 2).sum : ℚ)]
      · rw [length_draws]; ring
      · intro s hs
        have hlen := ((mem_draws _ s).1 hs).1
        rw [sample_full hlen.symm hl]
    · simp only [List.length_append, List.length_singleton] at hl ⊢
      have hstep : ∀ s ∈ draws vs.length,
          ((List.range (vs.length + 1)).map fun p => ((sampleOf c (vs ++ [v]) (s ++ [p])).map g).sum ^ 2 -
              ((sampleOf c (vs ++ [v]) (s ++ [p])).map fun x => g x ^ 2).sum).sum =
            ((vs.length : ℚ) - 1) * (((sampleOf c vs s).map g).sum ^ 2 - ((sampleOf c vs s).map fun x => g x ^ 2).sum) +
              (2 * ((c : ℚ) - 1) * g v) * ((sampleOf c vs s).map g).sum := by
        intro s hs
        have hlen := ((mem_draws _ s).1 hs).1
        have hls := length_sample c vs s
        rw [sum_step hlen.symm hc' hl v (fun T => (T.map g).sum ^ 2 - (T.map fun x => g x ^ 2).sum)]
        generalize sampleOf c vs s = T at *
        subst hls
        generalize hW : (T.map g).sum = W
        generalize hQ : (T.map fun x => g x ^ 2).sum = Q
        have : (List.range T.length).map (fun p => ((T.set p v).map g).sum ^ 2 - ((T.set p v).map fun x => g x ^ 2).sum) =
            (List.range T.length).map (fun p => (fun x => (W ^ 2 - Q + 2 * W * g v) * 1 + (2 * g x ^ 2 + (-2 * (W + g v)) * g x)) (T.getD p 0)) := by
          refine List.map_congr_left fun p hp => ?_
          rw [List.mem_range] at hp
          rw [sum_set_weight g T v hp, sum_set_weight (fun x => g x ^ 2) T v hp, hW, hQ]; ring
        rw [this, sum_get T (fun x => (W ^ 2 - Q + 2 * W * g v) * 1 + (2 * g x ^ 2 + (-2 * (W + g v)) * g x)), List.sum_map_add, List.sum_map_add, List.sum_map_mul_left, List.sum_map_mul_left, List.sum_map_mul_left, hW, hQ,
          Nat.cast_sub (by omega)]
        simp; ring
      rw [sum_draws, List.map_congr_left hstep, sum_map_lin]
      have i1 := ih hc' (by omega)
      have i2 := sum_weight c vs g hc' (by omega)
      rw [List.map_append, List.sum_append, List.map_append, List.sum_append, Nat.factorial_succ]
      generalize ((draws vs.length).map fun s => ((sampleOf c vs s).map g).sum ^ 2 - ((sampleOf c vs s).map fun x => g x ^ 2).sum).sum = S at *
      generalize ((draws vs.length).map fun s => ((sampleOf c vs s).map g).sum).sum = S1 at *
      simp only [List.map_cons, List.map_nil, List.sum_singleton]
      push_cast
      linear_combination ((vs.length : ℚ) + 1) * i1 + ((vs.length : ℚ) + 1) * (2 * ((c : ℚ) - 1) * g v) * i2

/-! ## Tails -/

theorem choose_ratio (K n j : Nat) (h : K ≤ n) : K.choose j * n ^ j ≤ K ^ j * n.choose j := by
  induction j with
  | zero => simp
  | succ j ih =>
    have h1 := Nat.choose_succ_right_eq K j
    have h2 := Nat.choose_succ_right_eq n j
    have h3 : (K - j) * n ≤ K * (n - j) := by
      rcases Nat.lt_or_ge K j with hk | hk
      · rw [Nat.sub_eq_zero_of_le (by omega)]; simp
      · zify [hk, le_trans hk h]
        have : (j : Int) * K ≤ j * n := by exact_mod_cast Nat.mul_le_mul_left j h
        nlinarith
    refine Nat.le_of_mul_le_mul_right (c := j + 1) ?_ (by omega)
    calc K.choose (j + 1) * n ^ (j + 1) * (j + 1) = (K.choose (j + 1) * (j + 1)) * n * n ^ j := by ring
      _ = (K.choose j * n ^ j) * ((K - j) * n) := by rw [h1]; ring
      _ ≤ (K ^ j * n.choose j) * (K * (n - j)) := Nat.mul_le_mul ih h3
      _ = K ^ (j + 1) * (n.choose j * (n - j)) := by ring
      _ = K ^ (j + 1) * n.choose (j + 1) * (j + 1) := by rw [← h2]; ring

theorem choose_bound (c : Nat) (vs : List Int) (A : Int → Bool) (hc : c ≤ vs.length) (hl : vs.length < 2 ^ 63) (j : Nat) (hj : j ≤ c) :
    ((draws vs.length).map fun s => ((((sampleOf c vs s).countP A).choose j : Nat) : ℚ)).sum ≤
      vs.length.factorial * c.choose j * share vs A ^ j := by
  have h := choose_sum c vs A hc hl j hj
  have hr := choose_ratio (vs.countP A) vs.length j List.countP_le_length
  have hpos : (0 : ℚ) < vs.length.choose j := by exact_mod_cast Nat.choose_pos (le_trans hj hc)
  by_cases hn : vs.length = 0
  · have : j = 0 := by omega
    subst this
    simp at h ⊢
    rw [h]
  · have hn' : (0 : ℚ) < (vs.length : ℚ) ^ j := by positivity
    have hr' : ((vs.countP A).choose j : ℚ) ≤ share vs A ^ j * vs.length.choose j := by
      unfold share
      rw [div_pow, div_mul_eq_mul_div, le_div_iff₀ hn']
      exact_mod_cast hr
    rw [← mul_le_mul_iff_of_pos_right hpos, h]
    calc _ ≤ (vs.length.factorial : ℚ) * c.choose j * (share vs A ^ j * vs.length.choose j) :=
          mul_le_mul_of_nonneg_left hr' (by positivity)
      _ = _ := by ring

end GoMetrics.Estimate
