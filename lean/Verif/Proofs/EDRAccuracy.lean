import Verif.Proofs.EDRFloat
import Verif.Proofs.StatError
import Mathlib.Analysis.Complex.ExponentialBounds
/-! # The weights of a decaying reservoir in binary64: proofs -/
namespace GoMetrics
open Rounding

/-- Rounding a non-negative number. -/
theorem rnd_near {q : ℚ} (h0 : 0 ≤ q) (h1 : q ≤ 2 ^ (1000 : Int)) :
    ∃ r, binary64.rnd q = .fin r ∧ 0 ≤ r ∧ |r - q| ≤ 2 ^ (-53 : Int) * q + 2 ^ (-1075 : Int) := by
  have hη := two_zpow_pos (-1075)
  rcases h0.eq_or_lt with rfl | hpos
  · refine ⟨0, binary64_lawful.zero, le_rfl, ?_⟩
    rw [sub_zero, abs_zero, mul_zero, zero_add]; exact hη.le
  have hb1 : (2 : ℚ) ^ (-1000 : Int) ≤ 2 ^ (1000 : Int) := zpow_le_zpow_right₀ (by norm_num) (by norm_num)
  obtain ⟨r, e, -⟩ := rnd_err (q := q) (B := 2 ^ (1000 : Int)) (by rw [abs_of_pos hpos]; exact h1) hb1 le_rfl
  have hr : r = roundPos q := by
    rw [binary64_pos hpos] at e
    split at e
    · simp at e
    · exact (F64.fin.inj e).symm
  refine ⟨r, e, ?_, ?_⟩
  · have := F64.nonNeg_rnd binary64_lawful h0
    rw [e] at this
    simpa [F64.NonNeg, F64.lt] using this
  · rw [hr]
    refine (roundPos_err hpos).trans (max_le ?_ ?_)
    · linarith
    · have : 0 ≤ (2 : ℚ) ^ (-53 : Int) * q := mul_nonneg (by positivity) h0
      linarith

theorem exp_600 : Real.exp 600 ≤ 2 ^ (870 : Int) := by
  have h1 : Real.exp 1 ≤ 2.72 := Real.exp_one_lt_d9.le.trans (by norm_num)
  have h2 : Real.exp 20 ≤ 2 ^ 29 := by
    have : Real.exp 20 = Real.exp 1 ^ 20 := by rw [← Real.exp_nat_mul]; norm_num
    rw [this]
    exact (pow_le_pow_left₀ (Real.exp_pos 1).le h1 20).trans (by norm_num)
  have h3 : Real.exp 600 = Real.exp 20 ^ 30 := by rw [← Real.exp_nat_mul]; norm_num
  rw [h3]
  have h4 : ((2 : ℝ) ^ 29) ^ 30 = 2 ^ (870 : Int) := by
    rw [← pow_mul, show (870 : Int) = ((29 * 30 : ℕ) : Int) by norm_num, zpow_natCast]
  rw [← h4]
  exact pow_le_pow_left₀ (Real.exp_pos 20).le h2 30

namespace EDR
variable {A : Arith}

/-- `exp(a t)` as the code computes it. -/
theorem weight_good (hR : A.R = binary64) (hE : GoodExp A.exp) {a : ℚ} {t : Int} (ht : InI64 t) (h : |a * t| ≤ 600) :
    ∃ y : ℚ, weight A (.fin a) t = .fin y ∧ |(y : ℝ) - Real.exp (a * t)| ≤ 2 ^ (-41 : Int) * Real.exp (a * t) := by
  have hu0 := hulp_pos
  have hus := hulp_small
  obtain ⟨d, hd, ed⟩ := ofInt_rel (n := t) (by unfold InI64 at ht; rw [abs_le]; norm_num; omega)
  have h1 : |a * (t * (1 + d)) - a * t| ≤ 600 * hulp := by
    rw [show a * (t * (1 + d)) - a * t = (a * t) * d by ring, abs_mul]
    exact mul_le_mul h hd (abs_nonneg _) (by norm_num)
  have h2 : |a * (t * (1 + d))| ≤ 601 := by
    have := abs_sub_abs_le_abs_sub (a * (t * (1 + d))) (a * t)
    have : (600 : ℚ) * hulp ≤ 1 := by linarith
    linarith
  obtain ⟨x, ex, hx⟩ := rnd_err' (B := 601) h2 (le_trans (zpow_le_zpow_right₀ (by norm_num) (by norm_num : (-200 : Int) ≤ 0)) (by norm_num))
    (le_trans (b := 2 ^ (10 : Int)) (by norm_num) (zpow_le_zpow_right₀ (by norm_num) (by norm_num)))
  have hx1 : |x - a * t| ≤ 1201 * hulp := by
    have e : x - a * t = (x - a * (t * (1 + d))) + (a * (t * (1 + d)) - a * t) := by ring
    rw [e]
    refine (abs_add_le _ _).trans ?_
    have : (2 : ℚ) ^ (-53 : Int) = hulp := by unfold hulp; norm_num
    rw [this] at hx
    linarith
  have hx2 : |x| ≤ 650 := by
    have := abs_sub_abs_le_abs_sub x (a * t)
    linarith
  obtain ⟨y, ey, hy⟩ := hE x (binary64_lawful.idem _ _ ex) hx2
  refine ⟨y, ?_, ?_⟩
  · unfold weight
    rw [hR, ed]
    show A.exp (binary64.rnd (a * (t * (1 + d)))) = _
    rw [ex, ey]
  · have hxr : |(x : ℝ) - a * t| ≤ 1201 * 2 ^ (-53 : Int) := by
      have : ((|x - a * t| : ℚ) : ℝ) ≤ ((1201 * hulp : ℚ) : ℝ) := by exact_mod_cast hx1
      unfold hulp at this
      push_cast at this
      norm_num at this ⊢
      exact this
    set D : ℝ := x - a * t with hD
    have hexp : Real.exp x = Real.exp (a * t) * Real.exp D := by rw [← Real.exp_add]; congr 1; rw [hD]; ring
    have hP := Real.exp_pos ((a : ℝ) * t)
    have hDs : |D| ≤ 1 := hxr.trans (by norm_num)
    have h3 := Real.abs_exp_sub_one_le hDs
    have h4 : |Real.exp D - 1| ≤ 2402 * 2 ^ (-53 : Int) := by linarith
    rw [hexp] at hy
    generalize Real.exp ((a : ℝ) * t) = P at *
    generalize Real.exp D = Q at *
    have e : (y : ℝ) - P = (y - P * Q) + P * (Q - 1) := by ring
    rw [e]
    refine (abs_add_le _ _).trans ?_
    rw [abs_mul, abs_of_pos hP]
    have h5 : P * |Q - 1| ≤ P * (2402 * 2 ^ (-53 : Int)) := mul_le_mul_of_nonneg_left h4 hP.le
    have hQ : Q ≤ 2 := by
      have := (abs_le.1 h4).2
      have : (2402 : ℝ) * 2 ^ (-53 : Int) ≤ 1 := by norm_num
      linarith
    have h6 : (2 : ℝ) ^ (-52 : Int) * (P * Q) ≤ 2 ^ (-52 : Int) * (P * 2) := mul_le_mul_of_nonneg_left (mul_le_mul_of_nonneg_left hQ hP.le) (by positivity)
    refine (add_le_add (hy.trans h6) h5).trans ?_
    rw [show (2 : ℝ) ^ (-52 : Int) * (P * 2) + P * (2402 * 2 ^ (-53 : Int)) = (2406 * 2 ^ (-53 : Int)) * P by norm_num; ring]
    exact mul_le_mul_of_nonneg_right (by norm_num) hP.le

theorem exp_move (a t L L' : ℝ) : Real.exp (a * (t - L)) * Real.exp (-a * (L' - L)) = Real.exp (a * (t - L')) := by
  rw [← Real.exp_add]; congr 1; ring

theorem weight_cap {w W x y P : ℝ} (h : w - W ≤ x + y) (h1 : x ≤ W) (h2 : y ≤ 2 ^ 30 * (2 * 1)) (hW : W ≤ P) (hP : 1 ≤ P) : w ≤ 2 ^ (130 : Int) * P := by
  have h9 : (4294967296 : ℝ) ≤ 2 ^ (130 : Int) := by norm_num
  refine le_trans (b := (4294967296 : ℝ) * P) ?_ (mul_le_mul_of_nonneg_right h9 (by linarith))
  norm_num at h2
  linarith

/-- The numbers behind one rescale. -/
theorem scale_err {k w f r W F u η ε : ℝ} (hk : 0 ≤ k) (hW : 0 < W) (hF : 0 < F) (hf0 : 0 ≤ f) (hf1 : f ≤ 1) (hη : 0 ≤ η)
    (hε : 0 < ε) (hu : 0 ≤ u) (huε : u ≤ ε / 1024) (hkε : (k + 1) * ε ≤ 1 / 128) (hε1 : ε ≤ 1 / 1024) (hku : k * u ≤ 1 / 2)
    (hw : |w - W| ≤ (k + 1) * ε * W + k * (2 * η)) (hf : |f - F| ≤ ε / 2 * F) (hr : |r - w * f| ≤ u * (w * f) + η) :
    |r - W * F| ≤ (k + 1 + 1) * ε * (W * F) + (k + 1) * (2 * η) := by
  have hWF : 0 < W * F := mul_pos hW hF
  have hfF : f ≤ (1 + ε / 2) * F := by
    have := (abs_le.1 hf).2; linarith
  have hc0 : 0 ≤ (k + 1) * ε := by positivity
  have h1 : |w * f - W * F| ≤ ((k + 1) * ε * (1 + ε / 2) + ε / 2) * (W * F) + k * (2 * η) := by
    have e : w * f - W * F = (w - W) * f + W * (f - F) := by ring
    rw [e]
    refine (abs_add_le _ _).trans ?_
    rw [abs_mul, abs_mul, abs_of_nonneg hf0, abs_of_pos hW]
    have a1 : |w - W| * f ≤ ((k + 1) * ε * W + k * (2 * η)) * f := mul_le_mul_of_nonneg_right hw hf0
    have a2 : (k + 1) * ε * W * f ≤ (k + 1) * ε * W * ((1 + ε / 2) * F) := mul_le_mul_of_nonneg_left hfF (by positivity)
    have a3 : k * (2 * η) * f ≤ k * (2 * η) := mul_le_of_le_one_right (by positivity) hf1
    have a4 : W * |f - F| ≤ W * (ε / 2 * F) := mul_le_mul_of_nonneg_left hf hW.le
    nlinarith
  have h2 : w * f ≤ (1 + ((k + 1) * ε * (1 + ε / 2) + ε / 2)) * (W * F) + k * (2 * η) := by
    have := (abs_le.1 h1).2; linarith
  generalize hc : (k + 1) * ε = c at *
  have hcc : c * (1 + ε / 2) + ε / 2 ≤ c + ε * (1 / 2 + 1 / 256) := by nlinarith
  have hsm : c + ε * (1 / 2 + 1 / 256) ≤ 1 := by linarith
  have h3 : |r - W * F| ≤ u * (w * f) + η + |w * f - W * F| := by
    have e : r - W * F = (r - w * f) + (w * f - W * F) := by ring
    rw [e]
    exact (abs_add_le _ _).trans (by linarith)
  have h4 : u * (w * f) ≤ u * (2 * (W * F) + k * (2 * η)) := by
    apply mul_le_mul_of_nonneg_left _ hu
    refine h2.trans ?_
    have : (1 + (c * (1 + ε / 2) + ε / 2)) * (W * F) ≤ 2 * (W * F) := mul_le_mul_of_nonneg_right (by linarith) hWF.le
    linarith
  have h5 : u * (2 * (W * F)) ≤ ε / 1024 * (2 * (W * F)) := mul_le_mul_of_nonneg_right huε (by positivity)
  have h6 : u * (k * (2 * η)) ≤ η := by
    have : k * u * (2 * η) ≤ 1 / 2 * (2 * η) := mul_le_mul_of_nonneg_right hku (by positivity)
    linarith
  have h7 : (c * (1 + ε / 2) + ε / 2) * (W * F) ≤ (c + ε * (1 / 2 + 1 / 256)) * (W * F) := mul_le_mul_of_nonneg_right hcc hWF.le
  have h8 : (k + 1 + 1) * ε * (W * F) = (c + ε) * (W * F) := by rw [← hc]; ring
  rw [h8]
  have h9 : 0 ≤ ε * (W * F) := by positivity
  nlinarith

/-- `Near`, with what is needed to go on. -/
def Good (a : ℚ) (L : Int) (k : ℕ) (s : WeightedSample) (e : Rec) : Prop := Near a L k s e ∧ a * (e.ts - L) ≤ 600

theorem two_eta : (2 : ℝ) ^ (-1074 : Int) = 2 * 2 ^ (-1075 : Int) := by
  rw [show (-1074 : Int) = 1 + -1075 by norm_num, zpow_add₀ (by norm_num), zpow_one]

theorem good_scale (hR : A.R = binary64) (hA : A.Lawful) (hE : GoodExp A.exp) {a : ℚ} (ha : 0 ≤ a) {L L' : Int} (hL : L ≤ L') (hi : InI64 (L' - L))
    (hd : a * (L' - L) ≤ 600) {k : ℕ} (hk : k ≤ 2 ^ 30) {f : F64} (hf : scalingFactor A (.fin a) L L' = f) {s : WeightedSample} {e : Rec}
    (h : Good a L k s e) : Good a L' (k + 1) (scale A f s) e := by
  obtain ⟨⟨hv, w, hw, hw0, herr⟩, htop⟩ := h
  have hLq : (0 : ℚ) ≤ ((L' - L : Int) : ℚ) := by exact_mod_cast (by omega : 0 ≤ L' - L)
  have hLq' : (0 : ℚ) ≤ (L' : ℚ) - L := by push_cast at hLq; exact hLq
  obtain ⟨y, ey, hy⟩ := weight_good hR hE (a := -a) hi (by
    rw [abs_le]; push_cast; constructor
    · linarith
    · have : 0 ≤ a * ((L' : ℚ) - L) := mul_nonneg ha hLq'
      linarith)
  have hfy : f = .fin y := by
    rw [← hf, ← ey]
    unfold scalingFactor weight
    rw [i64_of_in hi]
    rfl
  have hy0 : 0 ≤ y := by
    have : F64.NonNeg (A.exp _) := hA.nonneg (F64.mul A.R (.fin (-a)) (F64.ofInt A.R (L' - L)))
    unfold weight at ey
    rw [ey] at this
    simpa [F64.NonNeg, F64.lt] using this
  have hy1 : y ≤ 1 := by
    have h0 : F64.le (F64.mul A.R (.fin (-a)) (F64.ofInt A.R (L' - L))) (.fin 0) := by
      obtain ⟨v, hv⟩ := hA.ints _ hi
      have hv0 : 0 ≤ v := by
        have := hA.rnd.mono 0 _ hLq
        rw [hA.rnd.zero] at this
        unfold F64.ofInt at hv
        rw [hv] at this
        exact this
      rw [hv]
      have := hA.rnd.mono (-a * v) 0 (by nlinarith)
      rw [hA.rnd.zero] at this
      exact this
    have := hA.le_one _ h0
    unfold weight at ey
    rw [ey] at this
    exact this
  have hη := two_zpow_pos (-1075)
  have hk0 : (k : ℝ) ≤ 2 ^ 30 := by exact_mod_cast hk
  have htopR : Real.exp (a * (e.ts - L)) ≤ 2 ^ (870 : Int) := by
    refine le_trans (Real.exp_le_exp.2 ?_) exp_600
    exact_mod_cast htop
  have hηR : (0 : ℝ) < 2 ^ (-1075 : Int) := by positivity
  have hη1 : (2 : ℝ) ^ (-1075 : Int) ≤ 1 := zpow_le_one_of_nonpos₀ (by norm_num) (by norm_num)
  have hwf : w * y ≤ 2 ^ (1000 : Int) := by
    have h1 : w * y ≤ w := mul_le_of_le_one_right hw0 hy1
    refine h1.trans ?_
    have h2 : (w : ℝ) ≤ 2 ^ (1000 : Int) := by
      have h3 := (abs_le.1 herr).2
      rw [two_eta] at h3
      have h4 : ((k : ℝ) + 1) * 2 ^ (-40 : Int) ≤ 1 := by
        have : ((k : ℝ) + 1) * 2 ^ (-40 : Int) ≤ (2 ^ 30 + 1) * 2 ^ (-40 : Int) := mul_le_mul_of_nonneg_right (by linarith) (by positivity)
        refine this.trans (by norm_num)
      have h5 : ((k : ℝ) + 1) * 2 ^ (-40 : Int) * Real.exp (a * (e.ts - L)) ≤ 1 * Real.exp (a * (e.ts - L)) := mul_le_mul_of_nonneg_right h4 (Real.exp_pos _).le
      have h6 : (k : ℝ) * (2 * 2 ^ (-1075 : Int)) ≤ 2 ^ 30 * (2 * 1) := mul_le_mul hk0 (by linarith) (by positivity) (by positivity)
      have h7 : (2 : ℝ) ^ (1000 : Int) = 2 ^ (130 : Int) * 2 ^ (870 : Int) := by rw [← zpow_add₀ (by norm_num)]; norm_num
      have h8 : (1 : ℝ) ≤ 2 ^ (870 : Int) := one_le_zpow₀ (by norm_num) (by norm_num)
      rw [h7]
      exact weight_cap h3 (by rw [one_mul] at h5; exact h5) h6 htopR h8
    refine (Rat.cast_le (K := ℝ)).1 ?_
    rw [Rat.cast_zpow, Rat.cast_ofNat]
    exact h2
  obtain ⟨r, er, hr0, hr⟩ := rnd_near (mul_nonneg hw0 hy0) hwf
  have hF : Real.exp (a * (e.ts - L)) * Real.exp (-a * ((L' : ℝ) - L)) = Real.exp (a * (e.ts - L')) := exp_move _ _ _ _
  refine ⟨⟨hv, r, ?_, hr0, ?_⟩, ?_⟩
  · show F64.mul A.R s.weight f = _
    rw [hR, hw, hfy]
    exact er
  · rw [two_eta] at herr ⊢
    rw [← hF]
    push_cast at hy
    have hrR : |(r : ℝ) - w * y| ≤ 2 ^ (-53 : Int) * (w * y) + 2 ^ (-1075 : Int) := by
      have := (Rat.cast_le (K := ℝ)).2 hr
      simp only [Rat.cast_abs, Rat.cast_sub, Rat.cast_add, Rat.cast_mul, Rat.cast_zpow, Rat.cast_ofNat] at this
      exact this
    have := scale_err (k := k) (w := w) (f := y) (r := r) (W := Real.exp (a * (e.ts - L))) (F := Real.exp (-a * ((L' : ℝ) - L)))
      (u := 2 ^ (-53 : Int)) (η := 2 ^ (-1075 : Int)) (ε := 2 ^ (-40 : Int)) (by positivity) (Real.exp_pos _) (Real.exp_pos _)
      (by exact_mod_cast hy0) (by exact_mod_cast hy1) hηR.le (by positivity) (by positivity) (by norm_num)
      (by
        have : ((k : ℝ) + 1) * 2 ^ (-40 : Int) ≤ (2 ^ 30 + 1) * 2 ^ (-40 : Int) := mul_le_mul_of_nonneg_right (by linarith) (by positivity)
        refine this.trans (by norm_num)) (by norm_num)
      (by
        have : (k : ℝ) * 2 ^ (-53 : Int) ≤ 2 ^ 30 * 2 ^ (-53 : Int) := mul_le_mul_of_nonneg_right hk0 (by positivity)
        refine this.trans (by norm_num)) herr
      (by
        rw [show (2 : ℝ) ^ (-40 : Int) / 2 = 2 ^ (-41 : Int) by norm_num]
        exact hy) hrR
    push_cast
    exact this
  · have : 0 ≤ a * ((L' : ℚ) - L) := mul_nonneg ha hLq'
    linarith

theorem good_new (hR : A.R = binary64) (hA : A.Lawful) (hE : GoodExp A.exp) {a : ℚ} {L ts : Int} (hi : InI64 (ts - L)) (hd : |a * (ts - L)| ≤ 600)
    (k : ℕ) (s : WeightedSample) (e : Rec) (hv : s.value = e.value) (hts : e.ts = ts) (hw : s.weight = weight A (.fin a) (ts - L)) : Good a L k s e := by
  obtain ⟨y, ey, hy⟩ := weight_good hR hE (a := a) hi (by push_cast; exact hd)
  refine ⟨⟨hv, y, hw.trans ey, ?_, ?_⟩, ?_⟩
  · have : F64.NonNeg (A.exp _) := hA.nonneg (F64.mul A.R (.fin a) (F64.ofInt A.R (ts - L)))
    unfold weight at ey
    rw [ey] at this
    simpa [F64.NonNeg, F64.lt] using this
  · rw [hts]
    push_cast at hy
    refine hy.trans ?_
    have h1 := Real.exp_pos ((a : ℝ) * (ts - L))
    have h2 : (2 : ℝ) ^ (-41 : Int) ≤ (k + 1) * 2 ^ (-40 : Int) := by
      have : (1 : ℝ) * 2 ^ (-40 : Int) ≤ (k + 1) * 2 ^ (-40 : Int) := mul_le_mul_of_nonneg_right (by linarith [Nat.cast_nonneg (α := ℝ) k]) (by positivity)
      refine le_trans (by norm_num) this
    have h3 := mul_le_mul_of_nonneg_right h2 h1.le
    have h4 : 0 ≤ (k : ℝ) * 2 ^ (-1074 : Int) := by positivity
    linarith
  · rw [hts]; exact (abs_le.1 hd).2

/-! ## Samples and updates -/

/-- Every sample belongs to its own update. -/
def Matched (a : ℚ) (L : Int) (k : ℕ) (values : List WeightedSample) (all : List Rec) : Prop :=
  ∃ l : List (WeightedSample × Rec), values = l.map Prod.fst ∧ (l.map Prod.snd).Subperm all ∧ ∀ p ∈ l, Good a L k p.1 p.2

theorem Matched.sublist {a : ℚ} {L : Int} {k : ℕ} {values values' : List WeightedSample} {all : List Rec} (h : Matched a L k values all)
    (hs : values'.Sublist values) : Matched a L k values' all := by
  obtain ⟨l, rfl, h2, h3⟩ := h
  obtain ⟨l', hl, rfl⟩ := List.sublist_map_iff.1 hs
  exact ⟨l', rfl, (hl.map _).subperm.trans h2, fun p hp => h3 p (hl.subset hp)⟩

theorem Matched.more {a : ℚ} {L : Int} {k : ℕ} {values : List WeightedSample} {all : List Rec} (h : Matched a L k values all) (e : Rec) :
    Matched a L k values (all ++ [e]) := by
  obtain ⟨l, h1, h2, h3⟩ := h
  exact ⟨l, h1, h2.trans (List.sublist_append_left _ _).subperm, h3⟩

theorem Matched.add {a : ℚ} {L : Int} {k : ℕ} {pre post : List WeightedSample} {all : List Rec} (h : Matched a L k (pre ++ post) all) {s : WeightedSample} {e : Rec}
    (hs : Good a L k s e) : Matched a L k (pre ++ s :: post) (all ++ [e]) := by
  obtain ⟨l, h1, h2, h3⟩ := h
  obtain ⟨l1, l2, rfl, rfl, rfl⟩ := List.append_eq_map_iff.1 h1
  refine ⟨l1 ++ (s, e) :: l2, by simp, ?_, ?_⟩
  · simp only [List.map_append, List.map_cons] at h2 ⊢
    have h4 : (l1.map Prod.snd ++ e :: l2.map Prod.snd).Perm ((l1.map Prod.snd ++ l2.map Prod.snd) ++ [e]) :=
      List.perm_middle.trans (List.perm_append_comm (l₁ := [e]) (l₂ := _))
    exact h4.subperm.trans ((List.subperm_append_right [e]).2 h2)
  · intro p hp
    rcases List.mem_append.1 hp with hp | hp
    · exact h3 p (by simp [hp])
    · rcases List.mem_cons.1 hp with rfl | hp
      · exact hs
      · exact h3 p (by simp [hp])

theorem insert_form (s : WeightedSample) (l : SkipList) : ∃ pre post, SkipList.insert s l = pre ++ s :: post ∧ (pre ++ post).Sublist l := by
  induction l with
  | nil => exact ⟨[], [], rfl, List.Sublist.refl _⟩
  | cons x t ih =>
    unfold SkipList.insert
    split
    · obtain ⟨pre, post, h1, h2⟩ := ih
      exact ⟨x :: pre, post, by rw [h1]; rfl, h2.cons_cons x⟩
    · split
      · exact ⟨[], t, rfl, List.sublist_cons_self _ _⟩
      · exact ⟨[], x :: t, rfl, List.Sublist.refl _⟩

theorem overwrite_form (s : WeightedSample) (l : SkipList) : SkipList.overwrite s l = l ∨
    ∃ pre x post, SkipList.overwrite s l = pre ++ x :: post ∧ x.value = s.value ∧ x.weight = s.weight ∧ (pre ++ post).Sublist l := by
  induction l with
  | nil => exact Or.inl rfl
  | cons y t ih =>
    unfold SkipList.overwrite
    split
    · rcases ih with h | ⟨pre, x, post, h1, h2, h3, h4⟩
      · exact Or.inl (by rw [h])
      · exact Or.inr ⟨y :: pre, x, post, by rw [h1]; rfl, h2, h3, h4.cons_cons y⟩
    · split
      · exact Or.inr ⟨[], { y with value := s.value, weight := s.weight }, t, rfl, rfl, rfl, List.sublist_cons_self _ _⟩
      · exact Or.inl rfl

theorem matched_record {a : ℚ} {k : ℕ} {r : EDR} {all : List Rec} {L : Int} (h : Matched a L k r.values all) {prio w : F64} {value : Int} {e : Rec}
    (hg : ∀ key, Good a L k ⟨key, value, w⟩ e) : Matched a L k (record r prio value w).state.values (all ++ [e]) := by
  have hins : ∀ l : SkipList, l.Sublist r.values → Matched a L k (SkipList.insert ⟨prio, value, w⟩ l) (all ++ [e]) := by
    intro l hl
    obtain ⟨pre, post, h1, h2⟩ := insert_form ⟨prio, value, w⟩ l
    rw [h1]
    exact (h.sublist (h2.trans hl)).add (hg prio)
  unfold record
  simp only
  split
  · exact hins _ (List.Sublist.refl _)
  · split
    · exact h.more e
    · split
      · exact h.more e
      · split
        · show Matched a L k (SkipList.overwrite ⟨prio, value, w⟩ r.values) _
          rcases overwrite_form ⟨prio, value, w⟩ r.values with h1 | ⟨pre, x, post, h1, h2, h3, h4⟩
          · rw [h1]; exact h.more e
          · rw [h1]
            have hx : x = ⟨x.key, value, w⟩ := by cases x; simp only at h2 h3; rw [h2, h3]
            rw [hx]
            exact (h.sublist h4).add (hg x.key)
        · exact hins _ (SkipList.delete_sublist _ _)

theorem matched_rescale (hR : A.R = binary64) (hA : A.Lawful) (hE : GoodExp A.exp) {a : ℚ} (ha : 0 ≤ a) {r : EDR} {n : Int} (hB : InvB r n)
    (hh : KeysHeld A r.values) (hal : r.alpha = .fin a) {k : ℕ} (hk : k ≤ 2 ^ 30) {all : List Rec} (h : Matched a r.startTime k r.values all) {time : Int}
    (hL : r.startTime ≤ currentTimeInSecond time) (hi : InI64 (currentTimeInSecond time - r.startTime))
    (hd : a * ((currentTimeInSecond time : ℚ) - r.startTime) ≤ 600) :
    Matched a (currentTimeInSecond time) (k + 1) (rescaleLocked A r time).values all := by
  have hLq : (0 : ℚ) ≤ (currentTimeInSecond time : ℚ) - r.startTime := by
    have : (0 : ℚ) ≤ ((currentTimeInSecond time - r.startTime : Int) : ℚ) := by exact_mod_cast (by omega)
    push_cast at this; exact this
  obtain ⟨y, ey, hy⟩ := weight_good hR hE (a := -a) hi (by
    rw [abs_le]; push_cast; constructor
    · linarith
    · have := mul_nonneg ha hLq
      linarith)
  have hfac : scalingFactor A r.alpha r.startTime (currentTimeInSecond time) = .fin y := by
    rw [← ey, hal]
    unfold scalingFactor weight
    rw [i64_of_in hi]
    rfl
  have hy0 : 0 < y := by
    have h1 := (abs_le.1 hy).1
    have h2 := Real.exp_pos (((-a : ℚ) : ℝ) * ((currentTimeInSecond time - r.startTime : Int) : ℝ))
    clear hfac hE hd hi hLq
    have h3 : (2 : ℝ) ^ (-41 : Int) ≤ 1 / 2 := by norm_num
    have h4 := mul_le_mul_of_nonneg_right h3 h2.le
    generalize Real.exp (((-a : ℚ) : ℝ) * ((currentTimeInSecond time - r.startTime : Int) : ℝ)) = P at *
    generalize (2 : ℝ) ^ (-41 : Int) = c at *
    have : (0 : ℝ) < y := by linarith
    exact_mod_cast this
  have hy1 : y ≤ 1 := by
    have h0 : F64.le (F64.mul A.R (.fin (-a)) (F64.ofInt A.R (currentTimeInSecond time - r.startTime))) (.fin 0) := by
      obtain ⟨v, hv⟩ := hA.ints _ hi
      have hv0 : 0 ≤ v := by
        have := hA.rnd.mono 0 ((currentTimeInSecond time - r.startTime : Int) : ℚ) (by push_cast; exact hLq)
        rw [hA.rnd.zero] at this
        unfold F64.ofInt at hv
        rw [hv] at this
        exact this
      rw [hv]
      have := hA.rnd.mono (-a * v) 0 (by nlinarith)
      rw [hA.rnd.zero] at this
      exact this
    have := hA.le_one _ h0
    unfold weight at ey
    rw [ey] at this
    exact this
  rw [rescaleLocked_collapse hA hB hh time hfac hy0 hy1]
  refine Matched.sublist (values := r.values.map (scale A (.fin y))) ?_ (collapse_sublist _)
  obtain ⟨l, h1, h2, h3⟩ := h
  refine ⟨l.map fun p => (scale A (.fin y) p.1, p.2), ?_, ?_, ?_⟩
  · rw [h1, List.map_map, List.map_map]; rfl
  · rw [List.map_map]; exact h2
  · intro p hp
    obtain ⟨q, hq, rfl⟩ := List.mem_map.1 hp
    exact good_scale hR hA hE ha hL hi hd hk (by rw [← hal]; exact hfac) (h3 q hq)

end EDR
end GoMetrics
