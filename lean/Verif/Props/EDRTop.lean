import Verif.Proofs.EDRChance
import Verif.Props.EDRAccuracy
import Verif.Props.EDRDecay
/-! # C115: what a decaying reservoir keeps in its first hour, in float64 -/
namespace GoMetrics
open Rounding
namespace EDR
open Marginals

/-- **C115.** Whatever the rounding and `math.Exp` (as far as they are lawful), until an hour of ticks after the creation: if no two updates get the same priority, the samples held are the `size`
updates with the highest priorities - as the program computes them -, and `Size()` is their number. -/
theorem _root_.GoMetrics.C115_top (A : Arith) (hA : A.Lawful) (size : Int) (hsz : 1 ≤ size) (alpha : F64) (time tick : Int) (h : List Op) (ht : InI64 time)
    (hτ : InI64 (tick + 3600000000000)) (hr : ∀ t ∈ readings h, InI64 t) (hticks : ∀ x ∈ ticks h, x < tick + 3600000000000) (hu : ∀ u ∈ draws h, IsDraw u)
    (hd : Distinct (samples A alpha (time.tdiv 1000) h)) (hn : (h.length : Int) < 9223372036854775808) :
    Highest size (samples A alpha (time.tdiv 1000) h) (run A (new size alpha time tick) h).getValues ∧
      (run A (new size alpha time tick) h).getSize = min ((samples A alpha (time.tdiv 1000) h).length : Int) size := by
  have hu' : ∀ u ∈ draws h, F64.NonNeg u := by
    intro u hm
    obtain ⟨q, rfl, h0, -⟩ := hu u hm
    exact F64.nonNeg_fin h0
  have hnew : Ranked size (new size alpha time tick) [] :=
    ⟨rfl, ⟨by simp [new], by simp [new]; omega, [], by simp [new], by simp⟩, by simp [new], by simp [new]⟩
  have key := ranked_run hA hsz alpha time (tick + 3600000000000) ht h _ [] hnew rfl rfl (i64_of_in hτ) (by intro s hs; simp at hs) hr hticks hu' (by simpa using hd) (by simpa using hn)
  rw [List.nil_append] at key
  have hv : (run A (new size alpha time tick) h).getValues = (run A (new size alpha time tick) h).values :=
    getValues_eq fun s hs => nonNeg_samples hA alpha _ h hu' s (key.held.mem hs)
  rw [hv]
  refine ⟨key.held, ?_⟩
  unfold getSize
  have h1 := key.size
  have h2 := key.count
  split <;> omega

/-- The priority of the `m`-th update with the draws `us`. -/
def prioOf (A : Arith) (alpha : F64) (time : Int) (h : List Op) (us : Fin (recorded h).length → ℚ) (m : Fin (recorded h).length) : F64 :=
  (sampleOf A alpha (time.tdiv 1000) ((seconds h)[m]'(by rw [length_seconds]; exact m.2)) (.fin (us m)) (recorded h)[m]).key

section
variable (A : Arith) (hA : A.Lawful) (size : Int) (hsz : 1 ≤ size) (alpha : F64) (time tick : Int) (h : List Op) (ht : InI64 time)
  (hτ : InI64 (tick + 3600000000000)) (hr : ∀ t ∈ readings h, InI64 t) (hticks : ∀ x ∈ ticks h, x < tick + 3600000000000) (hv : (recorded h).Nodup)
  (hn : (h.length : Int) < 9223372036854775808)

include hA hsz ht hτ hr hticks hv hn

/-- **C115.** So with draws that lead to no ties a value is held exactly if fewer than `size` updates have a higher priority. -/
theorem _root_.GoMetrics.C115_held (us : Fin (recorded h).length → ℚ) (h0 : ∀ m, 0 ≤ us m ∧ us m < 1)
    (hd : ∀ m m', m ≠ m' → (prioOf A alpha time h us m).lt (prioOf A alpha time h us m') ∨ (prioOf A alpha time h us m').lt (prioOf A alpha time h us m))
    (i : Fin (recorded h).length) :
    (recorded h)[i] ∈ holding A size alpha time tick (redraw h (List.ofFn us)) ↔
      ((Finset.univ.filter fun m => (prioOf A alpha time h us i).lt (prioOf A alpha time h us m)).card : Int) < size := by
  have hs := samples_ofFn A alpha (time.tdiv 1000) h us
  have hk := (C115_top A hA size hsz alpha time tick (redraw h (List.ofFn us)) ht hτ (by rw [readings_redraw]; exact hr) (by rw [ticks_redraw]; exact hticks)
    (by
      rw [draws_redraw h _ (by simp)]
      intro u hu
      obtain ⟨q, hq, rfl⟩ := List.mem_map.1 hu
      obtain ⟨m, rfl⟩ := List.mem_ofFn.1 hq
      exact ⟨_, rfl, h0 m⟩)
    (by rw [hs]; exact distinct_ofFn hd) (by rw [length_redraw]; exact hn)).1
  set e : WeightedSample := sampleOf A alpha (time.tdiv 1000) ((seconds h)[i]'(by rw [length_seconds]; exact i.2)) (.fin (us i)) (recorded h)[i] with he
  have hmem : e ∈ samples A alpha (time.tdiv 1000) (redraw h (List.ofFn us)) := by rw [hs]; exact List.mem_ofFn.2 ⟨i, rfl⟩
  have h1 : (recorded h)[i] ∈ holding A size alpha time tick (redraw h (List.ofFn us)) ↔ e ∈ (run A (new size alpha time tick) (redraw h (List.ofFn us))).getValues := by
    unfold holding
    constructor
    · intro g
      obtain ⟨d, hd', hdv⟩ := List.mem_map.1 g
      have hd2 := hk.mem hd'
      rw [hs] at hd2
      obtain ⟨m, rfl⟩ := List.mem_ofFn.1 hd2
      have : m = i := Fin.ext ((List.Nodup.getElem_inj_iff hv).1 hdv)
      subst this
      exact hd'
    · intro g; exact List.mem_map.2 ⟨e, g, rfl⟩
  rw [h1, hk.mem_iff hmem, hs, countP_ofFn]
  simp only [decide_eq_true_eq]
  exact Iff.rfl
end

/-! ## The chances in binary64 -/

theorem hulp_eq : hulp = 1 / 9007199254740992 := by norm_num [hulp]

theorem key_bounds {y : ℚ} (h0 : 2 ^ (-871 : Int) ≤ y) (h1 : y ≤ 2 ^ (871 : Int)) {p : Nat} (hp : 0 < p) (hp' : p < 9007199254740992) :
    ∃ r : ℚ, F64.div binary64 (.fin y) (.fin ((p : ℚ) / 9007199254740992)) = .fin r ∧
      y * 9007199254740992 * (1 - hulp) ≤ r * p ∧ r * p ≤ y * 9007199254740992 * (1 + hulp) := by
  have hpq : (0 : ℚ) < p := by exact_mod_cast hp
  have hpq' : (p : ℚ) ≤ 9007199254740992 := by exact_mod_cast hp'.le
  have hp1 : (1 : ℚ) ≤ p := by exact_mod_cast hp
  have hne : (p : ℚ) / 9007199254740992 ≠ 0 := by positivity
  have hy : 0 < y := lt_of_lt_of_le (two_zpow_pos _) h0
  have e : y / ((p : ℚ) / 9007199254740992) = y * 9007199254740992 / p := by field_simp
  have g1 : (2 : ℚ) ^ (-1000 : Int) ≤ y * 9007199254740992 / p := by
    rw [le_div_iff₀ hpq]
    have q1 : (2 : ℚ) ^ (-1000 : Int) ≤ 2 ^ (-871 : Int) := zpow_le_zpow_right₀ (by norm_num) (by norm_num)
    exact mul_le_mul (q1.trans h0) hpq' hpq.le hy.le
  have g2 : y * 9007199254740992 / p ≤ (2 : ℚ) ^ (1000 : Int) := by
    rw [div_le_iff₀ hpq]
    have q1 : (2 : ℚ) ^ (871 : Int) * 9007199254740992 ≤ 2 ^ (1000 : Int) := by
      have : (9007199254740992 : ℚ) = 2 ^ (53 : Int) := by norm_num
      rw [this, ← zpow_add₀ (by norm_num)]
      exact zpow_le_zpow_right₀ (by norm_num) (by norm_num)
    have q2 : (0 : ℚ) ≤ (2 : ℚ) ^ (1000 : Int) := by positivity
    calc y * 9007199254740992 ≤ (2 : ℚ) ^ (871 : Int) * 9007199254740992 := mul_le_mul_of_nonneg_right h1 (by norm_num)
      _ ≤ 2 ^ (1000 : Int) := q1
      _ = 2 ^ (1000 : Int) * 1 := (mul_one _).symm
      _ ≤ _ := mul_le_mul_of_nonneg_left hp1 q2
  obtain ⟨r, hr, l, u⟩ := rnd_normal g1 g2
  refine ⟨r, ?_, ?_, ?_⟩
  · simp only [F64.div, if_neg hne]; rw [e]; exact hr
  · rw [div_mul_eq_mul_div, div_le_iff₀ hpq] at l; exact l
  · rw [div_mul_eq_mul_div, le_div_iff₀ hpq] at u; exact u

/-- A priority that is not below another one, in terms of weights and draws. -/
theorem key_not_lt {y z : ℚ} (hy : 2 ^ (-871 : Int) ≤ y ∧ y ≤ 2 ^ (871 : Int)) (hz : 2 ^ (-871 : Int) ≤ z ∧ z ≤ 2 ^ (871 : Int)) {p q : Nat} (hp : 0 < p) (hp' : p < 9007199254740992)
    (hq : 0 < q) (hq' : q < 9007199254740992)
    (hlt : ¬ (F64.div binary64 (.fin y) (.fin ((p : ℚ) / 9007199254740992))).lt (F64.div binary64 (.fin z) (.fin ((q : ℚ) / 9007199254740992)))) :
    z * p * (1 - hulp) ≤ y * q * (1 + hulp) := by
  obtain ⟨r, hr, -, u⟩ := key_bounds hy.1 hy.2 hp hp'
  obtain ⟨s, hs, l, -⟩ := key_bounds hz.1 hz.2 hq hq'
  rw [hr, hs] at hlt
  have hle : s ≤ r := not_lt.1 hlt
  have hpq : (0 : ℚ) < p := by exact_mod_cast hp
  have hqq : (0 : ℚ) < q := by exact_mod_cast hq
  have h1 : z * 9007199254740992 * (1 - hulp) * p ≤ y * 9007199254740992 * (1 + hulp) * q := by
    calc z * 9007199254740992 * (1 - hulp) * p ≤ s * q * p := mul_le_mul_of_nonneg_right l hpq.le
      _ ≤ r * q * p := mul_le_mul_of_nonneg_right (mul_le_mul_of_nonneg_right hle hqq.le) hpq.le
      _ = r * p * q := by ring
      _ ≤ _ := mul_le_mul_of_nonneg_right u hqq.le
  have h2 : (9007199254740992 : ℚ) * (z * p * (1 - hulp)) ≤ 9007199254740992 * (y * q * (1 + hulp)) := by linarith
  exact le_of_mul_le_mul_left h2 (by norm_num)

theorem near_few {y z : ℚ} (hz : 0 < z) {p p' q : Nat} (hp : p < 9007199254740992) (hp' : p' < 9007199254740992)
    (h1 : z * p' * (1 - hulp) ≤ y * q * (1 + hulp)) (h2 : y * q * (1 - hulp) ≤ z * p * (1 + hulp)) : p' ≤ p + 4 := by
  rw [hulp_eq] at h1 h2
  have hpq : (p : ℚ) ≤ 9007199254740992 := by exact_mod_cast hp.le
  have hpq' : (p' : ℚ) ≤ 9007199254740992 := by exact_mod_cast hp'.le
  have h0 : (0 : ℚ) ≤ p := by positivity
  have h3 : z * (p' * (1 - 1 / 9007199254740992) ^ 2) ≤ z * (p * (1 + 1 / 9007199254740992) ^ 2) := by
    have g1 := mul_le_mul_of_nonneg_right h1 (show (0 : ℚ) ≤ 1 - 1 / 9007199254740992 by norm_num)
    have g2 := mul_le_mul_of_nonneg_right h2 (show (0 : ℚ) ≤ 1 + 1 / 9007199254740992 by norm_num)
    linarith
  have h4 := le_of_mul_le_mul_left h3 hz
  have h5 : (p' : ℚ) < p + 5 := by
    norm_num at h4
    linarith
  have h6 : ((p' : Nat) : ℚ) < ((p + 5 : Nat) : ℚ) := by push_cast; exact h5
  have h7 : p' < p + 5 := by exact_mod_cast h6
  omega

/-- The draws on the grid. -/
def onGrid {n : Nat} (us : Fin n → Fin 9007199254740992) (m : Fin n) : ℚ := ((us m : Nat) : ℚ) / 9007199254740992

/-- A draw is zero, or two updates get the same priority. -/
def OddF (A : Arith) (a : ℚ) (time : Int) (h : List Op) (us : Fin (recorded h).length → Fin 9007199254740992) : Prop :=
  (∃ m, (us m : Nat) = 0) ∨ ∃ m m', m ≠ m' ∧ ¬ (prioOf A (.fin a) time h (onGrid us) m).lt (prioOf A (.fin a) time h (onGrid us) m') ∧
    ¬ (prioOf A (.fin a) time h (onGrid us) m').lt (prioOf A (.fin a) time h (onGrid us) m)

instance (A : Arith) (a : ℚ) (time : Int) (h : List Op) : DecidablePred (OddF A a time h) := fun _ => inferInstanceAs (Decidable (_ ∨ _))

section
variable (A : Arith) (hR : A.R = binary64) (hA : A.Lawful) (hE : GoodExp A.exp) (size : Int) (hsz : 1 ≤ size) (a : ℚ) (ha : 0 ≤ a) (time tick : Int) (h : List Op) (ht : InI64 time)
  (hτ : InI64 (tick + 3600000000000)) (hr : ∀ t ∈ readings h, InI64 t) (hticks : ∀ x ∈ ticks h, x < tick + 3600000000000) (hv : (recorded h).Nodup)
  (hn : (h.length : Int) < 9223372036854775808) (hspan : ∀ s ∈ seconds h, |a * (s - time.tdiv 1000 : Int)| ≤ 600)

theorem mem_seconds {h : List Op} {s : Int} (hs : s ∈ seconds h) : ∃ t ∈ readings h, s = t.tdiv 1000 := by
  induction h with
  | nil => simp [seconds] at hs
  | cons o h ih =>
    cases o with
    | getSnapshot x t =>
      obtain ⟨t', h1, h2⟩ := ih hs
      exact ⟨t', by simp [readings, h1], h2⟩
    | updateN env v =>
      simp only [seconds, List.mem_cons] at hs
      rcases hs with rfl | hs
      · exact ⟨env.time, by simp [readings], rfl⟩
      · obtain ⟨t', h1, h2⟩ := ih hs
        exact ⟨t', by simp [readings, h1], h2⟩

include hR hE ht hr hspan

/-- The weight of the `m`-th update. -/
theorem weight_of (m : Fin (recorded h).length) : ∃ y : ℚ, A.exp (F64.mul A.R (.fin a) (F64.ofInt A.R ((seconds h)[m]'(by rw [length_seconds]; exact m.2) - time.tdiv 1000))) = .fin y ∧
    |(y : ℝ) - Real.exp (a * ((seconds h)[m]'(by rw [length_seconds]; exact m.2) - time.tdiv 1000 : Int))| ≤
      2 ^ (-41 : Int) * Real.exp (a * ((seconds h)[m]'(by rw [length_seconds]; exact m.2) - time.tdiv 1000 : Int)) ∧ 2 ^ (-871 : Int) ≤ y ∧ y ≤ 2 ^ (871 : Int) := by
  have hmem : (seconds h)[m]'(by rw [length_seconds]; exact m.2) ∈ seconds h := List.getElem_mem _
  generalize (seconds h)[m]'(by rw [length_seconds]; exact m.2) = s at hmem
  obtain ⟨t, h1, rfl⟩ := mem_seconds hmem
  obtain ⟨y, e1, e2⟩ := weight_good hR hE (a := a) (t := t.tdiv 1000 - time.tdiv 1000) (sec_diff ht (hr t h1)) (hspan _ hmem)
  refine ⟨y, e1, e2, ?_⟩
  have hb := abs_le.1 (hspan _ hmem)
  generalize hx : ((t.tdiv 1000 - time.tdiv 1000 : Int) : ℚ) = x at hb
  have hxr : ((t.tdiv 1000 - time.tdiv 1000 : Int) : ℝ) = (x : ℝ) := by rw [← hx]; norm_cast
  rw [hxr] at e2
  have b1 : ((-600 : ℚ) : ℝ) ≤ ((a * x : ℚ) : ℝ) := by exact_mod_cast hb.1
  have b2 : ((a * x : ℚ) : ℝ) ≤ ((600 : ℚ) : ℝ) := by exact_mod_cast hb.2
  push_cast at b1 b2
  have l1 : (2 : ℝ) ^ (-870 : Int) ≤ Real.exp (a * x) := exp_neg_600.trans (Real.exp_le_exp.2 b1)
  have l2 : Real.exp (a * x) ≤ (2 : ℝ) ^ (870 : Int) := (Real.exp_le_exp.2 b2).trans exp_600
  have hE0 := Real.exp_pos (a * x)
  have e3 := abs_le.1 e2
  have p1 : (2 : ℝ) ^ (-870 : Int) = 2 * 2 ^ (-871 : Int) := by
    rw [show (-870 : Int) = 1 + -871 by norm_num, zpow_add₀ (by norm_num), zpow_one]
  have p2 : (2 : ℝ) ^ (871 : Int) = 2 * 2 ^ (870 : Int) := by
    rw [show (871 : Int) = 1 + 870 by norm_num, zpow_add₀ (by norm_num), zpow_one]
  have p3 : (2 : ℝ) ^ (-41 : Int) ≤ 1 / 2 := by norm_num
  have p4 : (2 : ℝ) ^ (-41 : Int) * Real.exp (a * x) ≤ 1 / 2 * Real.exp (a * x) := mul_le_mul_of_nonneg_right p3 hE0.le
  have c1 : ((2 ^ (-871 : Int) : ℚ) : ℝ) = 2 ^ (-871 : Int) := by push_cast; rfl
  have c2 : ((2 ^ (871 : Int) : ℚ) : ℝ) = 2 ^ (871 : Int) := by push_cast; rfl
  rw [p1] at l1
  rw [p2] at c2
  generalize (2 : ℝ) ^ (-871 : Int) = P at *
  generalize (2 : ℝ) ^ (870 : Int) = Q at *
  generalize (2 : ℝ) ^ (-41 : Int) * Real.exp (a * x) = ee at *
  generalize Real.exp (a * x) = E at *
  have r1 : P ≤ y := by linarith [e3.1]
  have r2 : (y : ℝ) ≤ 2 * Q := by
    have f := e3.2
    clear p1 p2 c1 c2 e3 e2 r1
    linarith
  rw [← c1] at r1
  rw [← c2] at r2
  exact ⟨Rat.cast_le.1 r1, Rat.cast_le.1 r2⟩

/-- Odd draws are rare. -/
theorem oddF_card : ((Finset.univ.filter (OddF A a time h)).card : ℝ) ≤ (9007199254740992 : ℝ) ^ (recorded h).length * (5 * (recorded h).length ^ 2 / 9007199254740992) := by
  classical
  set n := (recorded h).length with hn'
  have h0 : (Finset.univ.filter (OddF A a time h)).card ≤
      (Finset.univ.filter fun us : Fin n → Fin 9007199254740992 => ∃ m, (us m : Nat) = 0).card +
      (Finset.univ.filter fun us : Fin n → Fin 9007199254740992 => ∃ m m' : Fin n, m ≠ m' ∧ 0 < (us m : Nat) ∧ 0 < (us m' : Nat) ∧
        ¬ (prioOf A (.fin a) time h (onGrid us) m).lt (prioOf A (.fin a) time h (onGrid us) m') ∧
        ¬ (prioOf A (.fin a) time h (onGrid us) m').lt (prioOf A (.fin a) time h (onGrid us) m)).card := by
    refine le_trans (Finset.card_le_card ?_) (Finset.card_union_le _ _)
    intro us hus
    simp only [Finset.mem_filter, Finset.mem_univ, true_and, Finset.mem_union] at hus ⊢
    by_cases hz : ∃ m, (us m : Nat) = 0
    · exact .inl hz
    · rcases hus with hus | ⟨m, m', h1, h2⟩
      · exact .inl hus
      · exact .inr ⟨m, m', h1, Nat.pos_of_ne_zero fun e => hz ⟨m, e⟩, Nat.pos_of_ne_zero fun e => hz ⟨m', e⟩, h2⟩
  have hN : 0 < 9007199254740992 := by norm_num
  have h1 := union_le (fun (m : Fin n) (us : Fin n → Fin 9007199254740992) => (us m : Nat) = 0) Finset.univ
    (Finset.univ.filter fun us : Fin n → Fin 9007199254740992 => ∃ m, (us m : Nat) = 0)
    (fun us hus => by
      obtain ⟨m, hm⟩ := (Finset.mem_filter.1 hus).2
      exact ⟨m, Finset.mem_univ _, hm⟩) _ (fun m _ => zero m hN)
  have h2 := union_le (fun (x : Fin n × Fin n) (us : Fin n → Fin 9007199254740992) => 0 < (us x.1 : Nat) ∧ 0 < (us x.2 : Nat) ∧
        ¬ (prioOf A (.fin a) time h (onGrid us) x.1).lt (prioOf A (.fin a) time h (onGrid us) x.2) ∧
        ¬ (prioOf A (.fin a) time h (onGrid us) x.2).lt (prioOf A (.fin a) time h (onGrid us) x.1)) (Finset.univ.offDiag)
    (Finset.univ.filter fun us : Fin n → Fin 9007199254740992 => ∃ m m' : Fin n, m ≠ m' ∧ 0 < (us m : Nat) ∧ 0 < (us m' : Nat) ∧
        ¬ (prioOf A (.fin a) time h (onGrid us) m).lt (prioOf A (.fin a) time h (onGrid us) m') ∧
        ¬ (prioOf A (.fin a) time h (onGrid us) m').lt (prioOf A (.fin a) time h (onGrid us) m))
    (fun us hus => by
      obtain ⟨m, m', hne, he⟩ := (Finset.mem_filter.1 hus).2
      exact ⟨(m, m'), by simpa using hne, he⟩) ((9007199254740992 : ℕ) ^ n * (((4 : ℕ) + 1) / (9007199254740992 : ℕ))) (fun x hx => by
      obtain ⟨y, ey, -, by1, by2⟩ := weight_of A hR hE a time h ht hr hspan x.1
      obtain ⟨z, ez, -, bz1, bz2⟩ := weight_of A hR hE a time h ht hr hspan x.2
      have hz : 0 < z := lt_of_lt_of_le (two_zpow_pos _) bz1
      have hy : 0 < y := lt_of_lt_of_le (two_zpow_pos _) by1
      have key := tie_few (n := n) (N := 9007199254740992) (i := x.1) (j := x.2) (by simpa using hx) hN 4
        (fun p q => 0 < p ∧ 0 < q ∧ ¬ (F64.div binary64 (.fin y) (.fin ((p : ℚ) / 9007199254740992))).lt (F64.div binary64 (.fin z) (.fin ((q : ℚ) / 9007199254740992))) ∧
          ¬ (F64.div binary64 (.fin z) (.fin ((q : ℚ) / 9007199254740992))).lt (F64.div binary64 (.fin y) (.fin ((p : ℚ) / 9007199254740992)))) (by
          rintro p p' q hp hp' hq ⟨h1, h2, h3, h4⟩ ⟨h1', -, h3', h4'⟩ -
          have g1 := key_not_lt ⟨by1, by2⟩ ⟨bz1, bz2⟩ h1' hp' h2 hq h3'
          have g2 := key_not_lt ⟨bz1, bz2⟩ ⟨by1, by2⟩ h2 hq h1 hp h4
          exact near_few hz hp hp' g1 g2)
      refine le_trans (le_of_eq ?_) key
      have e1 : ∀ us : Fin n → Fin 9007199254740992, prioOf A (.fin a) time h (onGrid us) x.1 = F64.div binary64 (.fin y) (.fin (((us x.1 : Nat) : ℚ) / 9007199254740992)) := by
        intro us
        unfold prioOf sampleOf onGrid
        rw [ey, hR]
      have e2 : ∀ us : Fin n → Fin 9007199254740992, prioOf A (.fin a) time h (onGrid us) x.2 = F64.div binary64 (.fin z) (.fin (((us x.2 : Nat) : ℚ) / 9007199254740992)) := by
        intro us
        unfold prioOf sampleOf onGrid
        rw [ez, hR]
      simp only [e1, e2])
  rw [Finset.card_univ, Fintype.card_fin] at h1
  rw [Finset.offDiag_card, Finset.card_univ, Fintype.card_fin, Nat.cast_sub (Nat.le_mul_self n)] at h2
  have h3 : ((Finset.univ.filter (OddF A a time h)).card : ℚ) ≤ (9007199254740992 : ℚ) ^ n * (5 * n ^ 2 / 9007199254740992) := by
    have h4 : ((Finset.univ.filter (OddF A a time h)).card : ℚ) ≤ ((Finset.univ.filter fun us : Fin n → Fin 9007199254740992 => ∃ m, (us m : Nat) = 0).card : ℚ) +
      ((Finset.univ.filter fun us : Fin n → Fin 9007199254740992 => ∃ m m' : Fin n, m ≠ m' ∧ 0 < (us m : Nat) ∧ 0 < (us m' : Nat) ∧
        ¬ (prioOf A (.fin a) time h (onGrid us) m).lt (prioOf A (.fin a) time h (onGrid us) m') ∧
        ¬ (prioOf A (.fin a) time h (onGrid us) m').lt (prioOf A (.fin a) time h (onGrid us) m)).card : ℚ) := by exact_mod_cast h0
    refine h4.trans ((add_le_add h1 h2).trans ?_)
    push_cast
    have hpow : (0 : ℚ) ≤ (9007199254740992 : ℚ) ^ n := by positivity
    have hn0 : (0 : ℚ) ≤ n := by positivity
    generalize (9007199254740992 : ℚ) ^ n = P at hpow
    have : 0 ≤ P * n := mul_nonneg hpow hn0
    nlinarith
  have h5 : (((Finset.univ.filter (OddF A a time h)).card : ℚ) : ℝ) ≤ (((9007199254740992 : ℚ) ^ n * (5 * n ^ 2 / 9007199254740992) : ℚ) : ℝ) := by exact_mod_cast h3
  push_cast at h5
  exact h5

include hA hsz hτ hticks hv hn
omit hE hspan hR in
/-- With draws that are not odd a value is held exactly if fewer than `size` updates have a higher priority. -/
theorem held_gridF (us : Fin (recorded h).length → Fin 9007199254740992) (ho : ¬ OddF A a time h us) (i : Fin (recorded h).length) :
    (recorded h)[i] ∈ holding A size (.fin a) time tick (redraw h (gridDraws us)) ↔
      ((Finset.univ.filter fun m => (prioOf A (.fin a) time h (onGrid us) i).lt (prioOf A (.fin a) time h (onGrid us) m)).card : Int) < size := by
  have e : gridDraws us = List.ofFn (onGrid us) := by
    unfold gridDraws onGrid
    norm_num
  rw [e]
  refine C115_held A hA size hsz (.fin a) time tick h ht hτ hr hticks hv hn (onGrid us) ?_ ?_ i
  · intro m
    unfold onGrid
    have : ((us m : Nat) : ℚ) < 9007199254740992 := by exact_mod_cast (us m).2
    exact ⟨by positivity, by rw [div_lt_one (by norm_num)]; exact this⟩
  · intro m m' hne
    by_contra hc
    rw [not_or] at hc
    exact ho (.inr ⟨m, m', hne, hc⟩)

omit hA hsz hτ hticks hv hn in
include ha in
/-- If `j` is at least `d` seconds newer than `i` and yet has no higher priority, then the draw of `i` is at most about `e^(-a d)` times that of `j`. -/
theorem beatenF {i j : Fin (recorded h).length} {d : Nat}
    (hd : (seconds h)[i]'(by rw [length_seconds]; exact i.2) + d ≤ (seconds h)[j]'(by rw [length_seconds]; exact j.2)) :
    ∃ c : ℚ, 0 ≤ c ∧ (c : ℝ) ≤ Real.exp (-(a * d)) * (1 + 2 ^ (-39 : Int)) ∧ ∀ us : Fin (recorded h).length → Fin 9007199254740992, 0 < (us i : Nat) → 0 < (us j : Nat) →
      ¬ (prioOf A (.fin a) time h (onGrid us) i).lt (prioOf A (.fin a) time h (onGrid us) j) → ((us i : Nat) : ℚ) ≤ c * (us j : Nat) := by
  obtain ⟨y, ey, ry, by1, by2⟩ := weight_of A hR hE a time h ht hr hspan i
  obtain ⟨z, ez, rz, bz1, bz2⟩ := weight_of A hR hE a time h ht hr hspan j
  have hz : 0 < z := lt_of_lt_of_le (two_zpow_pos _) bz1
  have hy : 0 < y := lt_of_lt_of_le (two_zpow_pos _) by1
  have hu : 0 < 1 - hulp := by rw [hulp_eq]; norm_num
  have hu' : 0 < 1 + hulp := by rw [hulp_eq]; norm_num
  have hden : 0 < z * (1 - hulp) := mul_pos hz hu
  refine ⟨y * (1 + hulp) / (z * (1 - hulp)), div_nonneg (mul_pos hy hu').le hden.le, ?_, ?_⟩
  · have hE' : Real.exp (a * (((seconds h)[i]'(by rw [length_seconds]; exact i.2) - time.tdiv 1000 : Int) : ℝ)) ≤
        Real.exp (-(a * d)) * Real.exp (a * (((seconds h)[j]'(by rw [length_seconds]; exact j.2) - time.tdiv 1000 : Int) : ℝ)) := by
      rw [← Real.exp_add]
      apply Real.exp_le_exp.2
      have h1 : (((seconds h)[i]'(by rw [length_seconds]; exact i.2) - time.tdiv 1000 : Int) : ℝ) + d ≤ (((seconds h)[j]'(by rw [length_seconds]; exact j.2) - time.tdiv 1000 : Int) : ℝ) := by
        exact_mod_cast (show (seconds h)[i]'(by rw [length_seconds]; exact i.2) - time.tdiv 1000 + (d : Int) ≤ (seconds h)[j]'(by rw [length_seconds]; exact j.2) - time.tdiv 1000 by omega)
      have h2 := mul_le_mul_of_nonneg_left h1 (show (0 : ℝ) ≤ a by exact_mod_cast ha)
      linarith
    have hX := Real.exp_pos (-((a : ℝ) * d))
    have hEj := Real.exp_pos (a * (((seconds h)[j]'(by rw [length_seconds]; exact j.2) - time.tdiv 1000 : Int) : ℝ))
    generalize Real.exp (a * (((seconds h)[i]'(by rw [length_seconds]; exact i.2) - time.tdiv 1000 : Int) : ℝ)) = Ei at *
    generalize Real.exp (a * (((seconds h)[j]'(by rw [length_seconds]; exact j.2) - time.tdiv 1000 : Int) : ℝ)) = Ej at *
    generalize Real.exp (-((a : ℝ) * d)) = X at *
    clear by1 by2 bz1 bz2
    have hzr : (0 : ℝ) < z := by exact_mod_cast hz
    rw [hulp_eq]
    push_cast
    rw [div_le_iff₀ (mul_pos hzr (by norm_num))]
    have f1 := (abs_le.1 ry).2
    have f2 := (abs_le.1 rz).1
    norm_num at f1 f2 ⊢
    have g1 : (y : ℝ) ≤ X * Ej * (1 + 1 / 2199023255552) := by linarith
    have g2 : X * (Ej * (1 - 1 / 2199023255552)) ≤ X * z := mul_le_mul_of_nonneg_left (by linarith) hX.le
    have hXE : 0 < X * Ej := mul_pos hX hEj
    nlinarith
  · intro us hi hj hlt
    have e1 : prioOf A (.fin a) time h (onGrid us) i = F64.div binary64 (.fin y) (.fin (((us i : Nat) : ℚ) / 9007199254740992)) := by
      unfold prioOf sampleOf onGrid
      rw [ey, hR]
    have e2 : prioOf A (.fin a) time h (onGrid us) j = F64.div binary64 (.fin z) (.fin (((us j : Nat) : ℚ) / 9007199254740992)) := by
      unfold prioOf sampleOf onGrid
      rw [ez, hR]
    rw [e1, e2] at hlt
    have key := key_not_lt ⟨by1, by2⟩ ⟨bz1, bz2⟩ hi (us i).2 hj (us j).2 hlt
    rw [div_mul_eq_mul_div, le_div_iff₀ hden]
    linarith

include ha

/-- **C115.** binary64, a `math.Exp` accurate to 1 ulp, and `rand.Float64` (any of `2^53` numbers with the same chance, independently): in the first hour a measurement that at least `size` others
are at least `d` seconds newer than, `newer` of them in all, is still held with a chance of at most `newer / (2 (newer - size + 1))` times `e^(-a d)`, up to `2^-39` relatively and
`5 n^2 / 2^53` for draws of zero and for ties. -/
theorem _root_.GoMetrics.C115_old (i : Fin (recorded h).length) (newer : Finset (Fin (recorded h).length)) (hi : i ∉ newer) (d : Nat)
    (hd : ∀ j ∈ newer, (seconds h)[i]'(by rw [length_seconds]; exact i.2) + d ≤ (seconds h)[j]'(by rw [length_seconds]; exact j.2)) (hnew : size ≤ newer.card) :
    ((chance (recorded h).length 9007199254740992 (fun us => (recorded h)[i] ∈ holding A size (.fin a) time tick (redraw h (gridDraws us))) : ℚ) : ℝ) ≤
      newer.card / (2 * (newer.card - size + 1)) * (Real.exp (-(a * d)) * (1 + 2 ^ (-39 : Int))) + 5 * (recorded h).length ^ 2 / 9007199254740992 := by
  classical
  obtain ⟨c, hc⟩ : ∃ c : Nat, (c : Int) = newer.card - size + 1 := ⟨(newer.card - size + 1).toNat, by omega⟩
  have hcq : ((newer.card : ℝ) - size + 1) = c := by
    have := congrArg (Int.cast (R := ℝ)) hc
    push_cast at this
    linarith
  have hex : ∀ j : Fin (recorded h).length, ∃ c : ℚ, j ∈ newer → 0 ≤ c ∧ (c : ℝ) ≤ Real.exp (-(a * d)) * (1 + 2 ^ (-39 : Int)) ∧
      ∀ us : Fin (recorded h).length → Fin 9007199254740992, 0 < (us i : Nat) → 0 < (us j : Nat) →
      ¬ (prioOf A (.fin a) time h (onGrid us) i).lt (prioOf A (.fin a) time h (onGrid us) j) → ((us i : Nat) : ℚ) ≤ c * (us j : Nat) := by
    intro j
    by_cases hj : j ∈ newer
    · obtain ⟨c, h1, h2, h3⟩ := beatenF A hR hE a ha time h ht hr hspan (hd j hj)
      exact ⟨c, fun _ => ⟨h1, h2, h3⟩⟩
    · exact ⟨0, fun h' => absurd h' hj⟩
  choose cs hcs using hex
  have key := chance_le_real (n := (recorded h).length) (N := 9007199254740992) (by norm_num)
    (fun us => (recorded h)[i] ∈ holding A size (.fin a) time tick (redraw h (gridDraws us))) (OddF A a time h)
    (fun j us => 0 < (us i : Nat) ∧ ((us i : Nat) : ℚ) ≤ cs j * (us j : Nat)) newer c (by omega) (Real.exp (-(a * d)) * (1 + 2 ^ (-39 : Int)) / 2)
    (5 * (recorded h).length ^ 2 / 9007199254740992) (by
      intro us hheld hodd
      rw [held_gridF A hA size hsz a time tick h ht hτ hr hticks hv hn us hodd i] at hheld
      have hu : ∀ m, 0 < (us m : Nat) := fun m => Nat.pos_of_ne_zero fun e => hodd (.inl ⟨m, e⟩)
      have hsub : newer.card ≤ (newer.filter fun j => 0 < (us i : Nat) ∧ ((us i : Nat) : ℚ) ≤ cs j * (us j : Nat)).card +
          (Finset.univ.filter fun m => (prioOf A (.fin a) time h (onGrid us) i).lt (prioOf A (.fin a) time h (onGrid us) m)).card := by
        refine le_trans (Finset.card_le_card ?_) (Finset.card_union_le _ _)
        intro j hj
        rw [Finset.mem_union, Finset.mem_filter, Finset.mem_filter]
        by_cases hlt : (prioOf A (.fin a) time h (onGrid us) i).lt (prioOf A (.fin a) time h (onGrid us) j)
        · exact .inr ⟨Finset.mem_univ _, hlt⟩
        · exact .inl ⟨hj, hu i, (hcs j hj).2.2 us (hu i) (hu j) hlt⟩
      omega) (by
      intro j hj
      have h1 := beats (n := (recorded h).length) (N := 9007199254740992) (i := i) (j := j) (fun e => hi (e ▸ hj)) (by norm_num) (cs j) (hcs j hj).1
      have h2 := (Rat.cast_le (K := ℝ)).2 h1
      have h3 := (hcs j hj).2.1
      refine le_trans (le_of_eq ?_) (h2.trans ?_)
      · rw [Rat.cast_natCast]
      · rw [Rat.cast_mul, Rat.cast_pow, Rat.cast_natCast, Rat.cast_div, Rat.cast_ofNat]
        refine mul_le_mul_of_nonneg_left ?_ (by positivity)
        exact div_le_div_of_nonneg_right h3 (by norm_num)) (by
      have := oddF_card A hR hE a time h ht hr hspan
      refine this.trans (le_of_eq ?_)
      rw [Nat.cast_ofNat])
  refine key.trans (le_of_eq ?_)
  rw [hcq]
  ring

/-- **C115.** And a measurement that all but `others < size` others are at least `d` seconds older than - `older` of them - is held, except with a chance of at most `older / (2 (size - others))` times
`e^(-a d)`, up to the same errors. -/
theorem _root_.GoMetrics.C115_new (j : Fin (recorded h).length) (older : Finset (Fin (recorded h).length)) (hj : j ∉ older) (d : Nat)
    (hd : ∀ i ∈ older, (seconds h)[i]'(by rw [length_seconds]; exact i.2) + d ≤ (seconds h)[j]'(by rw [length_seconds]; exact j.2)) (others : Nat)
    (ho : (recorded h).length = 1 + older.card + others) (hs : (others : Int) < size) :
    ((chance (recorded h).length 9007199254740992 (fun us => (recorded h)[j] ∉ holding A size (.fin a) time tick (redraw h (gridDraws us))) : ℚ) : ℝ) ≤
      older.card / (2 * (size - others)) * (Real.exp (-(a * d)) * (1 + 2 ^ (-39 : Int))) + 5 * (recorded h).length ^ 2 / 9007199254740992 := by
  classical
  obtain ⟨c, hc⟩ : ∃ c : Nat, (c : Int) = size - others := ⟨(size - others).toNat, by omega⟩
  have hcq : ((size : ℝ) - others) = c := by
    have := congrArg (Int.cast (R := ℝ)) hc
    push_cast at this
    linarith
  have hex : ∀ i : Fin (recorded h).length, ∃ c : ℚ, i ∈ older → 0 ≤ c ∧ (c : ℝ) ≤ Real.exp (-(a * d)) * (1 + 2 ^ (-39 : Int)) ∧
      ∀ us : Fin (recorded h).length → Fin 9007199254740992, 0 < (us i : Nat) → 0 < (us j : Nat) →
      ¬ (prioOf A (.fin a) time h (onGrid us) i).lt (prioOf A (.fin a) time h (onGrid us) j) → ((us i : Nat) : ℚ) ≤ c * (us j : Nat) := by
    intro i
    by_cases hi : i ∈ older
    · obtain ⟨c, h1, h2, h3⟩ := beatenF A hR hE a ha time h ht hr hspan (hd i hi)
      exact ⟨c, fun _ => ⟨h1, h2, h3⟩⟩
    · exact ⟨0, fun h' => absurd h' hi⟩
  choose cs hcs using hex
  have key := chance_le_real (n := (recorded h).length) (N := 9007199254740992) (by norm_num)
    (fun us => (recorded h)[j] ∉ holding A size (.fin a) time tick (redraw h (gridDraws us))) (OddF A a time h)
    (fun i us => 0 < (us i : Nat) ∧ ((us i : Nat) : ℚ) ≤ cs i * (us j : Nat)) older c (by omega) (Real.exp (-(a * d)) * (1 + 2 ^ (-39 : Int)) / 2)
    (5 * (recorded h).length ^ 2 / 9007199254740992) (by
      intro us hheld hodd
      rw [held_gridF A hA size hsz a time tick h ht hτ hr hticks hv hn us hodd j, not_lt] at hheld
      have hu : ∀ m, 0 < (us m : Nat) := fun m => Nat.pos_of_ne_zero fun e => hodd (.inl ⟨m, e⟩)
      have hsub : (Finset.univ.filter fun m => (prioOf A (.fin a) time h (onGrid us) j).lt (prioOf A (.fin a) time h (onGrid us) m)).card ≤
          (older.filter fun i => 0 < (us i : Nat) ∧ ((us i : Nat) : ℚ) ≤ cs i * (us j : Nat)).card + ((Finset.univ.erase j) \ older).card := by
        refine le_trans (Finset.card_le_card ?_) (Finset.card_union_le _ _)
        intro m hm'
        rw [Finset.mem_filter] at hm'
        rw [Finset.mem_union, Finset.mem_filter, Finset.mem_sdiff, Finset.mem_erase]
        by_cases ho : m ∈ older
        · exact .inl ⟨ho, hu m, (hcs m ho).2.2 us (hu m) (hu j) (F64.lt_asymm hm'.2)⟩
        · refine .inr ⟨⟨?_, Finset.mem_univ _⟩, ho⟩
          rintro rfl
          exact F64.lt_irrefl _ hm'.2
      have hrest : ((Finset.univ.erase j) \ older).card = others := by
        rw [Finset.card_sdiff_of_subset (by
          intro m hm'
          rw [Finset.mem_erase]
          exact ⟨fun e => hj (e ▸ hm'), Finset.mem_univ _⟩), Finset.card_erase_of_mem (Finset.mem_univ _), Finset.card_univ, Fintype.card_fin]
        omega
      omega) (by
      intro i hi
      have h1 := beats (n := (recorded h).length) (N := 9007199254740992) (i := i) (j := j) (fun e => hj (e ▸ hi)) (by norm_num) (cs i) (hcs i hi).1
      have h2 := (Rat.cast_le (K := ℝ)).2 h1
      have h3 := (hcs i hi).2.1
      refine le_trans (le_of_eq ?_) (h2.trans ?_)
      · rw [Rat.cast_natCast]
      · rw [Rat.cast_mul, Rat.cast_pow, Rat.cast_natCast, Rat.cast_div, Rat.cast_ofNat]
        refine mul_le_mul_of_nonneg_left ?_ (by positivity)
        exact div_le_div_of_nonneg_right h3 (by norm_num)) (by
      have := oddF_card A hR hE a time h ht hr hspan
      refine this.trans (le_of_eq ?_)
      rw [Nat.cast_ofNat])
  refine key.trans (le_of_eq ?_)
  rw [hcq]
  ring

omit hA hsz hτ hticks hv hn ha in
/-- The weight of a later second is not lower. -/
theorem weight_le (ha' : (2 : ℚ) ^ (-39 : Int) ≤ a) {i j : Fin (recorded h).length}
    (hij : (seconds h)[i]'(by rw [length_seconds]; exact i.2) ≤ (seconds h)[j]'(by rw [length_seconds]; exact j.2)) :
    ∃ y z : ℚ, A.exp (F64.mul A.R (.fin a) (F64.ofInt A.R ((seconds h)[i]'(by rw [length_seconds]; exact i.2) - time.tdiv 1000))) = .fin y ∧
      A.exp (F64.mul A.R (.fin a) (F64.ofInt A.R ((seconds h)[j]'(by rw [length_seconds]; exact j.2) - time.tdiv 1000))) = .fin z ∧ y ≤ z := by
  obtain ⟨y, ey, ry, -, -⟩ := weight_of A hR hE a time h ht hr hspan i
  obtain ⟨z, ez, rz, -, -⟩ := weight_of A hR hE a time h ht hr hspan j
  refine ⟨y, z, ey, ez, ?_⟩
  rcases hij.eq_or_lt with e | hlt
  · rw [e, ez] at ey
    rw [F64.fin.inj ey]
  · have hE' : Real.exp (a * (((seconds h)[i]'(by rw [length_seconds]; exact i.2) - time.tdiv 1000 : Int) : ℝ)) * (1 + 2 ^ (-39 : Int)) ≤
        Real.exp (a * (((seconds h)[j]'(by rw [length_seconds]; exact j.2) - time.tdiv 1000 : Int) : ℝ)) := by
      have h1 : (((seconds h)[i]'(by rw [length_seconds]; exact i.2) - time.tdiv 1000 : Int) : ℝ) + 1 ≤ (((seconds h)[j]'(by rw [length_seconds]; exact j.2) - time.tdiv 1000 : Int) : ℝ) := by
        exact_mod_cast (show (seconds h)[i]'(by rw [length_seconds]; exact i.2) - time.tdiv 1000 + (1 : Int) ≤ (seconds h)[j]'(by rw [length_seconds]; exact j.2) - time.tdiv 1000 by omega)
      have har : ((2 : ℝ) ^ (-39 : Int)) ≤ a := by
        have := (Rat.cast_le (K := ℝ)).2 ha'
        push_cast at this
        exact this
      have h0 : (0 : ℝ) ≤ a := le_trans (by positivity) har
      have h2 := mul_le_mul_of_nonneg_left h1 h0
      have h3 : (1 : ℝ) + 2 ^ (-39 : Int) ≤ Real.exp a := by
        have := Real.add_one_le_exp (a : ℝ)
        linarith
      calc _ ≤ Real.exp (a * (((seconds h)[i]'(by rw [length_seconds]; exact i.2) - time.tdiv 1000 : Int) : ℝ)) * Real.exp a := mul_le_mul_of_nonneg_left h3 (Real.exp_pos _).le
        _ = Real.exp (a * (((seconds h)[i]'(by rw [length_seconds]; exact i.2) - time.tdiv 1000 : Int) : ℝ) + a) := (Real.exp_add _ _).symm
        _ ≤ _ := Real.exp_le_exp.2 (by linarith)
    have hEi := Real.exp_pos (a * (((seconds h)[i]'(by rw [length_seconds]; exact i.2) - time.tdiv 1000 : Int) : ℝ))
    have f1 := (abs_le.1 ry).2
    have f2 := (abs_le.1 rz).1
    generalize Real.exp (a * (((seconds h)[i]'(by rw [length_seconds]; exact i.2) - time.tdiv 1000 : Int) : ℝ)) = Ei at *
    generalize Real.exp (a * (((seconds h)[j]'(by rw [length_seconds]; exact j.2) - time.tdiv 1000 : Int) : ℝ)) = Ej at *
    have : (y : ℝ) ≤ z := by
      clear ry rz ey ez
      norm_num at f1 f2 hE'
      linarith
    exact_mod_cast this

omit hsz hτ hticks hv hn ha in
include hA in
/-- With the same draw it gets no lower a priority. -/
theorem prio_le (ha' : (2 : ℚ) ^ (-39 : Int) ≤ a) {i j : Fin (recorded h).length}
    (hij : (seconds h)[i]'(by rw [length_seconds]; exact i.2) ≤ (seconds h)[j]'(by rw [length_seconds]; exact j.2))
    (us us' : Fin (recorded h).length → ℚ) (hu : us i = us' j) (h0 : 0 < us i) :
    (prioOf A (.fin a) time h us i).le (prioOf A (.fin a) time h us' j) := by
  obtain ⟨y, z, ey, ez, hle⟩ := weight_le A hR hE a time h ht hr hspan ha' hij
  unfold prioOf sampleOf
  simp only
  rw [ey, ez, ← hu]
  have hne := h0.ne'
  simp only [F64.div, if_neg hne]
  exact hA.rnd.mono _ _ (div_le_div_of_nonneg_right hle h0.le)

/-- **C115.** Of two measurements the one that was not made in an earlier second has at least the chance of the other, up to `10 n^2 / 2^53` (for a rate of at least `2^-39`; the default is 0.015). -/
theorem _root_.GoMetrics.C115_newer (ha' : (2 : ℚ) ^ (-39 : Int) ≤ a) (i j : Fin (recorded h).length)
    (hij : (seconds h)[i]'(by rw [length_seconds]; exact i.2) ≤ (seconds h)[j]'(by rw [length_seconds]; exact j.2)) :
    ((chance (recorded h).length 9007199254740992 (fun us => (recorded h)[i] ∈ holding A size (.fin a) time tick (redraw h (gridDraws us))) : ℚ) : ℝ) ≤
      ((chance (recorded h).length 9007199254740992 (fun us => (recorded h)[j] ∈ holding A size (.fin a) time tick (redraw h (gridDraws us))) : ℚ) : ℝ) +
        10 * (recorded h).length ^ 2 / 9007199254740992 := by
  classical
  have hlong : ∀ us : Fin (recorded h).length → Fin 9007199254740992, ¬ OddF A a time h us → ¬ OddF A a time h (us ∘ Equiv.swap i j) →
      (recorded h)[i] ∈ holding A size (.fin a) time tick (redraw h (gridDraws us)) →
      (recorded h)[j] ∈ holding A size (.fin a) time tick (redraw h (gridDraws (us ∘ Equiv.swap i j))) := by
    intro us o1 o2 hi
    rw [held_gridF A hA size hsz a time tick h ht hτ hr hticks hv hn us o1 i] at hi
    rw [held_gridF A hA size hsz a time tick h ht hτ hr hticks hv hn _ o2 j]
    refine lt_of_le_of_lt (Int.ofNat_le.2 (Finset.card_le_card_of_injOn (Equiv.swap i j) ?_ (Equiv.injective _).injOn)) hi
    intro m hm'
    simp only [Finset.coe_filter, Finset.mem_univ, true_and, Set.mem_setOf_eq] at hm' ⊢
    have hpos : ∀ m, 0 < onGrid us m := by
      intro m
      have : 0 < (us m : Nat) := Nat.pos_of_ne_zero fun e => o1 (.inl ⟨m, e⟩)
      have : (0 : ℚ) < (us m : Nat) := by exact_mod_cast this
      unfold onGrid
      positivity
    have hle : (prioOf A (.fin a) time h (onGrid us) i).le (prioOf A (.fin a) time h (onGrid (us ∘ Equiv.swap i j)) j) :=
      prio_le A hR hA hE a time h ht hr hspan ha' hij _ _ (by simp [onGrid]) (hpos i)
    have h1 := F64.lt_of_le_of_lt hle hm'
    by_cases e1 : m = j
    · subst e1
      exact absurd hm' (F64.lt_irrefl _)
    · by_cases e2 : m = i
      · subst e2
        rw [Equiv.swap_apply_left]
        have hle2 : (prioOf A (.fin a) time h (onGrid (us ∘ Equiv.swap m j)) m).le (prioOf A (.fin a) time h (onGrid us) j) :=
          prio_le A hR hA hE a time h ht hr hspan ha' hij _ _ (by simp [onGrid]) (by simpa [onGrid] using hpos j)
        have hn1 := F64.lt_ne_nan h1
        by_contra hc
        have hge : ¬ (prioOf A (.fin a) time h (onGrid us) m).lt (prioOf A (.fin a) time h (onGrid us) j) := hc
        have hjn : prioOf A (.fin a) time h (onGrid us) j ≠ .nan := by
          intro e
          rw [e] at hle2
          cases hx : prioOf A (.fin a) time h (onGrid (us ∘ Equiv.swap m j)) m <;> rw [hx] at hle2 <;> simp [F64.le] at hle2
        have h2 := (F64.le_iff hjn hn1.1).2 hge
        have h3 : ¬ (prioOf A (.fin a) time h (onGrid us) j).lt (prioOf A (.fin a) time h (onGrid (us ∘ Equiv.swap m j)) m) := (F64.le_iff hn1.2 hjn).1 hle2
        exact h3 (F64.lt_of_le_of_lt h2 h1)
      · rw [Equiv.swap_apply_of_ne_of_ne e2 e1]
        have : prioOf A (.fin a) time h (onGrid (us ∘ Equiv.swap i j)) m = prioOf A (.fin a) time h (onGrid us) m := by
          unfold prioOf onGrid
          simp only [Function.comp_apply, Equiv.swap_apply_of_ne_of_ne e2 e1]
        rw [← this]
        exact h1
  have hinv : ∀ us : Fin (recorded h).length → Fin 9007199254740992, (us ∘ Equiv.swap i j) ∘ Equiv.swap i j = us := by
    intro us
    funext m
    simp
  have hinj : Function.Injective fun us : Fin (recorded h).length → Fin 9007199254740992 => us ∘ Equiv.swap i j := by
    intro us us' e
    have := congrArg (fun f : Fin (recorded h).length → Fin 9007199254740992 => f ∘ Equiv.swap i j) e
    simpa only [hinv] using this
  have hswap : (Finset.univ.filter fun us : Fin (recorded h).length → Fin 9007199254740992 => OddF A a time h (us ∘ Equiv.swap i j)).card ≤
      (Finset.univ.filter (OddF A a time h)).card := by
    refine Finset.card_le_card_of_injOn (fun us => us ∘ Equiv.swap i j) ?_ hinj.injOn
    intro us hus
    simpa using hus
  have hsplit : (Finset.univ.filter fun us : Fin (recorded h).length → Fin 9007199254740992 => (recorded h)[i] ∈ holding A size (.fin a) time tick (redraw h (gridDraws us))).card ≤
      ((Finset.univ.filter fun us : Fin (recorded h).length → Fin 9007199254740992 => (recorded h)[i] ∈ holding A size (.fin a) time tick (redraw h (gridDraws us))).filter
        fun us => ¬ OddF A a time h us ∧ ¬ OddF A a time h (us ∘ Equiv.swap i j)).card +
      ((Finset.univ.filter (OddF A a time h)).card + (Finset.univ.filter fun us : Fin (recorded h).length → Fin 9007199254740992 => OddF A a time h (us ∘ Equiv.swap i j)).card) := by
    refine le_trans (Finset.card_le_card ?_) ((Finset.card_union_le _ _).trans (Nat.add_le_add_left (Finset.card_union_le _ _) _))
    intro us hus
    rw [Finset.mem_union, Finset.mem_union]
    by_cases h1 : OddF A a time h us
    · exact .inr (.inl (Finset.mem_filter.2 ⟨Finset.mem_univ _, h1⟩))
    · by_cases h2 : OddF A a time h (us ∘ Equiv.swap i j)
      · exact .inr (.inr (Finset.mem_filter.2 ⟨Finset.mem_univ _, h2⟩))
      · exact .inl (Finset.mem_filter.2 ⟨hus, h1, h2⟩)
  have hmap : ((Finset.univ.filter fun us : Fin (recorded h).length → Fin 9007199254740992 => (recorded h)[i] ∈ holding A size (.fin a) time tick (redraw h (gridDraws us))).filter
        fun us => ¬ OddF A a time h us ∧ ¬ OddF A a time h (us ∘ Equiv.swap i j)).card ≤
      (Finset.univ.filter fun us : Fin (recorded h).length → Fin 9007199254740992 => (recorded h)[j] ∈ holding A size (.fin a) time tick (redraw h (gridDraws us))).card := by
    refine Finset.card_le_card_of_injOn (fun us => us ∘ Equiv.swap i j) ?_ hinj.injOn
    intro us hus
    rw [Finset.mem_coe, Finset.mem_filter, Finset.mem_filter] at hus
    rw [Finset.mem_coe, Finset.mem_filter]
    exact ⟨Finset.mem_univ _, hlong us hus.2.1 hus.2.2 hus.1.2⟩
  have hbad := oddF_card A hR hE a time h ht hr hspan
  have hall : ((Finset.univ.filter fun us : Fin (recorded h).length → Fin 9007199254740992 => (recorded h)[i] ∈ holding A size (.fin a) time tick (redraw h (gridDraws us))).card : ℝ) ≤
      ((Finset.univ.filter fun us : Fin (recorded h).length → Fin 9007199254740992 => (recorded h)[j] ∈ holding A size (.fin a) time tick (redraw h (gridDraws us))).card : ℝ) +
      2 * ((Finset.univ.filter (OddF A a time h)).card : ℝ) := by
    have := hsplit.trans (Nat.add_le_add hmap (Nat.add_le_add_left hswap _))
    have h2 : (Finset.univ.filter fun us : Fin (recorded h).length → Fin 9007199254740992 => (recorded h)[i] ∈ holding A size (.fin a) time tick (redraw h (gridDraws us))).card ≤
      (Finset.univ.filter fun us : Fin (recorded h).length → Fin 9007199254740992 => (recorded h)[j] ∈ holding A size (.fin a) time tick (redraw h (gridDraws us))).card +
      2 * (Finset.univ.filter (OddF A a time h)).card := by omega
    exact_mod_cast h2
  have hP : (0 : ℝ) < (9007199254740992 : ℝ) ^ (recorded h).length := by positivity
  unfold chance
  push_cast
  rw [div_le_iff₀ hP, add_mul, div_mul_cancel₀ _ hP.ne']
  refine hall.trans (add_le_add le_rfl ?_)
  have := mul_le_mul_of_nonneg_left hbad (show (0 : ℝ) ≤ 2 by norm_num)
  refine this.trans (le_of_eq ?_)
  ring
end

/-- Three updates of which the last two are two seconds newer, in the first hour, with the default rate and a `math.Exp` that meets the hypotheses. -/
example : good.R = binary64 ∧ good.Lawful ∧ GoodExp good.exp ∧ (0 : ℚ) ≤ 3 / 200 ∧ (2 : ℚ) ^ (-39 : Int) ≤ 3 / 200 ∧ InI64 (0 + 3600000000000) ∧
    (∀ t ∈ readings three, InI64 t) ∧ (∀ x ∈ ticks three, x < 0 + 3600000000000) ∧ (recorded three).Nodup ∧
    (∀ s ∈ seconds three, |(3 / 200 : ℚ) * (s - (0 : Int).tdiv 1000 : Int)| ≤ 600) := by
  refine ⟨rfl, good_lawful, good_exp, by norm_num, by norm_num, by decide, by decide, by decide, by decide, ?_⟩
  have e : seconds three = [1, 3, 3] := by decide
  rw [e]
  simp only [List.mem_cons, List.not_mem_nil, or_false, forall_eq_or_imp, forall_eq]
  norm_num [abs_le]

/-- The first of them is held with a chance of at most half of `e^(-2 · 0.015)`, up to the errors. -/
example : ((chance 3 9007199254740992 (fun us => (7 : Int) ∈ holding good 1 (.fin (3 / 200)) 0 0 (redraw three (gridDraws us))) : ℚ) : ℝ) ≤
    1 / 2 * (Real.exp (-((3 / 200 : ℚ) * (2 : ℕ))) * (1 + 2 ^ (-39 : Int))) + 45 / 9007199254740992 := by
  have e : seconds three = [1, 3, 3] := by decide
  have := GoMetrics.C115_old good rfl good_lawful good_exp 1 (by decide) (3 / 200) (by norm_num) 0 0 three (by decide) (by decide) (by decide) (by decide) (by decide) (by decide)
    (by
      rw [e]
      simp only [List.mem_cons, List.not_mem_nil, or_false, forall_eq_or_imp, forall_eq]
      norm_num [abs_le])
    (0 : Fin 3) ({1, 2} : Finset (Fin 3)) (show (0 : Fin 3) ∉ ({1, 2} : Finset (Fin 3)) by decide) 2
    (show ∀ j ∈ ({1, 2} : Finset (Fin 3)), [(1 : Int), 3, 3][(0 : Fin 3)] + ((2 : Nat) : Int) ≤ [(1 : Int), 3, 3][j] by decide) (by decide)
  have ec : ({1, 2} : Finset (Fin 3)).card = 2 := by decide
  refine this.trans (le_of_eq ?_)
  show (({1, 2} : Finset (Fin 3)).card : ℝ) / (2 * ((({1, 2} : Finset (Fin 3)).card : ℝ) - ((1 : Int) : ℝ) + 1)) * _ + 5 * ((3 : Nat) : ℝ) ^ 2 / 9007199254740992 = _
  rw [ec]
  norm_num

/-- Three samples with different priorities, of which the two highest are held. -/
example : Distinct (samples demo (.fin 1) 0 (redraw three [1 / 2, 1 / 4, 3 / 4])) := by
  unfold Distinct
  decide +kernel

end EDR
end GoMetrics
