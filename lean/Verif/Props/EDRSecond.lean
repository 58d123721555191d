import Verif.Spec.EDRSecond
import Verif.Proofs.EDRSecond
import Verif.Proofs.UniformSets
import Verif.Props.Estimate
/-! # C117: a decaying reservoir as an estimator: fair within one second; across seconds the weights count twice -/
namespace GoMetrics.EDR
open Marginals Estimate UniformFair UniformWords

/-- Within one second the priorities are in the order of the draws. -/
theorem top_low (b : ℚ) (hb : 0 < b) (h : List Op) (hsame : ∀ s ∈ seconds h, ∀ s' ∈ seconds h, s = s') (c : Nat) {N : Nat} (us : Fin (recorded h).length → Fin N) :
    top b h c us = low c us := by
  have e : ∀ i m : Fin (recorded h).length, b ^ (seconds h)[i]'(by rw [length_seconds]; exact i.2) * ((us m : Nat) : ℚ) <
    b ^ (seconds h)[m]'(by rw [length_seconds]; exact m.2) * ((us i : Nat) : ℚ) ↔ us m < us i := by
    intro i m
    rw [hsame ((seconds h)[i]'(by rw [length_seconds]; exact i.2)) (List.getElem_mem _) ((seconds h)[m]'(by rw [length_seconds]; exact m.2)) (List.getElem_mem _),
      mul_lt_mul_iff_right₀ (zpow_pos hb _)]
    rw [Nat.cast_lt]; rfl
  unfold top low
  simp only [e]

theorem odd_plain (b : ℚ) (hb : 0 < b) (h : List Op) (hsame : ∀ s ∈ seconds h, ∀ s' ∈ seconds h, s = s') {N : Nat} (us : Fin (recorded h).length → Fin N) :
    ¬ Odd b h us ↔ Plain us := by
  unfold Odd Plain
  push Not
  refine and_congr Iff.rfl ?_
  constructor
  · intro h2 i j hij
    by_contra hne
    refine h2 i j hne ?_
    rw [hsame ((seconds h)[i]'(by rw [length_seconds]; exact i.2)) (List.getElem_mem _) ((seconds h)[j]'(by rw [length_seconds]; exact j.2)) (List.getElem_mem _), hij]
  · intro h2 i j hne e
    apply hne
    apply h2
    rw [hsame ((seconds h)[i]'(by rw [length_seconds]; exact i.2)) (List.getElem_mem _) ((seconds h)[j]'(by rw [length_seconds]; exact j.2)) (List.getElem_mem _)] at e
    have := mul_left_cancel₀ (zpow_pos hb _).ne' e
    exact Fin.ext (by exact_mod_cast this.symm)

theorem length_recorded_le (h : List Op) : (recorded h).length ≤ h.length := by
  induction h with
  | nil => simp [recorded]
  | cons o h ih => cases o <;> simp [recorded] <;> omega

/-- A uniform reservoir is a fair sample too. -/
theorem share_sets (c k : Nat) (vs : List Int) (hk : 1 ≤ k) (hc : c ≤ vs.length) (hl : vs.length < 2 ^ 63) (P : List Int → Bool)
    (hP : ∀ l m : List Int, l.Perm m → P l = P m) :
    share (reservoirs c k vs) (fun u => P u.values) =
      ((Finset.powersetCard c (Finset.univ : Finset (Fin vs.length))).filter fun S => P (S.toList.map fun i => vs[i]) = true).card / vs.length.choose c := by
  have h1 := count_reservoirs c k vs hc hl P
  have h2 := length_reservoirs c k vs hc hl
  have h3 := ways_pos k c (vs.length - c) hk (by omega)
  have h4 := Nat.choose_mul_factorial_mul_factorial hc
  rw [count_sets c vs hc hl P hP] at h1
  unfold share
  generalize ((Finset.powersetCard c (Finset.univ : Finset (Fin vs.length))).filter fun S => P (S.toList.map fun i => vs[i]) = true).card = m at *
  generalize (reservoirs c k vs).countP (fun u => P u.values) = X at *
  generalize (reservoirs c k vs).length = L at *
  generalize ways (2 ^ 63) k c (vs.length - c) = W at *
  have f1 := Nat.factorial_pos c
  have f2 := Nat.factorial_pos (vs.length - c)
  have f3 := Nat.choose_pos hc
  have hL : 0 < L := by
    rcases Nat.eq_zero_or_pos L with h0 | h0
    · rw [h0, Nat.zero_mul] at h2
      have := Nat.mul_pos (Nat.factorial_pos vs.length) h3
      omega
    · exact h0
  rw [← h4] at h2
  generalize c.factorial = p at *
  generalize (vs.length - c).factorial = q at *
  generalize vs.length.choose c = C at *
  rw [div_eq_div_iff (by positivity) (by positivity)]
  have g1 : (X : ℚ) * p = m * (p * q) * W := by exact_mod_cast h1
  have g2 : (L : ℚ) * p = C * p * q * W := by exact_mod_cast h2
  have hp : (0 : ℚ) < p := by exact_mod_cast f1
  apply mul_right_cancel₀ hp.ne'
  linear_combination C * g1 - m * g2

section
variable (A : Arith) (a b : ℚ) (hA : A.Exact a b) (size : Nat) (hsz : 1 ≤ size) (time tick : Int) (h : List Op) (ht : InI64 time)
  (hr : ∀ t ∈ readings h, InI64 t) (hm : (time :: scaleTimes h).Pairwise (· ≤ ·)) (hn : (h.length : Int) < 9223372036854775808) (N : Nat) (hN : 0 < N)

include hA hsz ht hr hm hn hN

/-- With draws that are not odd, the reservoir holds the values at the positions in `top`. -/
theorem holding_top (us : Fin (recorded h).length → Fin N) (ho : ¬ Odd b h us) :
    (holding A size (.fin a) time tick (redraw h (gridDraws us))).Perm ((top b h size us).toList.map fun i => (recorded h)[i]) := by
  obtain ⟨hp, hties⟩ := noTies_grid b h hN us ho
  obtain ⟨kept, hk, hval⟩ := C64_top A a b hA size (by omega) time tick (redraw h (gridDraws us)) ht (by rw [readings_redraw]; exact hr)
    (by rw [scaleTimes_redraw]; exact hm)
    (by
      rw [gridDraws, draws_redraw h _ (by simp)]
      intro u hu
      obtain ⟨q, hq, rfl⟩ := List.mem_map.1 hu
      obtain ⟨m, rfl⟩ := List.mem_ofFn.1 hq
      exact ⟨_, rfl, hp m⟩)
    (by rw [gridDraws, prios_redraw b h _ (by simp)]; exact hties) (by rw [length_redraw]; exact hn)
  have hvs : holding A size (.fin a) time tick (redraw h (gridDraws us)) = kept.map (·.value) := by
    unfold holding
    rw [hval, List.map_map]; rfl
  rw [hvs]
  refine ((top_kept b h hN us ho size kept hk).map _).trans (List.Perm.of_eq ?_)
  rw [List.map_map]; rfl

/-- **C117.** All updates in the same second: whatever is asked of the values in the reservoir (in no particular order), the answer is "yes" with the chance that it has for `size` of
the recorded values picked at random, every set of positions being as likely as any other - up to a term for draws of zero and ties. -/
theorem _root_.GoMetrics.C117_fair (hsame : ∀ s ∈ seconds h, ∀ s' ∈ seconds h, s = s') (hfull : size ≤ (recorded h).length) (P : List Int → Bool)
    (hP : ∀ l m : List Int, l.Perm m → P l = P m) :
    |chance (recorded h).length N (fun us => P (holding A size (.fin a) time tick (redraw h (gridDraws us))) = true) -
      ((Finset.powersetCard size (Finset.univ : Finset (Fin (recorded h).length))).filter fun S => P (S.toList.map fun i => (recorded h)[i]) = true).card /
        (recorded h).length.choose size| ≤ (recorded h).length ^ 2 / N := by
  classical
  have bpos : 0 < b := hA.pos
  have hN' : (0 : ℚ) < N := by exact_mod_cast hN
  have hT : (0 : ℚ) < (N : ℚ) ^ (recorded h).length := by positivity
  have hC : (0 : ℚ) < (recorded h).length.choose size := by exact_mod_cast Nat.choose_pos hfull
  have hodd := odd_card b bpos h hN
  have hcount := count_low (n := (recorded h).length) (N := N) size hfull (fun S => P (S.toList.map fun i => (recorded h)[i]) = true)
  have hkC : ((Finset.powersetCard size (Finset.univ : Finset (Fin (recorded h).length))).filter fun S => P (S.toList.map fun i => (recorded h)[i]) = true).card ≤
      (recorded h).length.choose size := by
    refine (Finset.card_filter_le _ _).trans (le_of_eq ?_)
    rw [Finset.card_powersetCard, Finset.card_univ, Fintype.card_fin]
  have heq : ∀ us : Fin (recorded h).length → Fin N, Plain us → (P (holding A size (.fin a) time tick (redraw h (gridDraws us))) = true ↔
      P ((low size us).toList.map fun i => (recorded h)[i]) = true) := by
    intro us hp
    have := holding_top A a b hA size hsz time tick h ht hr hm hn N hN us ((odd_plain b bpos h hsame us).2 hp)
    rw [hP _ _ this, top_low b bpos h hsame]
  have hlo : (Finset.univ.filter fun us : Fin (recorded h).length → Fin N => Plain us ∧ P ((low size us).toList.map fun i => (recorded h)[i]) = true).card ≤
      (Finset.univ.filter fun us : Fin (recorded h).length → Fin N => P (holding A size (.fin a) time tick (redraw h (gridDraws us))) = true).card := by
    refine Finset.card_le_card fun us hus => ?_
    simp only [Finset.mem_filter, Finset.mem_univ, true_and] at hus ⊢
    exact (heq us hus.1).2 hus.2
  have hhi : (Finset.univ.filter fun us : Fin (recorded h).length → Fin N => P (holding A size (.fin a) time tick (redraw h (gridDraws us))) = true).card ≤
      (Finset.univ.filter fun us : Fin (recorded h).length → Fin N => Plain us ∧ P ((low size us).toList.map fun i => (recorded h)[i]) = true).card +
      (Finset.univ.filter (Odd b h (N := N))).card := by
    refine le_trans (Finset.card_le_card fun us hus => ?_) (Finset.card_union_le _ _)
    simp only [Finset.mem_filter, Finset.mem_univ, true_and, Finset.mem_union] at hus ⊢
    by_cases ho : Odd b h us
    · exact .inr ho
    · have hp := (odd_plain b bpos h hsame us).1 ho
      exact .inl ⟨hp, (heq us hp).1 hus⟩
  have hall : (Finset.univ.filter fun us : Fin (recorded h).length → Fin N => Plain us).card + (Finset.univ.filter (Odd b h (N := N))).card = N ^ (recorded h).length := by
    have h1 : (Finset.univ.filter fun us : Fin (recorded h).length → Fin N => Plain us) = Finset.univ.filter fun us => ¬ Odd b h us := by
      ext us
      simp only [Finset.mem_filter, Finset.mem_univ, true_and]
      exact (odd_plain b bpos h hsame us).symm
    rw [h1, add_comm, Finset.card_filter_add_card_filter_not]
    simp
  unfold chance
  generalize (Finset.univ.filter fun us : Fin (recorded h).length → Fin N => P (holding A size (.fin a) time tick (redraw h (gridDraws us))) = true).card = X at *
  generalize (Finset.univ.filter fun us : Fin (recorded h).length → Fin N => Plain us ∧ P ((low size us).toList.map fun i => (recorded h)[i]) = true).card = Y at *
  generalize (Finset.univ.filter fun us : Fin (recorded h).length → Fin N => Plain us).card = G at *
  generalize (Finset.univ.filter (Odd b h (N := N))).card = O at *
  generalize ((Finset.powersetCard size (Finset.univ : Finset (Fin (recorded h).length))).filter fun S => P (S.toList.map fun i => (recorded h)[i]) = true).card = k at *
  generalize (recorded h).length.choose size = C at *
  clear heq
  generalize (recorded h).length = n at *
  have q1 : (Y : ℚ) ≤ X := by exact_mod_cast hlo
  have q2 : (X : ℚ) ≤ Y + O := by exact_mod_cast hhi
  have q3 : (G : ℚ) + O = (N : ℚ) ^ n := by exact_mod_cast hall
  have q4 : (Y : ℚ) * C = k * G := by exact_mod_cast hcount
  have q5 : (k : ℚ) ≤ C := by exact_mod_cast hkC
  have q6 : (0 : ℚ) ≤ k := by positivity
  have q7 : (0 : ℚ) ≤ O := by positivity
  have hY : (Y : ℚ) = k / C * G := by
    rw [div_mul_eq_mul_div, eq_div_iff hC.ne']; exact q4
  have hkc0 : (0 : ℚ) ≤ k / C := by positivity
  have hkc1 : (k : ℚ) / C ≤ 1 := by rw [div_le_one hC]; exact q5
  generalize (k : ℚ) / C = r at *
  generalize (N : ℚ) ^ n = T at *
  rw [abs_le]
  have e1 : (X : ℚ) / T - r = (X - r * T) / T := by field_simp
  rw [e1, le_div_iff₀ hT, div_le_iff₀ hT]
  constructor <;> nlinarith

/-- **C117.** In other words: the reservoir is as good as a uniform reservoir of the same size (C116), whatever is asked of the values. -/
theorem _root_.GoMetrics.C117_as_uniform (hsame : ∀ s ∈ seconds h, ∀ s' ∈ seconds h, s = s') (hfull : size ≤ (recorded h).length) (P : List Int → Bool)
    (hP : ∀ l m : List Int, l.Perm m → P l = P m) (words : Nat) (hw : 1 ≤ words) :
    |chance (recorded h).length N (fun us => P (holding A size (.fin a) time tick (redraw h (gridDraws us))) = true) -
      share (reservoirs size words (recorded h)) (fun u => P u.values)| ≤ (recorded h).length ^ 2 / N := by
  have hl : (recorded h).length < 2 ^ 63 := by
    have := length_recorded_le h
    norm_num; omega
  rw [share_sets size words (recorded h) hw hfull hl P hP]
  exact C117_fair A a b hA size hsz time tick h ht hr hm hn N hN hsame hfull P hP

/-- **C117.** So the part of the values that satisfy a condition is overestimated by `ε` or more with a chance of at most `exp(-2 size ε²)`, and that term. -/
theorem _root_.GoMetrics.C117_share_above (hsame : ∀ s ∈ seconds h, ∀ s' ∈ seconds h, s = s') (hfull : size ≤ (recorded h).length) (Q : Int → Bool) (ε : ℚ) (hε : 0 ≤ ε) :
    ((chance (recorded h).length N (fun us => share (recorded h) Q + ε ≤ share (holding A size (.fin a) time tick (redraw h (gridDraws us))) Q) : ℚ) : ℝ) ≤
      Real.exp (-2 * size * (ε : ℝ) ^ 2) + (recorded h).length ^ 2 / N := by
  have hl : (recorded h).length < 2 ^ 63 := by
    have := length_recorded_le h
    norm_num; omega
  have h1 := C117_as_uniform A a b hA size hsz time tick h ht hr hm hn N hN hsame hfull (fun l => decide (share (recorded h) Q + ε ≤ share l Q))
    (fun l m hlm => by rw [perm_share hlm]) 1 le_rfl
  have h2 := GoMetrics.C116_share_above size 1 (recorded h) (by omega) hfull hl Q ε hε
  simp only [share_snapshot] at h2
  have h3 := (abs_le.1 h1).2
  simp only [decide_eq_true_iff] at h3
  have h4 : chance (recorded h).length N (fun us => share (recorded h) Q + ε ≤ share (holding A size (.fin a) time tick (redraw h (gridDraws us))) Q) ≤
      share (reservoirs size 1 (recorded h)) (fun u => decide (share (recorded h) Q + ε ≤ share u.values Q)) + (recorded h).length ^ 2 / N := by linarith
  have h5 : ((chance (recorded h).length N (fun us => share (recorded h) Q + ε ≤ share (holding A size (.fin a) time tick (redraw h (gridDraws us))) Q) : ℚ) : ℝ) ≤
      ((share (reservoirs size 1 (recorded h)) (fun u => decide (share (recorded h) Q + ε ≤ share u.values Q)) + (recorded h).length ^ 2 / N : ℚ) : ℝ) := by
    exact_mod_cast h4
  refine h5.trans ?_
  push_cast at h2 ⊢
  linarith
end

section
variable (A : Arith) (a b : ℚ) (hA : A.Exact a b) (size : Nat) (hsz : 1 ≤ size) (time tick : Int) (h : List Op) (tick' time' : Int) (ht : InI64 time)
  (hr : ∀ t ∈ readings h, InI64 t) (ht' : InI64 time') (hm : (time :: scaleTimes h ++ [time']).Pairwise (· ≤ ·)) (hn : (h.length : Int) + 1 < 9223372036854775808)
  (N : Nat) (hN : 0 < N) (cp : (Fin (recorded h).length → Fin N) → List WeightedSample)
  (hcp : ∀ us, WeightedSnapshot.IsSorted (afterSnapshot A (run A (new size (.fin a) time tick) (redraw h (gridDraws us))) tick' time').getValues (cp us))

include hA hsz ht hr ht' hm hn hN hcp

/-- The mean a snapshot reports, by positions. -/
theorem mean_top (hne : recorded h ≠ []) (us : Fin (recorded h).length → Fin N) (ho : ¬ Odd b h us) :
    (getSnapshot A (run A (new size (.fin a) time tick) (redraw h (gridDraws us))) tick' time' (cp us)).getMean A.R =
      .ok (.fin ((∑ i ∈ top b h size us, ((recorded h)[i] : ℚ) * b ^ (seconds h)[i]'(by rw [length_seconds]; exact i.2)) /
        ∑ i ∈ top b h size us, b ^ (seconds h)[i]'(by rw [length_seconds]; exact i.2))) := by
  obtain ⟨hp, hties⟩ := noTies_grid b h hN us ho
  obtain ⟨kept, hk, _, _, m, hmean, hmv, _⟩ := C75_statistics A a b hA size (by omega) time tick (redraw h (gridDraws us)) tick' time' ht
    (by rw [readings_redraw]; exact hr) ht' (by rw [scaleTimes_redraw]; exact hm)
    (by
      rw [gridDraws, draws_redraw h _ (by simp)]
      intro u hu
      obtain ⟨q, hq, rfl⟩ := List.mem_map.1 hu
      obtain ⟨m, rfl⟩ := List.mem_ofFn.1 hq
      exact ⟨_, rfl, hp m⟩)
    (by rw [gridDraws, prios_redraw b h _ (by simp)]; exact hties) (by rw [length_redraw]; exact hn)
    (by
      rw [recs_grid]
      intro e
      apply hne
      have := congrArg List.length e
      rw [List.length_ofFn] at this
      exact List.length_eq_zero_iff.1 this) (cp us) (hcp us)
  have hperm := top_kept b h hN us ho size kept hk
  rw [hmean, hmv, (hperm.map _).sum_eq, (hperm.map _).sum_eq, List.map_map, List.map_map, Finset.sum_map_toList, Finset.sum_map_toList]
  rfl

/-- **C117.** All updates in the same second: `GetMean` is off the mean of the values recorded by `t` or more with a chance of at most `variance / (size t²)`, and that term. -/
theorem _root_.GoMetrics.C117_mean_error (hsame : ∀ s ∈ seconds h, ∀ s' ∈ seconds h, s = s') (hfull : size ≤ (recorded h).length) (t : ℚ) (htp : 0 < t) :
    chance (recorded h).length N (fun us => Off ((getSnapshot A (run A (new size (.fin a) time tick) (redraw h (gridDraws us))) tick' time' (cp us)).getMean A.R)
      (mean (recorded h)) t = true) ≤ Estimate.variance (recorded h) / (size * t ^ 2) + 2 * (recorded h).length ^ 2 / N := by
  classical
  have bpos : 0 < b := hA.pos
  have hN' : (0 : ℚ) < N := by exact_mod_cast hN
  have hT : (0 : ℚ) < (N : ℚ) ^ (recorded h).length := by positivity
  have hl : (recorded h).length < 2 ^ 63 := by
    have := length_recorded_le h
    norm_num; omega
  have hm' : (time :: scaleTimes h).Pairwise (· ≤ ·) := by
    have : (time :: scaleTimes h ++ [time']) = (time :: scaleTimes h) ++ [time'] := rfl
    rw [this] at hm
    exact (List.pairwise_append.1 hm).1
  have hne : recorded h ≠ [] := by
    intro e; rw [e] at hfull; simp at hfull; omega
  have h1 := C117_as_uniform A a b hA size hsz time tick h ht hr hm' (by omega) N hN hsame hfull (fun l => decide (t ≤ |mean l - mean (recorded h)|))
    (fun l m hlm => by rw [mean_perm hlm]) 1 le_rfl
  have h2 := GoMetrics.C116_mean_error size 1 (recorded h) le_rfl (by omega) hfull hl t htp
  simp only [mean_snapshot] at h2
  have h3 := (abs_le.1 h1).2
  simp only [decide_eq_true_iff] at h3
  have hodd := odd_card b bpos h hN
  have hval : ∀ us, ¬ Odd b h us → Off ((getSnapshot A (run A (new size (.fin a) time tick) (redraw h (gridDraws us))) tick' time' (cp us)).getMean A.R)
      (mean (recorded h)) t = true → t ≤ |mean (holding A size (.fin a) time tick (redraw h (gridDraws us))) - mean (recorded h)| := by
    intro us ho hoff
    rw [mean_top A a b hA size hsz time tick h tick' time' ht hr ht' hm hn N hN cp hcp hne us ho] at hoff
    simp only [Off, decide_eq_true_iff] at hoff
    have hh := holding_top A a b hA size hsz time tick h ht hr hm' (by omega) N hN us ho
    rw [mean_perm hh]
    have hcard : (top b h size us).card = size := by
      rw [top_low b bpos h hsame, low_card size us ((odd_plain b bpos h hsame us).1 ho) hfull]
    have e : mean ((top b h size us).toList.map fun i => (recorded h)[i]) =
        (∑ i ∈ top b h size us, ((recorded h)[i] : ℚ) * b ^ (seconds h)[i]'(by rw [length_seconds]; exact i.2)) /
        ∑ i ∈ top b h size us, b ^ (seconds h)[i]'(by rw [length_seconds]; exact i.2) := by
      obtain ⟨s0, hs0⟩ : ∃ s0, ∀ i : Fin (recorded h).length, (seconds h)[i]'(by rw [length_seconds]; exact i.2) = s0 := by
        refine ⟨(seconds h)[0]'(by rw [length_seconds]; exact List.length_pos_iff.2 hne), fun i => hsame _ (List.getElem_mem _) _ (List.getElem_mem _)⟩
      simp only [hs0]
      rw [← Finset.sum_mul, Finset.sum_const, nsmul_eq_mul, mul_div_mul_right _ _ (zpow_pos bpos s0).ne']
      unfold mean average
      rw [List.map_map, List.length_map, Finset.length_toList]
      congr 1
      exact Finset.sum_map_toList _ _
    rw [e]; exact hoff
  have hsub : (Finset.univ.filter fun us : Fin (recorded h).length → Fin N =>
      Off ((getSnapshot A (run A (new size (.fin a) time tick) (redraw h (gridDraws us))) tick' time' (cp us)).getMean A.R) (mean (recorded h)) t = true).card ≤
      (Finset.univ.filter fun us : Fin (recorded h).length → Fin N =>
        t ≤ |mean (holding A size (.fin a) time tick (redraw h (gridDraws us))) - mean (recorded h)|).card + (Finset.univ.filter (Odd b h (N := N))).card := by
    refine le_trans (Finset.card_le_card fun us hus => ?_) (Finset.card_union_le _ _)
    simp only [Finset.mem_filter, Finset.mem_univ, true_and, Finset.mem_union] at hus ⊢
    by_cases ho : Odd b h us
    · exact .inr ho
    · exact .inl (hval us ho hus)
  have h4 : chance (recorded h).length N (fun us => Off ((getSnapshot A (run A (new size (.fin a) time tick) (redraw h (gridDraws us))) tick' time' (cp us)).getMean A.R)
      (mean (recorded h)) t = true) ≤ chance (recorded h).length N (fun us =>
        t ≤ |mean (holding A size (.fin a) time tick (redraw h (gridDraws us))) - mean (recorded h)|) + (recorded h).length ^ 2 / N := by
    unfold chance
    rw [div_add' _ _ _ hT.ne', div_le_div_iff_of_pos_right hT]
    have : ((Finset.univ.filter fun us : Fin (recorded h).length → Fin N =>
      Off ((getSnapshot A (run A (new size (.fin a) time tick) (redraw h (gridDraws us))) tick' time' (cp us)).getMean A.R) (mean (recorded h)) t = true).card : ℚ) ≤
      ((Finset.univ.filter fun us : Fin (recorded h).length → Fin N =>
        t ≤ |mean (holding A size (.fin a) time tick (redraw h (gridDraws us))) - mean (recorded h)|).card : ℚ) + ((Finset.univ.filter (Odd b h (N := N))).card : ℚ) := by
      exact_mod_cast hsub
    linarith
  have e2 : (2 * (recorded h).length ^ 2 / N : ℚ) = (recorded h).length ^ 2 / N + (recorded h).length ^ 2 / N := by ring
  rw [e2]
  linarith
end
end GoMetrics.EDR
