import Verif.Props.EDRSecond
/-! # C117: across seconds the weights count twice -/
namespace GoMetrics.EDR
open Marginals Estimate UniformFair

/-- An update that `older` others are at least `d` seconds older than, and no others exist: the chance that it is not among the `c` highest priorities. -/
theorem top_new (b : ℚ) (hb : 1 ≤ b) (h : List Op) (c : Nat) (hc : 0 < c) {N : Nat} (hN : 0 < N) (j : Fin (recorded h).length) (d : Nat)
    (hd : ∀ i, i ≠ j → (seconds h)[i]'(by rw [length_seconds]; exact i.2) + d ≤ (seconds h)[j]'(by rw [length_seconds]; exact j.2)) :
    chance (recorded h).length N (fun us => j ∉ top b h c us) ≤ ((recorded h).length - 1 : Nat) / c * (1 / b ^ d / 2) + (recorded h).length ^ 2 / N := by
  classical
  have bpos : 0 < b := lt_of_lt_of_le one_pos hb
  have key := chance_le b bpos h hN (fun us => j ∉ top b h c us) (fun i us => 0 < (us i : Nat) ∧ ((us i : Nat) : ℚ) ≤ 1 / b ^ d * (us j : Nat)) (Finset.univ.erase j) c hc
    (1 / b ^ d / 2) (by
      intro us hheld hodd
      unfold top at hheld
      simp only [Finset.mem_filter, Finset.mem_univ, true_and, not_lt] at hheld
      refine hheld.trans (Finset.card_le_card ?_)
      intro m hm
      simp only [Finset.mem_filter, Finset.mem_univ, true_and, Finset.mem_erase, and_true] at hm ⊢
      have hmj : m ≠ j := by rintro rfl; exact lt_irrefl _ hm
      exact ⟨hmj, Nat.pos_of_ne_zero fun e => hodd (.inl ⟨m, e⟩), beaten b hb (hd m hmj) (by positivity) hm.le⟩) (by
      intro i hi
      exact beats (i := i) (j := j) (Finset.ne_of_mem_erase hi) hN _ (by positivity))
  rw [Finset.card_erase_of_mem (Finset.mem_univ _), Finset.card_univ, Fintype.card_fin] at key
  exact key

theorem chance_mono {n N : Nat} (P Q : (Fin n → Fin N) → Prop) [DecidablePred P] [DecidablePred Q] (h : ∀ us, P us → Q us) : chance n N P ≤ chance n N Q := by
  unfold chance
  have : (Finset.univ.filter P).card ≤ (Finset.univ.filter Q).card := Finset.card_le_card fun us hus => by
    simp only [Finset.mem_filter, Finset.mem_univ, true_and] at hus ⊢
    exact h us hus
  gcongr

theorem chance_or {n N : Nat} (P Q : (Fin n → Fin N) → Prop) [DecidablePred P] [DecidablePred Q] : chance n N (fun us => P us ∨ Q us) ≤ chance n N P + chance n N Q := by
  unfold chance
  rw [← add_div]
  have : (Finset.univ.filter fun us => P us ∨ Q us).card ≤ (Finset.univ.filter P).card + (Finset.univ.filter Q).card := by
    rw [Finset.filter_or]; exact Finset.card_union_le _ _
  have h' : ((Finset.univ.filter fun us => P us ∨ Q us).card : ℚ) ≤ ((Finset.univ.filter P).card : ℚ) + (Finset.univ.filter Q).card := by exact_mod_cast this
  gcongr

theorem top_card (b : ℚ) (h : List Op) {N : Nat} (hN : 0 < N) (us : Fin (recorded h).length → Fin N) (ho : ¬ Odd b h us) (c : Nat) (kept : List Rec)
    (hk : TopK b c (recs (redraw h (gridDraws us))) kept) (hc : c ≤ (recorded h).length) : (top b h c us).card = c := by
  have h1 := (top_kept b h hN us ho c kept hk).length_eq
  have h2 := hk.size
  rw [recs_grid, List.length_ofFn] at h2
  rw [List.length_map, Finset.length_toList] at h1
  omega

section
variable (A : Arith) (a b : ℚ) (hA : A.Exact a b) (size : Nat) (hsz : 1 ≤ size) (time tick : Int) (h : List Op) (tick' time' : Int) (ht : InI64 time)
  (hr : ∀ t ∈ readings h, InI64 t) (ht' : InI64 time') (hm : (time :: scaleTimes h ++ [time']).Pairwise (· ≤ ·)) (hn : (h.length : Int) + 1 < 9223372036854775808)
  (N : Nat) (hN : 0 < N) (cp : (Fin (recorded h).length → Fin N) → List WeightedSample)
  (hcp : ∀ us, WeightedSnapshot.IsSorted (afterSnapshot A (run A (new size (.fin a) time tick) (redraw h (gridDraws us))) tick' time').getValues (cp us))

include hA hsz ht hr ht' hm hn hN hcp

/-- **C117.** `m` values 0 in one second and, `d` seconds later, one value 1; the reservoir has room for `size ≤ m`. The mean in which a value counts `b` times as much as one a second
older is `b^d / (b^d + m)`; `GetMean` returns `b^d / (b^d + size - 1)`, except with a chance of at most `m / (2 size b^d)` and a term for draws of zero and ties: that the newer value is
much likelier to be in the reservoir and that it then counts much more are two effects of the same weight. -/
theorem _root_.GoMetrics.C117_twice (m d : Nat) (s : Int) (hv : recorded h = List.replicate m 0 ++ [1]) (hs : seconds h = List.replicate m s ++ [s + d]) (hfull : size ≤ m) :
    timeMean b (recorded h) (seconds h) = b ^ d / (b ^ d + m) ∧
    chance (recorded h).length N (fun us => (getSnapshot A (run A (new size (.fin a) time tick) (redraw h (gridDraws us))) tick' time' (cp us)).getMean A.R ≠
      .ok (.fin (b ^ d / (b ^ d + (size - 1))))) ≤ m / (2 * size * b ^ d) + 2 * (m + 1) ^ 2 / N := by
  classical
  have bpos : 0 < b := hA.pos
  have hN' : (0 : ℚ) < N := by exact_mod_cast hN
  have hsp : 0 < b ^ s := zpow_pos bpos s
  have hdp : 0 < b ^ d := pow_pos bpos d
  have hz : b ^ (s + (d : Int)) = b ^ s * b ^ d := by rw [zpow_add₀ bpos.ne', zpow_natCast]
  have hlen : (recorded h).length = m + 1 := by rw [hv]; simp
  have hsq : (1 : ℚ) ≤ size := by exact_mod_cast hsz
  constructor
  · unfold timeMean
    rw [hv, hs, List.zipWith_append (by simp), List.map_append, List.sum_append, List.sum_append, List.map_replicate, List.zipWith_replicate]
    simp only [List.sum_replicate, List.zipWith_cons_cons, List.zipWith_nil_left, List.map_cons, List.map_nil, List.sum_singleton, min_self, Int.cast_zero, zero_mul,
      smul_zero, zero_add, Int.cast_one, one_mul, nsmul_eq_mul, hz]
    rw [show (m : ℚ) * b ^ s + b ^ s * b ^ d = b ^ s * (b ^ d + m) by ring, mul_div_mul_left _ _ hsp.ne']
  · let j : Fin (recorded h).length := ⟨m, by omega⟩
    have hvj : (recorded h)[j] = 1 := by
      show (recorded h)[m]'_ = 1
      simp only [hv]
      rw [List.getElem_append_right (by simp)]; simp
    have hsj : (seconds h)[j]'(by rw [length_seconds]; exact j.2) = s + d := by
      show (seconds h)[m]'_ = _
      simp only [hs]
      rw [List.getElem_append_right (by simp)]; simp
    have hi : ∀ i : Fin (recorded h).length, i ≠ j → (i : Nat) < m := by
      intro i hij
      have h1 := i.2
      have h2 : (i : Nat) ≠ m := fun e => hij (Fin.ext e)
      omega
    have hvi : ∀ i : Fin (recorded h).length, i ≠ j → (recorded h)[i] = 0 := by
      intro i hij
      have := hi i hij
      show (recorded h)[(i : Nat)]'_ = 0
      simp only [hv]
      rw [List.getElem_append_left (by simpa using this)]; simp
    have hsi : ∀ i : Fin (recorded h).length, i ≠ j → (seconds h)[i]'(by rw [length_seconds]; exact i.2) = s := by
      intro i hij
      have := hi i hij
      show (seconds h)[(i : Nat)]'_ = s
      simp only [hs]
      rw [List.getElem_append_left (by simpa using this)]; simp
    have hne : recorded h ≠ [] := by rw [hv]; simp
    have hm' : (time :: scaleTimes h).Pairwise (· ≤ ·) := by
      have : (time :: scaleTimes h ++ [time']) = (time :: scaleTimes h) ++ [time'] := rfl
      rw [this] at hm
      exact (List.pairwise_append.1 hm).1
    have hval : ∀ us, ¬ Odd b h us → j ∈ top b h size us →
        (getSnapshot A (run A (new size (.fin a) time tick) (redraw h (gridDraws us))) tick' time' (cp us)).getMean A.R = .ok (.fin (b ^ d / (b ^ d + (size - 1)))) := by
      intro us ho hj
      rw [mean_top A a b hA size hsz time tick h tick' time' ht hr ht' hm hn N hN cp hcp hne us ho]
      have hcard : (top b h size us).card = size := by
        obtain ⟨hp, hties⟩ := noTies_grid b h hN us ho
        obtain ⟨kept, hk, -⟩ := C64_top A a b hA size (by omega) time tick (redraw h (gridDraws us)) ht (by rw [readings_redraw]; exact hr)
          (by rw [scaleTimes_redraw]; exact hm')
          (by
            rw [gridDraws, draws_redraw h _ (by simp)]
            intro u hu
            obtain ⟨q, hq, rfl⟩ := List.mem_map.1 hu
            obtain ⟨m, rfl⟩ := List.mem_ofFn.1 hq
            exact ⟨_, rfl, hp m⟩)
          (by rw [gridDraws, prios_redraw b h _ (by simp)]; exact hties) (by rw [length_redraw]; omega)
        exact top_card b h hN us ho size kept hk (by omega)
      have e1 : ∑ i ∈ top b h size us, ((recorded h)[i] : ℚ) * b ^ (seconds h)[i]'(by rw [length_seconds]; exact i.2) = b ^ s * b ^ d := by
        rw [Finset.sum_eq_single j]
        · rw [hvj, hsj, hz]; norm_num
        · intro i _ hij
          rw [hvi i hij]; simp
        · intro hn; exact absurd hj hn
      have e2 : ∑ i ∈ top b h size us, b ^ (seconds h)[i]'(by rw [length_seconds]; exact i.2) = b ^ s * (b ^ d + (size - 1)) := by
        rw [← Finset.add_sum_erase _ _ hj, hsj, hz, Finset.sum_congr rfl (g := fun _ => b ^ s) (fun i hi' => by rw [hsi i (Finset.ne_of_mem_erase hi')]),
          Finset.sum_const, Finset.card_erase_of_mem hj, hcard, nsmul_eq_mul, Nat.cast_sub hsz]
        push_cast; ring
      rw [e1, e2, mul_div_mul_left _ _ hsp.ne']
    have hnew := top_new b hA.base h size (by omega) hN j d (fun i hij => by rw [hsi i hij, hsj])
    have hodd : chance (recorded h).length N (Odd b h (N := N)) ≤ (recorded h).length ^ 2 / N := by
      unfold chance
      rw [div_le_iff₀ (by positivity), mul_comm]
      exact odd_card b bpos h hN
    have h1 := chance_mono (fun us => (getSnapshot A (run A (new size (.fin a) time tick) (redraw h (gridDraws us))) tick' time' (cp us)).getMean A.R ≠
      .ok (.fin (b ^ d / (b ^ d + (size - 1))))) (fun us => j ∉ top b h size us ∨ Odd b h us) (by
        intro us hus
        by_contra hcon
        push Not at hcon
        exact hus (hval us hcon.2 hcon.1))
    refine h1.trans ((chance_or _ _).trans ((add_le_add hnew hodd).trans (le_of_eq ?_)))
    rw [hlen]
    push_cast
    field_simp
    ring
end

/-- `m` times 0 in second 1 and 1 in second `1 + d`. -/
def bursts (m d : Nat) : List Op := List.replicate m (.updateN ⟨0, 0, 1000, .fin 0⟩ 0) ++ [.updateN ⟨0, 0, 1000 * (1 + d), .fin 0⟩ 1]

theorem bursts_recorded (m d : Nat) : recorded (bursts m d) = List.replicate m 0 ++ [1] := by
  induction m with
  | zero => rfl
  | succ m ih => rw [bursts, List.replicate_succ, List.cons_append, recorded, ← bursts, ih]; rfl

theorem bursts_seconds (m d : Nat) : seconds (bursts m d) = List.replicate m 1 ++ [1 + (d : Int)] := by
  induction m with
  | zero =>
    show [(1000 * (1 + (d : Int))).tdiv 1000] = [1 + (d : Int)]
    rw [Int.mul_tdiv_cancel_left _ (by norm_num)]
  | succ m ih => rw [bursts, List.replicate_succ, List.cons_append, seconds, ← bursts, ih]; rfl

theorem bursts_scaleTimes (m d : Nat) : scaleTimes (bursts m d) = List.replicate m 0 ++ [0] := by
  induction m with
  | zero => rfl
  | succ m ih => rw [bursts, List.replicate_succ, List.cons_append, scaleTimes, ← bursts, ih]; rfl

theorem bursts_readings (m d : Nat) (hd : d < 2 ^ 40) : ∀ t ∈ readings (bursts m d), InI64 t := by
  have hd' : d < 1099511627776 := by norm_num at hd; exact hd
  induction m with
  | zero =>
    intro t ht
    have : t ∈ [(0 : Int), 1000 * (1 + (d : Int))] := ht
    simp only [List.mem_cons, List.not_mem_nil, or_false] at this
    unfold InI64
    omega
  | succ m ih =>
    rw [bursts, List.replicate_succ, List.cons_append, readings, ← bursts]
    intro t ht
    simp only [List.mem_cons] at ht
    rcases ht with rfl | rfl | ht
    · decide
    · decide
    · exact ih t ht

theorem bursts_length (m d : Nat) : (bursts m d).length = m + 1 := by simp [bursts]

/-- Slices can be sorted. -/
theorem sorted_copy (l : List WeightedSample) : ∃ cp, WeightedSnapshot.IsSorted l cp := by
  refine ⟨l.mergeSort (fun a b => decide (a.value ≤ b.value)), List.mergeSort_perm _ _, ?_⟩
  have := List.pairwise_mergeSort (le := fun a b : WeightedSample => decide (a.value ≤ b.value)) (by
    intro a b c h1 h2; simp only [decide_eq_true_iff] at *; omega) (by intro a b; simp only [Bool.or_eq_true, decide_eq_true_iff]; omega) l
  exact this.imp fun h => by simpa using h

/-- **C117, refuted:** `GetMean` of a decaying reservoir is, at least with a chance of one half, at most a hundred times the mean of the recorded values (none negative) in which a value
counts `b` times as much as one a second older. In exact arithmetic, with the size 1028 of a default reservoir and draws of `rand.Float64`: after 2048000 values 0 and, twelve seconds
later (with `b = 2`), one value 1 that mean is 1/501, and with a chance of more than 3/4 `GetMean` returns 4096/5123. -/
theorem _root_.GoMetrics.C117_estimates_refuted :
    ¬ ∀ (A : Arith) (a b : ℚ), A.Exact a b → ∀ (time tick : Int) (h : List Op) (tick' time' : Int), InI64 time → (∀ t ∈ readings h, InI64 t) → InI64 time' →
      (time :: scaleTimes h ++ [time']).Pairwise (· ≤ ·) → (∀ v ∈ recorded h, 0 ≤ v) → recorded h ≠ [] →
      ∀ cp : (Fin (recorded h).length → Fin (2 ^ 53)) → List WeightedSample,
      (∀ us, WeightedSnapshot.IsSorted (afterSnapshot A (run A (new 1028 (.fin a) time tick) (redraw h (gridDraws us))) tick' time').getValues (cp us)) →
      1 / 2 ≤ chance (recorded h).length (2 ^ 53) (fun us => AtMost ((getSnapshot A (run A (new 1028 (.fin a) time tick) (redraw h (gridDraws us))) tick' time' (cp us)).getMean A.R)
        (100 * timeMean b (recorded h) (seconds h)) = true) := by
  intro hall
  have hcps := fun us : Fin (recorded (bursts 2048000 12)).length → Fin (2 ^ 53) =>
    sorted_copy (afterSnapshot demoExact (run demoExact (new (1028 : Nat) (.fin 1) 0 0) (redraw (bursts 2048000 12) (gridDraws us))) 0 13000).getValues
  choose cp hcp using hcps
  have hmono : ((0 : Int) :: scaleTimes (bursts 2048000 12) ++ [13000]).Pairwise (· ≤ ·) := by
    rw [bursts_scaleTimes]
    have : ∀ n : Nat, ((0 : Int) :: (List.replicate n 0 ++ [0]) ++ [13000]).Pairwise (· ≤ ·) := by
      intro n
      have e : ((0 : Int) :: (List.replicate n 0 ++ [0]) ++ [13000]) = List.replicate (n + 2) 0 ++ [13000] := by
        rw [List.replicate_succ, List.replicate_succ']
      rw [e, List.pairwise_append]
      refine ⟨List.pairwise_replicate.2 (.inr le_rfl), by simp, ?_⟩
      intro a ha b hb
      rw [List.eq_of_mem_replicate ha, List.mem_singleton.1 hb]; norm_num
    exact this _
  have hlen : (recorded (bursts 2048000 12)).length = 2048001 := by rw [bursts_recorded, List.length_append, List.length_replicate, List.length_singleton]
  have h2 := GoMetrics.C117_twice demoExact 1 2 demoExact_exact 1028 (by norm_num) 0 0 (bursts 2048000 12) 0 13000 (by decide) (bursts_readings _ _ (by norm_num)) (by decide) hmono
    (by rw [bursts_length]; norm_num) (2 ^ 53) (by norm_num) cp hcp 2048000 12 1 (bursts_recorded _ _) (bursts_seconds _ _) (by norm_num)
  have h1 := hall demoExact 1 2 demoExact_exact 0 0 (bursts 2048000 12) 0 13000 (by decide) (bursts_readings _ _ (by norm_num)) (by decide) hmono
    (by
      rw [bursts_recorded]
      intro v hv
      rcases List.mem_append.1 hv with h | h
      · rw [List.eq_of_mem_replicate h]
      · rw [List.mem_singleton.1 h]; norm_num)
    (by
      intro e
      rw [e] at hlen
      exact absurd hlen (by decide)) cp hcp
  have h3 := h1.trans (chance_mono _ (fun us => (getSnapshot demoExact (run demoExact (new (1028 : Nat) (.fin 1) 0 0) (redraw (bursts 2048000 12) (gridDraws us))) 0 13000 (cp us)).getMean
      demoExact.R ≠ .ok (.fin ((2 : ℚ) ^ 12 / (2 ^ 12 + (((1028 : Nat) : ℚ) - 1))))) (by
    intro us hle heq
    have hle' := (congrArg (fun r => AtMost r (100 * timeMean 2 (recorded (bursts 2048000 12)) (seconds (bursts 2048000 12)))) heq).symm.trans hle
    rw [h2.1] at hle'
    simp only [AtMost, decide_eq_true_iff] at hle'
    norm_num at hle'))
  have h4 := h3.trans h2.2
  norm_num at h4

/-- The hypotheses of `C117_fair` and the others for one second are met by three updates of second 1 in a reservoir for two. -/
def sameSecond : List Op := [.updateN ⟨0, 0, 1000, .fin 0⟩ 7, .updateN ⟨0, 500, 1300, .fin 0⟩ 9, .updateN ⟨0, 1300, 1700, .fin 0⟩ 7]

example : (∀ s ∈ seconds sameSecond, ∀ s' ∈ seconds sameSecond, s = s') ∧ ((0 : Int) :: scaleTimes sameSecond ++ [2000]).Pairwise (· ≤ ·) ∧
    2 ≤ (recorded sameSecond).length ∧ (∀ t ∈ readings sameSecond, InI64 t) := by decide

/-- The chance that it holds 7 and 7 is 1/3, up to 9/2^53. -/
example : |chance 3 (2 ^ 53) (fun us => (decide ((holding demoExact 2 (.fin 1) 0 0 (redraw sameSecond (gridDraws us))).count 7 = 2)) = true) - 1 / 3| ≤ 9 / 2 ^ 53 := by
  have h := GoMetrics.C117_fair demoExact 1 2 demoExact_exact 2 (by norm_num) 0 0 sameSecond (by decide) (by decide) (by decide) (by decide) (2 ^ 53) (by norm_num)
    (by decide) (by decide) (fun l => decide (l.count 7 = 2)) (fun l m hlm => by rw [hlm.count_eq])
  have e : ((Finset.powersetCard 2 (Finset.univ : Finset (Fin (recorded sameSecond).length))).filter fun S =>
      (decide ((S.toList.map fun i => (recorded sameSecond)[i]).count 7 = 2)) = true).card = 1 := by
    have e1 : ∀ S : Finset (Fin (recorded sameSecond).length), (S.toList.map fun i => (recorded sameSecond)[i]).count 7 = (S.filter fun i => (recorded sameSecond)[i] = 7).card := by
      intro S
      rw [List.count, List.countP_map, ← Finset.length_toList, List.countP_eq_length_filter]
      have := List.Perm.length_eq ((List.perm_ext_iff_of_nodup ((Finset.nodup_toList S).filter (((fun x : Int => x == 7) ∘ fun i => (recorded sameSecond)[i])))
        (Finset.nodup_toList (S.filter fun i => (recorded sameSecond)[i] = 7))).2 (by intro i; simp))
      exact this
    simp only [e1]
    decide +kernel
  rw [e] at h
  have e2 : (recorded sameSecond).length = 3 := rfl
  simp only [e2] at h
  norm_num at h ⊢
  exact h

end GoMetrics.EDR
