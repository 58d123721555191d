import Verif.Proofs.UniformReservoir
import Verif.Spec.UniformReservoir
import Mathlib.Data.Finset.Card
import Mathlib.Data.Finset.Range
import Mathlib.Algebra.Order.BigOperators.Group.Finset
/-! # C48, C49, C51: the uniform reservoir -/
namespace GoMetrics
open UniformReservoir

/-- **C48.** `Size()` is the number of updates or the capacity, whichever is smaller, whatever the random words (and even if a call has not
come out of its loop). -/
theorem C48_size (capacity : Nat) (h : List (Int × List Int)) (hl : h.length < 2 ^ 63) :
    ((new capacity).run h).size = min h.length capacity := by
  have hl' : h.length < 9223372036854775808 := by norm_num at hl; exact hl
  unfold size
  rw [count_run capacity h hl', length_run]
  simp only [new, List.length_replicate]
  split <;> omega

example : ((new 2).run [(5, []), (6, []), (7, [4])]).size = 2 ∧ ((new 2).run [(5, [])]).size = 1 := by decide

/-- **C48.** No call panics as long as the random source delivers a word that stops the loop (`C51_half` says that half of them do). -/
theorem C48_no_panic (capacity : Nat) (h : List (Int × List Int)) (v : Int) (w : List Int) (hl : h.length + 1 < 2 ^ 63)
    (hw : ∀ x ∈ w, 0 ≤ x) :
    (((new capacity).run h).updateN w v).panicked = true ↔ capacity ≤ h.length ∧ nextRandomPos (h.length + 1) w = none := by
  have hl' : h.length + 1 < 9223372036854775808 := by norm_num at hl; exact hl
  have hlen : ((new capacity).run h).values.length = capacity := by rw [length_run]; simp [new]
  have hc := count_run capacity h (by omega)
  by_cases hf : h.length < capacity
  · rw [updateN_fill hc (by omega) hl']
    simp; omega
  · rcases updateN_full hc (by omega) hl' hw v with ⟨hn, hp⟩ | ⟨p, hn, _, hp⟩
    · rw [hp]; simp [hn]; omega
    · rw [hp]; simp [hn]

/-- **C49.** What the slots hold after any history of updates with any random words: the first `Size()` slots are recorded values from pairwise
different positions `idx` of the stream, the others are still zero; as long as the reservoir is not over-full they are simply the stream. -/
theorem C49_contents (capacity : Nat) (h : List (Int × List Int)) (hl : h.length < 2 ^ 63) (hw : ∀ e ∈ h, ∀ x ∈ e.2, 0 ≤ x) :
    ∃ idx : List Nat, idx.Nodup ∧ idx.length = min h.length capacity ∧ (∀ i ∈ idx, i < h.length) ∧
      ((new capacity).run h).values.map some =
        idx.map (fun i => (h.map Prod.fst)[i]?) ++ List.replicate (capacity - h.length) (some 0) ∧
      (h.length ≤ capacity → idx = List.range h.length) := by
  obtain ⟨idx, a, b, c, d, e⟩ := provenance capacity h (by norm_num at hl; exact hl) hw
  exact ⟨idx, a, b, c, by rw [d]; simp, e⟩

/-- **C49.** An update changes at most one slot, and to the value recorded; while there is room it changes only an unused one. -/
theorem C49_one_slot (capacity : Nat) (h : List (Int × List Int)) (v : Int) (w : List Int) (hl : h.length + 1 < 2 ^ 63)
    (hw : ∀ x ∈ w, 0 ≤ x) :
    let before := ((new capacity).run h).values
    let after := ((new capacity).run (h ++ [(v, w)])).values
    (after = before ∧ capacity ≤ h.length) ∨ ∃ slot, slot < capacity ∧ after = before.set slot v ∧
      (h.length < capacity → slot = h.length) := by
  have hl' : h.length + 1 < 9223372036854775808 := by norm_num at hl; exact hl
  have hlen : ((new capacity).run h).values.length = capacity := by rw [length_run]; simp [new]
  have hc := count_run capacity h (by omega)
  intro before after
  show (after = before ∧ _) ∨ _
  have ha : after = (((new capacity).run h).updateN w v).state.values := by show (UniformReservoir.run _ _).values = _; rw [run_snoc]
  by_cases hf : h.length < capacity
  · right
    refine ⟨h.length, hf, ?_, fun _ => rfl⟩
    rw [ha, updateN_fill hc (by omega) hl']; rfl
  · rcases updateN_full hc (by omega) hl' hw v with ⟨hn, hp⟩ | ⟨p, hn, _, hp⟩
    · left; rw [ha, hp]; exact ⟨rfl, by omega⟩
    · rw [ha, hp, hlen]
      by_cases hpc : p < capacity
      · right
        exact ⟨p, hpc, by simp only [Res.state_ok, if_pos hpc]; rfl, by omega⟩
      · left; exact ⟨by simp only [Res.state_ok, if_neg hpc]; rfl, by omega⟩

example : ((new 2).run [(5, []), (6, []), (7, [4])]).values = [5, 7] := by decide

/-! ## C51 -/

namespace UniformReservoir
theorem accepts_iff {n r : Nat} (hn : 1 ≤ n) (hn' : n < 9223372036854775808) (hr : r < 9223372036854775808) :
    accepts n r = true ↔ r < 9223372036854775808 / n * n := by
  unfold accepts
  rw [Int.tmod_eq_emod_of_nonneg (by omega)]
  have hm : ((r : Int) % (n : Int)) = ((r % n : Nat) : Int) := by simp
  rw [hm]
  have h1 : r % n < n := Nat.mod_lt _ (by omega)
  have h2 : r % n ≤ r := Nat.mod_le _ _
  have h3 : n * (r / n) + r % n = r := Nat.div_add_mod r n
  have e : i64 (i64 (i64 ((r : Int) - (r % n : Nat)) + n) - 1) = i64 ((r : Int) - (r % n : Nat) + n - 1) := by
    unfold i64; omega
  rw [e]
  have h4 : (decide (0 ≤ i64 ((r : Int) - (r % n : Nat) + n - 1)) = true) ↔ r - r % n + n - 1 < 9223372036854775808 := by
    rw [decide_eq_true_iff]; unfold i64; omega
  rw [h4]
  have h5 : r - r % n = r / n * n := by rw [Nat.mul_comm]; omega
  rw [h5]
  have h6 : 9223372036854775808 / n * n ≤ 9223372036854775808 := Nat.div_mul_le_self _ _
  constructor
  · intro h
    have h7 : (r / n + 1) * n ≤ 9223372036854775808 := by rw [Nat.add_mul]; omega
    have h8 : r / n + 1 ≤ 9223372036854775808 / n := (Nat.le_div_iff_mul_le (by omega)).2 h7
    have h9 := Nat.mul_le_mul_right n h8
    rw [Nat.add_mul] at h9
    have h10 : r / n * n = n * (r / n) := Nat.mul_comm _ _
    omega
  · intro h
    have h8 : r / n < 9223372036854775808 / n := (Nat.div_lt_iff_lt_mul (by omega)).2 h
    have h9 := Nat.mul_le_mul_right n (Nat.succ_le_of_lt h8)
    rw [Nat.succ_mul] at h9
    omega

theorem card_residue (M n v : Nat) (hv : v < n) :
    ((Finset.range M).filter (fun r => r < M / n * n ∧ r % n = v)).card = M / n := by
  have hle : M / n * n ≤ M := Nat.div_mul_le_self _ _
  have : (Finset.range M).filter (fun r => r < M / n * n ∧ r % n = v) = (Finset.range (M / n)).image (fun i => i * n + v) := by
    ext r
    simp only [Finset.mem_filter, Finset.mem_range, Finset.mem_image]
    constructor
    · rintro ⟨h1, h2, h3⟩
      refine ⟨r / n, (Nat.div_lt_iff_lt_mul (by omega)).2 h2, ?_⟩
      rw [← h3, Nat.mul_comm]; exact Nat.div_add_mod r n
    · rintro ⟨i, hi, rfl⟩
      have h9 := Nat.mul_le_mul_right n (Nat.succ_le_of_lt hi)
      rw [Nat.succ_mul] at h9
      refine ⟨by omega, by omega, ?_⟩
      rw [Nat.add_comm, Nat.add_mul_mod_self_right]
      exact Nat.mod_eq_of_lt hv
  rw [this, Finset.card_image_of_injective _ (fun a b h => ?_), Finset.card_range]
  have h' : a * n = b * n := by simpa using h
  exact Nat.eq_of_mul_eq_mul_right (by omega) h'

theorem card_accepted (M n : Nat) (hn : 1 ≤ n) (hn' : n ≤ M) :
    M < 2 * ((Finset.range M).filter (fun r => r < M / n * n)).card + 1 := by
  have hle : M / n * n ≤ M := Nat.div_mul_le_self _ _
  have : (Finset.range M).filter (fun r => r < M / n * n) = Finset.range (M / n * n) := by
    ext r; simp only [Finset.mem_filter, Finset.mem_range]; omega
  rw [this, Finset.card_range]
  have h1 : n * (M / n) + M % n = M := Nat.div_add_mod M n
  have h2 : M % n < n := Nat.mod_lt _ (by omega)
  have h3 : 1 ≤ M / n := (Nat.le_div_iff_mul_le (by omega)).2 (by omega)
  have h4 := Nat.mul_le_mul_right n h3
  have h5 : M / n * n = n * (M / n) := Nat.mul_comm _ _
  omega
end UniformReservoir

/-- **C51.** Whatever the words, the position is in `[0, n)`. -/
theorem C51_range (n : Nat) (hn : 1 ≤ n) (words : List Nat) (p : Int) (h : nextRandomPos n (words.map (↑)) = some p) :
    0 ≤ p ∧ p < n :=
  nextRandomPos_range (by omega) (by simp) h

/-- **C51.** Each of the `n` positions is the answer to exactly `2^63 / n` of the 2^63 words; the remaining words are rejected. So the position
is uniformly distributed if the words are. -/
theorem C51_uniform (n : Nat) (hn : 1 ≤ n) (hn' : n < 2 ^ 63) (p : Nat) (hp : p < n) :
    ((Finset.range (2 ^ 63)).filter (fun r : Nat => nextRandomPos n [(r : Int)] = some (p : Int))).card = 2 ^ 63 / n := by
  have e63 : (2 : Nat) ^ 63 = 9223372036854775808 := by norm_num
  rw [e63] at hn' ⊢
  generalize hM : (9223372036854775808 : Nat) = M at *
  rw [← card_residue M n p hp]
  congr 1
  refine Finset.filter_congr fun r hr => ?_
  rw [Finset.mem_range] at hr
  subst hM
  have ha := accepts_iff hn hn' hr
  have hm : ((r : Int)).tmod (n : Int) = ((r % n : Nat) : Int) := by
    rw [Int.tmod_eq_emod_of_nonneg (by omega)]; simp
  rw [nextRandomPos, nextRandomPos, hm]
  by_cases h : accepts n r = true
  · rw [if_pos h]
    simp only [Option.some.injEq, Int.natCast_inj]
    exact ⟨fun e => ⟨ha.1 h, e⟩, fun e => e.2⟩
  · rw [if_neg h]
    simp only [reduceCtorEq, false_iff]
    exact fun e => h (ha.2 e.1)

/-- **C51.** At least half of the words stop the loop. -/
theorem C51_half (n : Nat) (hn : 1 ≤ n) (hn' : n < 2 ^ 63) :
    2 ^ 62 ≤ ((Finset.range (2 ^ 63)).filter (fun r : Nat => nextRandomPos n [(r : Int)] ≠ none)).card := by
  have e63 : (2 : Nat) ^ 63 = 9223372036854775808 := by norm_num
  have e62 : (2 : Nat) ^ 62 = 4611686018427387904 := by norm_num
  rw [e63] at hn' ⊢
  rw [e62]
  have := card_accepted 9223372036854775808 n hn (by omega)
  have he : (Finset.range 9223372036854775808).filter (fun r : Nat => nextRandomPos n [(r : Int)] ≠ none) =
      (Finset.range 9223372036854775808).filter (fun r => r < 9223372036854775808 / n * n) := by
    refine Finset.filter_congr fun r hr => ?_
    rw [Finset.mem_range] at hr
    rw [← accepts_iff hn hn' hr, nextRandomPos, nextRandomPos]
    by_cases h : accepts n r = true
    · rw [if_pos h]; simp [h]
    · rw [if_neg h]; simp [h]
  rw [he]
  omega

/-- **C51.** The loop returns the position of the first word that is not rejected. -/
theorem C51_first (n : Int) (rejected : List Int) (r : Int) (rest : List Int) (hrej : ∀ w ∈ rejected, nextRandomPos n [w] = none)
    (hr : nextRandomPos n [r] ≠ none) : nextRandomPos n (rejected ++ r :: rest) = nextRandomPos n [r] := by
  induction rejected with
  | nil =>
    simp only [List.nil_append, nextRandomPos] at hr ⊢
    by_cases h : accepts n r = true
    · rw [if_pos h, if_pos h]
    · rw [if_neg h] at hr; simp at hr
  | cons w t ih =>
    have hw := hrej w (by simp)
    simp only [nextRandomPos] at hw
    by_cases h : accepts n w = true
    · rw [if_pos h] at hw; simp at hw
    · rw [List.cons_append, nextRandomPos, if_neg h]
      exact ih (fun w hw => hrej w (by simp [hw]))

/-- The largest word is rejected for n = 3 (2^63 is not divisible by 3), the next two smaller too; then 7 gives 1. -/
example : nextRandomPos 3 [9223372036854775807, 9223372036854775806, 7] = some 1 ∧ nextRandomPos 3 [9223372036854775805] = some 2 := by decide

end GoMetrics
