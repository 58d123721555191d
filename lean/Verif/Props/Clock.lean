import Verif.Model.Clock
import Verif.Proofs.Seconds
import Verif.Proofs.Float
/-! # C72, C73, C78: clocks and the float comparison -/
namespace GoMetrics
open Rounding
namespace ManualClock

/-- The durations added by a sequence of calls. -/
def added : List Op → List Int
  | [] => []
  | .add d :: h => d :: added h
  | _ :: h => added h

/-- **C72.** After any sequence of calls the tick is the start plus the sum of the durations added, as an int64; the time is the tick in whole
milliseconds, truncated towards zero. -/
theorem C72_sum (t0 : Int) (ht : InI64 t0) (h : List Op) :
    ((ManualClock.mk t0).run h).1.getTick = i64 (t0 + (added h).sum) ∧
    ((ManualClock.mk t0).run h).1.getTime = (i64 (t0 + (added h).sum)).tdiv 1000000 := by
  have key : ∀ (h : List Op) (t0 : Int), InI64 t0 → ((ManualClock.mk t0).run h).1.tickInNanos = i64 (t0 + (added h).sum) := by
    intro h
    induction h with
    | nil => intro t0 ht; simp [run, added, i64_of_in ht]
    | cons o h ih =>
      intro t0 ht
      cases o with
      | getTick => exact ih t0 ht
      | getTime => exact ih t0 ht
      | add d =>
        show ((ManualClock.mk (i64 (t0 + d))).run h).1.tickInNanos = i64 (t0 + (d + (added h).sum))
        rw [ih _ (i64_in _), i64_add_left, add_assoc]
  exact ⟨key h t0 ht, by unfold getTime; rw [key h t0 ht]; rfl⟩

/-- **C72.** In which order goroutines get to call `Add` does not matter: if the calls of an execution are those of the goroutines, in whatever
interleaving, the tick afterwards is the sum of all the durations of all goroutines. -/
theorem C72_interleaving (goroutines : List (List Int)) (h : List Op) (hp : (added h).Perm goroutines.flatten) :
    ((ManualClock.mk 0).run h).1.getTick = i64 (goroutines.map List.sum).sum := by
  rw [(C72_sum 0 (by decide) h).1, hp.sum_eq, List.sum_flatten, zero_add]

example : let h : List Op := [.add 5, .getTick, .add (-2), .add 3000000, .getTime]
    (added h).Perm [[5, 3000000], [-2]].flatten ∧ ((ManualClock.mk 0).run h) = (⟨3000003⟩, [5, 3]) := by decide

/-- The values `GetTick` (resp. `GetTime`) returned. -/
def ticksSeen (c : ManualClock) : List Op → List Int
  | [] => []
  | .getTick :: h => c.getTick :: ticksSeen c h
  | o :: h => ticksSeen (c.step o).1 h

/-- The values `GetTime` returned. -/
def timesSeen (c : ManualClock) : List Op → List Int
  | [] => []
  | .getTime :: h => c.getTime :: timesSeen c h
  | o :: h => timesSeen (c.step o).1 h

theorem tdiv_mono {a b k : Int} (hk : 0 < k) (h : a ≤ b) : a.tdiv k ≤ b.tdiv k := by
  rcases le_or_gt 0 a with ha | ha
  · rw [Int.tdiv_eq_ediv_of_nonneg ha, Int.tdiv_eq_ediv_of_nonneg (by omega)]
    exact Int.ediv_le_ediv hk h
  · have e1 : a.tdiv k = -(-a).tdiv k := by rw [Int.neg_tdiv, neg_neg]
    rw [e1]
    have h1 : 0 ≤ (-a).tdiv k := Int.tdiv_nonneg (by omega) hk.le
    rcases le_or_gt 0 b with hb | hb
    · have := Int.tdiv_nonneg hb hk.le; omega
    · have e2 : b.tdiv k = -(-b).tdiv k := by rw [Int.neg_tdiv, neg_neg]
      rw [e2]
      have : (-b).tdiv k ≤ (-a).tdiv k := by
        rw [Int.tdiv_eq_ediv_of_nonneg (by omega), Int.tdiv_eq_ediv_of_nonneg (by omega)]
        exact Int.ediv_le_ediv hk (by omega)
      omega

/-- **C72.** If no duration is negative and the sum stays within int64, readings never go back, neither of the tick nor of the time, whichever
goroutines take them. -/
theorem C72_monotone (t0 : Int) (ht : InI64 t0) (h : List Op) (hd : ∀ d ∈ added h, 0 ≤ d) (hs : InI64 (t0 + (added h).sum)) :
    (t0 :: ticksSeen ⟨t0⟩ h).Pairwise (· ≤ ·) ∧ ((ManualClock.mk t0).getTime :: timesSeen ⟨t0⟩ h).Pairwise (· ≤ ·) := by
  have key : ∀ (h : List Op) (t0 : Int), InI64 t0 → (∀ d ∈ added h, 0 ≤ d) → InI64 (t0 + (added h).sum) →
      (ticksSeen ⟨t0⟩ h).Pairwise (· ≤ ·) ∧ (∀ x ∈ ticksSeen ⟨t0⟩ h, t0 ≤ x) ∧
      (timesSeen ⟨t0⟩ h).Pairwise (· ≤ ·) ∧ (∀ x ∈ timesSeen ⟨t0⟩ h, t0.tdiv 1000000 ≤ x) := by
    intro h
    induction h with
    | nil => intro t0 _ _ _; simp [ticksSeen, timesSeen]
    | cons o h ih =>
      intro t0 ht hd hs
      cases o with
      | getTick =>
        obtain ⟨h1, h2, h3, h4⟩ := ih t0 ht hd hs
        exact ⟨List.pairwise_cons.2 ⟨h2, h1⟩, by simpa [ticksSeen, getTick] using h2, h3, h4⟩
      | getTime =>
        obtain ⟨h1, h2, h3, h4⟩ := ih t0 ht hd hs
        exact ⟨h1, h2, List.pairwise_cons.2 ⟨h4, h3⟩, by simpa [timesSeen, getTime, nanosPerMilli] using h4⟩
      | add d =>
        simp only [added, List.mem_cons, forall_eq_or_imp, List.sum_cons] at hd hs
        have hpos : 0 ≤ (added h).sum := List.sum_nonneg hd.2
        have hin : InI64 (t0 + d) := by unfold InI64 at *; omega
        have e : i64 (t0 + d) = t0 + d := i64_of_in hin
        obtain ⟨h1, h2, h3, h4⟩ := ih (t0 + d) hin hd.2 (by rwa [add_assoc])
        have e1 : ticksSeen ⟨t0⟩ (.add d :: h) = ticksSeen ⟨t0 + d⟩ h := by simp only [ticksSeen, step, add, e]
        have e2 : timesSeen ⟨t0⟩ (.add d :: h) = timesSeen ⟨t0 + d⟩ h := by simp only [timesSeen, step, add, e]
        rw [e1, e2]
        refine ⟨h1, fun x hx => ?_, h3, fun x hx => ?_⟩
        · have := h2 x hx; omega
        · exact le_trans (tdiv_mono (by norm_num) (by omega)) (h4 x hx)
  obtain ⟨h1, h2, h3, h4⟩ := key h t0 ht hd hs
  exact ⟨List.pairwise_cons.2 ⟨h2, h1⟩, List.pairwise_cons.2 ⟨h4, h3⟩⟩

example : let h : List Op := [.add 5, .getTick, .getTick, .add 3000000, .getTime, .getTick, .add 1, .getTick]
    (∀ d ∈ added h, 0 ≤ d) ∧ InI64 (0 + (added h).sum) ∧ ticksSeen ⟨0⟩ h = [5, 5, 3000005, 3000006] ∧ timesSeen ⟨0⟩ h = [3] := by decide

end ManualClock

/-! ## C78 -/

/-- **C78.** The default clock: for system times (since 1970, in nanoseconds) after the start of the program, the time is the system time in whole
milliseconds, the tick the exact nanoseconds since the start; both advance whenever the system time does, and a millisecond of ticks is a
millisecond of time. -/
theorem C78_user_clock (c : UserTimeClock) (now now' : Int) (h0 : 0 ≤ c.startNanoTime) (h1 : c.startNanoTime ≤ now) (h2 : now ≤ now')
    (h3 : now' < 9223372036854775808) :
    c.getTick now = now - c.startNanoTime ∧ 0 ≤ c.getTick now ∧ c.getTick now ≤ c.getTick now' ∧ c.getTime now ≤ c.getTime now' ∧
    c.getTime now = now / 1000000 ∧
    |(c.getTick now' - c.getTick now) - 1000000 * (c.getTime now' - c.getTime now)| < 1000000 := by
  have e : ∀ n, c.startNanoTime ≤ n → n < 9223372036854775808 → c.getTick n = n - c.startNanoTime := by
    intro n hn hn'
    exact i64_of_in (by unfold InI64; omega)
  have e' : ∀ n, 0 ≤ n → c.getTime n = n / 1000000 := fun n hn => Int.tdiv_eq_ediv_of_nonneg hn
  rw [e now h1 (by omega), e now' (by omega) h3, e' now (by omega), e' now' (by omega)]
  refine ⟨rfl, by omega, by omega, by omega, rfl, ?_⟩
  rw [abs_lt]; omega

example : (UserTimeClock.mk 1700000000000000000).getTick 1700000000001500000 = 1500000 ∧
    (UserTimeClock.mk 1700000000000000000).getTime 1700000000001500000 = 1700000000001 := by decide

/-- **C78.** The tick is not monotonic in the sense of Go's monotonic clock: `UnixNano` drops that reading, so when the system time is set
back, the tick goes back too, and may become negative. -/
theorem C78_monotonic_refuted : ∃ (c : UserTimeClock) (before after : Int), 0 ≤ c.startNanoTime ∧ c.startNanoTime ≤ before ∧ 0 ≤ after ∧
    c.getTick after < 0 ∧ c.getTick after < c.getTick before := ⟨⟨10⟩, 20, 5, by decide⟩

/-! ## C73 -/

theorem delta_iff (R : Rounding) (a b d : F64) : deltaCompareFloat64 R a b d = true ↔
    (F64.lt b a ∧ F64.le (F64.sub R a b) d) ∨ (¬ F64.lt b a ∧ F64.le (F64.sub R b a) d) := by
  unfold deltaCompareFloat64
  by_cases h : F64.lt b a
  · rw [if_pos h]; simp [h]
  · rw [if_neg h]; simp [h]

/-- **C73.** With rounding it is the rounded difference that is compared. -/
theorem C73_rounded (R : Rounding) (a b : ℚ) (d : F64) :
    deltaCompareFloat64 R (.fin a) (.fin b) d = true ↔ F64.le (R.rnd |a - b|) d := by
  rw [delta_iff]
  have e : ∀ x y : ℚ, F64.sub R (.fin x) (.fin y) = R.rnd (x - y) := fun x y => by rw [sub_eq_add_neg]; rfl
  have l : F64.lt (.fin b) (.fin a) ↔ b < a := Iff.rfl
  rw [e, e, l]
  by_cases h : b < a
  · rw [abs_of_pos (by linarith)]; simp [h]
  · rw [abs_of_nonpos (by linarith), neg_sub]; simp [h]

/-- **C73.** Over exact arithmetic the comparison is `|a - b| ≤ d`. -/
theorem C73_exact (a b d : ℚ) : deltaCompareFloat64 .exact (.fin a) (.fin b) (.fin d) = true ↔ |a - b| ≤ d := C73_rounded .exact a b (.fin d)

/-- **C73.** In particular, a difference within a (representable) delta is always accepted. -/
theorem C73_accepts (R : Rounding) (hR : R.Lawful) (a b d : ℚ) (hd : R.rnd d = .fin d) (h : |a - b| ≤ d) :
    deltaCompareFloat64 R (.fin a) (.fin b) (.fin d) = true := by
  rw [C73_rounded R, ← hd]
  exact hR.mono _ _ h

/-- **C73.** But the converse fails in binary64: 1 and -2^(-60) differ by more than 1 and are accepted for delta 1. -/
theorem C73_rejects_refuted : (|1 - (-(1 / 2 ^ 60))| : ℚ) > 1 ∧ binary64.rnd 1 = .fin 1 ∧ binary64.rnd (-(1 / 2 ^ 60)) = .fin (-(1 / 2 ^ 60)) ∧
    deltaCompareFloat64 binary64 (.fin 1) (.fin (-(1 / 2 ^ 60))) (.fin 1) = true := by
  have hd : (1 : ℚ) - (-(1 / 2 ^ 60)) = 1 + 1 / 2 ^ 60 := by ring
  refine ⟨by rw [hd]; norm_num [abs_of_pos], by simpa using binary64_int (n := 1) (by norm_num), ?_, ?_⟩
  · have := binary64_dyadic (n := -1) (k := -60) (by norm_num) (by norm_num) (by norm_num)
    have e : ((-1 : Int) : ℚ) * 2 ^ (-60 : Int) = -(1 / 2 ^ 60) := by norm_num
    rw [e] at this; exact this
  · rw [C73_rounded binary64, hd, abs_of_pos (by norm_num)]
    have : binary64.rnd (1 + 1 / 2 ^ 60) = .fin 1 := by
      rw [binary64_pos (by norm_num)]
      have hl : Int.log 2 ((1 : ℚ) + 1 / 2 ^ 60) = 0 := by
        have h1 : (0 : ℚ) < 1 + 1 / 2 ^ 60 := by norm_num
        have h2 : Int.log 2 ((1 : ℚ) + 1 / 2 ^ 60) < 1 := (Int.lt_zpow_iff_log_lt (b := 2) (by norm_num) h1).1 (by norm_num)
        have h3 : (0 : Int) ≤ Int.log 2 ((1 : ℚ) + 1 / 2 ^ 60) := (Int.zpow_le_iff_le_log (b := 2) (by norm_num) h1).1 (by norm_num)
        omega
      have hu : ulpExp ((1 : ℚ) + 1 / 2 ^ 60) = -52 := by unfold ulpExp; rw [hl]; norm_num
      have hr : roundPos ((1 : ℚ) + 1 / 2 ^ 60) = 1 := by
        unfold roundPos
        rw [hu]
        have hf : ⌊((1 : ℚ) + 1 / 2 ^ 60) / 2 ^ (-52 : Int)⌋ = 4503599627370496 := by
          rw [Int.floor_eq_iff]; norm_num
        have : roundEven (((1 : ℚ) + 1 / 2 ^ 60) / 2 ^ (-52 : Int)) = 4503599627370496 := by
          unfold roundEven
          simp only [hf]
          rw [if_pos (by norm_num)]
        rw [this]; norm_num
      rw [hr, if_neg]
      rw [not_le]
      exact lt_of_lt_of_le (by norm_num : (1 : ℚ) < 2 ^ (1 : Int)) (zpow_le_zpow_right₀ (by norm_num) (by norm_num))
    rw [this]
    exact le_refl (1 : ℚ)

/-- **C73.** It is symmetric in its first two arguments, for all floats and any rounding. -/
theorem C73_symmetric (R : Rounding) (a b d : F64) : deltaCompareFloat64 R a b d = deltaCompareFloat64 R b a d := by
  rw [Bool.eq_iff_iff]
  rcases a with _ | s | a <;> rcases b with _ | s' | b
  · rfl
  · rw [delta_iff, delta_iff]; cases s' <;> simp [F64.lt, F64.sub, F64.add, F64.neg]
  · rw [delta_iff, delta_iff]; simp [F64.lt, F64.sub, F64.add, F64.neg]
  · rw [delta_iff, delta_iff]; cases s <;> simp [F64.lt, F64.sub, F64.add, F64.neg]
  · rw [delta_iff, delta_iff]; cases s <;> cases s' <;> simp [F64.lt, F64.sub, F64.add, F64.neg]
  · rw [delta_iff, delta_iff]; cases s <;> simp [F64.lt, F64.sub, F64.add, F64.neg]
  · rw [delta_iff, delta_iff]; simp [F64.lt, F64.sub, F64.add, F64.neg]
  · rw [delta_iff, delta_iff]; cases s' <;> simp [F64.lt, F64.sub, F64.add, F64.neg]
  · rw [C73_rounded, C73_rounded, abs_sub_comm]

/-- **C73.** It is false if any argument is NaN, and also for two equal infinities. -/
theorem C73_nan (R : Rounding) (x y : F64) : deltaCompareFloat64 R .nan x y = false ∧ deltaCompareFloat64 R x .nan y = false ∧
    deltaCompareFloat64 R x y .nan = false ∧ ∀ s, deltaCompareFloat64 R (.inf s) (.inf s) x = false := by
  have hn : ∀ z, ¬ F64.le z .nan := by
    intro z
    rcases z with _ | s | q
    · simp [F64.le]
    · cases s <;> simp [F64.le]
    · simp [F64.le]
  have hn' : ∀ z, ¬ F64.le .nan z := by intro z; simp [F64.le]
  have hadd : ∀ z, F64.add R z .nan = .nan := by intro z; rcases z with _ | s | q <;> rfl
  have hs : ∀ z, F64.sub R z .nan = .nan ∧ F64.sub R .nan z = .nan := fun z => ⟨hadd z, rfl⟩
  simp only [← Bool.not_eq_true, delta_iff]
  refine ⟨?_, ?_, ?_, ?_⟩
  · simp [hs, hn']
  · simp [hs, hn']
  · simp [hn]
  · intro s; cases s <;> simp [F64.lt, F64.le, F64.sub, F64.add, F64.neg]

example : deltaCompareFloat64 .exact (.fin 3) (.fin (5 / 2)) (.fin (1 / 2)) = true ∧
    deltaCompareFloat64 .exact (.fin (5 / 2)) (.fin 3) (.fin (1 / 4)) = false := by decide +kernel

end GoMetrics
