import Verif.Props.Compass
/-! # C26–C29, C31: Compass rates, tick schedule, instant counts -/
namespace GoMetrics
open Spec Compass
variable {σ X : Type}

private theorem broken_rate {R : Rounding} (hR : R.Lawful) (hG : R.Rep 1000000000) (e : EWMA) (h : Broken e) (b : Bool)
    (hb : e.initialized = b) :
    if b then (e.getRate R second).isFinite = false else e.getRate R second = .fin 0 := by
  cases b with
  | false =>
    simp only [Bool.false_eq_true, if_false]
    unfold EWMA.getRate
    rw [h.before hb]
    have : F64.ofInt R second = .fin 1000000000 := by unfold F64.ofInt second; exact_mod_cast hG
    rw [this]
    simp only [F64.mul, zero_mul]
    exact hR.zero
  | true =>
    simp only [if_true]
    exact mul_not_finite R _ _ (h.after hb)

/-- **C26.** In every history (any clock readings, any reservoir) each of the three moving-average rates is 0 as long as no call
(including the reading call itself) saw the clock more than 5 s after the recorded start, and is never a finite number
afterwards. `hG`: 10^9 is a `float64`. -/
theorem C26_zero_then_never_finite {R : Rounding} (hR : R.Lawful) (hG : R.Rep 1000000000) (S : ReservoirImpl σ X) (r0 : σ)
    (n : Nat) (I maxErr maxAdd : Int) (ne : NewEnv) (hI : I ≠ 0) (h : List (Env X × Op)) (tick : Int)
    (rate : F64)
    (hrate : rate = (run R S (new r0 n I maxErr maxAdd ne) h).getOneMinuteRate R tick ∨
      rate = (run R S (new r0 n I maxErr maxAdd ne) h).getFiveMinuteRate R tick ∨
      rate = (run R S (new r0 n I maxErr maxAdd ne) h).getFifteenMinuteRate R tick) :
    if (∃ e ∈ h, i64 (e.1.tick - ne.now) > 5000000000) ∨ i64 (tick - ne.now) > 5000000000
    then rate.isFinite = false else rate = .fin 0 := by
  obtain ⟨hA, hL⟩ := broken_run hR S r0 n I maxErr maxAdd ne hI h
  have hb := basic_run R S r0 n I maxErr maxAdd ne hI h
  generalize run R S (new r0 n I maxErr maxAdd ne) h = c at *
  have hcI : c.bucketInterval ≠ 0 := by rw [hb.interval]; exact hI
  obtain ⟨hA', -⟩ := allBroken_tick hR c tick hcI _ hA
  have hiff : (anyLate ne.now h || decide (c.age tick > tickInterval)) =
      decide ((∃ e ∈ h, i64 (e.1.tick - ne.now) > 5000000000) ∨ i64 (tick - ne.now) > 5000000000) := by
    have h1 : anyLate ne.now h = decide (∃ e ∈ h, i64 (e.1.tick - ne.now) > 5000000000) := by
      rw [Bool.eq_iff_iff]
      simp [anyLate, tickInterval]
    cases hl : anyLate ne.now h
    · rw [h1, decide_eq_false_iff_not] at hl
      simp only [hl, Bool.false_or, false_or, age, hL (by rw [h1]; simpa using hl), tickInterval]
    · rw [h1, decide_eq_true_eq] at hl
      simp [hl]
  rw [hiff] at hA'
  have hfin : ∀ (e : EWMA), Broken e → e.initialized =
      decide ((∃ e ∈ h, i64 (e.1.tick - ne.now) > 5000000000) ∨ i64 (tick - ne.now) > 5000000000) →
      if (∃ e ∈ h, i64 (e.1.tick - ne.now) > 5000000000) ∨ i64 (tick - ne.now) > 5000000000
      then (e.getRate R second).isFinite = false else e.getRate R second = .fin 0 := by
    intro e he hi
    have := broken_rate hR hG e he _ hi
    by_cases hc : (∃ e ∈ h, i64 (e.1.tick - ne.now) > 5000000000) ∨ i64 (tick - ne.now) > 5000000000
    · rw [if_pos hc]
      rwa [if_pos (decide_eq_true hc)] at this
    · rw [if_neg hc]
      rwa [if_neg (by rw [decide_eq_false hc]; decide)] at this
  rcases hrate with rfl | rfl | rfl
  · exact hfin _ hA'.b1 hA'.i1
  · exact hfin _ hA'.b5 hA'.i5
  · exact hfin _ hA'.b15 hA'.i15

/-- 10^9 is a binary64 number: the hypothesis of `C26_zero_then_never_finite` holds for the real arithmetic. -/
theorem C26_second_representable : Rounding.binary64.Rep 1000000000 := by
  unfold Rounding.Rep
  have hlog : Int.log 2 (1000000000 : ℚ) = 29 := by
    apply le_antisymm
    · have : Int.log 2 (1000000000 : ℚ) < 30 :=
        (Int.lt_zpow_iff_log_lt (b := 2) (by norm_num) (by norm_num)).1 (by norm_num)
      omega
    · exact (Int.zpow_le_iff_le_log (b := 2) (by norm_num) (by norm_num)).1 (by norm_num)
  have he : ulpExp (1000000000 : ℚ) = -23 := by unfold ulpExp; rw [hlog]; norm_num
  have hr : roundPos (1000000000 : ℚ) = 1000000000 :=
    roundPos_of_int (n := 1000000000 * 2 ^ 23) (by rw [he]; norm_num)
  rw [Rounding.binary64_pos (by norm_num), hr, if_neg (not_le.2 ?_)]
  calc (1000000000 : ℚ) < 2 ^ (30 : Int) := by norm_num
    _ ≤ 2 ^ (1024 : Int) := zpow_le_zpow_right₀ (by norm_num) (by norm_num)

/-- **C26.** So the claim that rates are finite is false: one event, one read 6 s later gives `+Inf`. -/
theorem C26_finite_refuted :
    (run .exact quietReservoir (new () 10 1000000000 20 20 ⟨0, 0, 0⟩) [(envAt 0, .update 1)]).getOneMinuteRate .exact 6000000000
      = .inf false := by decide

/-- **C27.** What `GetMeanRate` computes, in every history: 0 if nothing was recorded or the elapsed "time" is not positive,
and otherwise count / elapsed * 10^9 with `float64` operations, where elapsed is the tick (ns) minus the creation time
(**ms**). -/
theorem C27_formula (R : Rounding) (S : ReservoirImpl σ X) (r0 : σ) (n : Nat) (I maxErr maxAdd : Int) (ne : NewEnv)
    (hI : I ≠ 0) (h : List (Env X × Op)) (tick : Int) :
    (run R S (new r0 n I maxErr maxAdd ne) h).getMeanRate R tick =
      let count := i64 (records h).length
      let elapsed := i64 (tick - ne.now)
      if count = 0 ∨ elapsed ≤ 0 then .fin 0
      else F64.mul R (F64.div R (F64.ofInt R count) (F64.ofInt R elapsed)) (F64.ofInt R 1000000000) := by
  unfold getMeanRate
  rw [C23_count R S r0 n I maxErr maxAdd ne hI h, (basic_run R S r0 n I maxErr maxAdd ne hI h).start]
  rfl

/-- **C27.** If the clock said 0 ms at creation and ticks count from then, the mean rate is, over exact arithmetic, the number of
events divided by the elapsed seconds. -/
theorem C27_mean_rate_exact (S : ReservoirImpl σ X) (r0 : σ) (n : Nat) (I maxErr maxAdd : Int) (ne : NewEnv)
    (hI : I ≠ 0) (hne : ne.now = 0) (h : List (Env X × Op)) (hlen : ((records h).length : Int) < 2 ^ 63)
    (tick : Int) (ht : 0 < tick) (ht' : tick < 2 ^ 63) :
    (run .exact S (new r0 n I maxErr maxAdd ne) h).getMeanRate .exact tick =
      .fin (((records h).length : ℚ) / ((tick : ℚ) / 1000000000)) := by
  rw [C27_formula .exact S r0 n I maxErr maxAdd ne hI h, hne]
  have e63 : (2 : Int) ^ 63 = 9223372036854775808 := by norm_num
  rw [e63] at hlen ht'
  have h1 : i64 (records h).length = (records h).length := by apply i64_of_in; unfold InI64; omega
  have h2 : i64 (tick - 0) = tick := by rw [sub_zero]; apply i64_of_in; unfold InI64; omega
  simp only [h1, h2]
  by_cases h0 : (records h).length = 0
  · rw [if_pos (by simp [h0]), h0]; simp
  · rw [if_neg (by push Not; constructor <;> omega)]
    have ht0 : (tick : ℚ) ≠ 0 := by exact_mod_cast ht.ne'
    simp only [F64.ofInt, Rounding.exact, F64.div, ht0, if_false, F64.mul]
    rw [F64.fin.injEq]
    push_cast
    field_simp

example : (run .exact quietReservoir (new () 10 1000000000 20 20 ⟨0, 0, 0⟩)
    [(envAt 0, .update 1), (envAt 1, .update 1), (envAt 2, .readRate), (envAt 2, .update 1)]).getMeanRate .exact 2000000000
    = .fin (3 / 2) := by
  rw [C27_mean_rate_exact _ _ _ _ _ _ _ (by decide) rfl _ (by decide) _ (by decide) (by decide)]
  norm_num [records]

/-- **C27.** In general it is not: with a manual clock that says 1 s at creation (1000 ms) and one event, the mean rate one
second later is not 1 per second (it is about a half). -/
theorem C27_mean_rate_refuted :
    (run .exact quietReservoir (new () 10 1000000000 20 20 ⟨1000, 1000, 1000⟩) [(envAt 1000000000, .update 1)]).getMeanRate
      .exact 2000000000 = .fin (1 / ((2000000000 - 1000) / 1000000000)) ∧
    (1 : ℚ) / ((2000000000 - 1000) / 1000000000) < 6 / 10 := by
  constructor
  · rw [C27_formula _ _ _ _ _ _ _ _ (by decide)]
    simp only [F64.ofInt, Rounding.exact, F64.div, F64.mul, records]
    norm_num [i64]
  · norm_num

/-- **C28.** As long as every tick reading is at most the creation time in ms (as it is for the default clock - ticks are ns
since process start, times are Unix ms - during the first ~28 minutes of a process), the mean rate and the moving
averages read 0 and no tick is performed, whatever was recorded. -/
theorem C28_silent {R : Rounding} (hR : R.Lawful) (hG : R.Rep 1000000000) (S : ReservoirImpl σ X) (r0 : σ) (n : Nat)
    (I maxErr maxAdd : Int) (ne : NewEnv) (hI : I ≠ 0) (hnow : ne.now < 2 ^ 63) (h : List (Env X × Op))
    (hticks : ∀ e ∈ h, 0 ≤ e.1.tick ∧ e.1.tick ≤ ne.now) (tick : Int) (ht : 0 ≤ tick) (ht' : tick ≤ ne.now) :
    let c := run R S (new r0 n I maxErr maxAdd ne) h
    c.getMeanRate R tick = .fin 0 ∧ c.getOneMinuteRate R tick = .fin 0 ∧ c.getFiveMinuteRate R tick = .fin 0 ∧
      c.getFifteenMinuteRate R tick = .fin 0 ∧ ticksPerformed R S (new r0 n I maxErr maxAdd ne) h = 0 := by
  intro c
  norm_num at hnow
  have hle : ∀ t : Int, 0 ≤ t → t ≤ ne.now → i64 (t - ne.now) ≤ 0 := by
    intro t h0 h1
    rw [i64_of_in (by unfold InI64; omega)]
    omega
  have hno : ∀ h : List (Env X × Op), (∀ e ∈ h, 0 ≤ e.1.tick ∧ e.1.tick ≤ ne.now) →
      ¬ ∃ e ∈ h, i64 (e.1.tick - ne.now) > 5000000000 := by
    rintro h hticks ⟨e, he, hgt⟩
    have := hle _ (hticks e he).1 (hticks e he).2
    omega
  have hcond : ¬ ((∃ e ∈ h, i64 (e.1.tick - ne.now) > 5000000000) ∨ i64 (tick - ne.now) > 5000000000) := by
    rintro (hh | hh)
    · exact hno h hticks hh
    · have := hle tick ht ht'; omega
  have hrate : ∀ rate, (rate = c.getOneMinuteRate R tick ∨ rate = c.getFiveMinuteRate R tick ∨
      rate = c.getFifteenMinuteRate R tick) → rate = F64.fin 0 := by
    intro rate hrate
    have := C26_zero_then_never_finite hR hG S r0 n I maxErr maxAdd ne hI h tick rate hrate
    rwa [if_neg hcond] at this
  refine ⟨?_, hrate _ (Or.inl rfl), hrate _ (Or.inr (Or.inl rfl)), hrate _ (Or.inr (Or.inr rfl)), ?_⟩
  · rw [C27_formula R S r0 n I maxErr maxAdd ne hI h]
    simp only
    rw [if_pos (Or.inr (hle tick ht ht'))]
  · clear hrate hcond c
    induction h using List.reverseRecOn with
    | nil => rfl
    | append_singleton h e ih =>
      have hh : ∀ e ∈ h, 0 ≤ e.1.tick ∧ e.1.tick ≤ ne.now := fun e he => hticks e (List.mem_append_left _ he)
      rw [ticksPerformed_snoc, ih hh, Nat.zero_add]
      have hl : anyLate ne.now h = false := by
        rw [Bool.eq_false_iff]
        intro hc
        apply hno h hh
        simpa [anyLate, tickInterval] using hc
      have hlast := (broken_run hR S r0 n I maxErr maxAdd ne hI h).2 hl
      have he := hticks e (by simp)
      have := hle _ he.1 he.2
      unfold ticksDue age
      rw [hlast, if_neg (by unfold tickInterval; omega)]

/-- A process created its compass at Unix time 1.7·10^12 ms, 10 s after its start; 25 minutes in, after 2 events, all rates
are still 0. -/
example : (run .exact quietReservoir (new () 10 60000000000 20 20 ⟨1700000000000, 1700000000000, 1700000000000⟩)
    [(envAt 10000000000, .update 1), (envAt 700000000000, .update 1)]).getMeanRate .exact 1500000000000 = .fin 0 :=
  (C28_silent Rounding.exact_lawful rfl _ _ _ _ _ _ _ (by decide) (by decide) _
    (by intro e he; simp at he; rcases he with rfl | rfl <;> decide) _ (by decide) (by decide)).1

/-- What `k` ticks with nothing pending do to an average after the first one that takes everything pending. -/
private theorem tickOnce_iterate (R : Rounding) (k : Nat) (c : Compass σ) :
    ((tickOnce R)^[k + 1] c).m1Rate = (fun e => e.tickN R 0)^[k] (c.m1Rate.tickN R c.uncounted) ∧
    ((tickOnce R)^[k + 1] c).m5Rate = (fun e => e.tickN R 0)^[k] (c.m5Rate.tickN R c.uncounted) ∧
    ((tickOnce R)^[k + 1] c).m15Rate = (fun e => e.tickN R 0)^[k] (c.m15Rate.tickN R c.uncounted) ∧
    ((tickOnce R)^[k + 1] c).uncounted = 0 := by
  induction k with
  | zero => exact ⟨rfl, rfl, rfl, rfl⟩
  | succ k ih =>
    obtain ⟨i1, i2, i3, i4⟩ := ih
    rw [Function.iterate_succ_apply' (tickOnce R) (k + 1) c]
    generalize (tickOnce R)^[k + 1] c = d at *
    rw [Function.iterate_succ_apply', Function.iterate_succ_apply', Function.iterate_succ_apply', ← i1, ← i2, ← i3]
    simp only [tickOnce, i4, and_self]

/-- **C29.** What `ticksDue` counts: a call that finds `k + 1` ticks due folds everything pending into each average once and then
lets it decay `k` times; a call that finds none changes neither the averages nor the pending count. -/
theorem C29_ticks_are_decays (R : Rounding) (c : Compass σ) (tick : Int) (hI : c.bucketInterval ≠ 0) :
    let c' := (c.tickIfNecessary R tick).state
    match c.ticksDue tick with
    | 0 => c'.m1Rate = c.m1Rate ∧ c'.m5Rate = c.m5Rate ∧ c'.m15Rate = c.m15Rate ∧ c'.uncounted = c.uncounted
    | k + 1 => c'.m1Rate = (fun e => e.tickN R 0)^[k] (c.m1Rate.tickN R c.uncounted) ∧
        c'.m5Rate = (fun e => e.tickN R 0)^[k] (c.m5Rate.tickN R c.uncounted) ∧
        c'.m15Rate = (fun e => e.tickN R 0)^[k] (c.m15Rate.tickN R c.uncounted) ∧ c'.uncounted = 0 := by
  intro c'
  have hc' : c' = (c.tickIfNecessary R tick).state := rfl
  clear_value c'
  subst hc'
  by_cases ht : c.age tick > tickInterval
  · obtain ⟨k, hk⟩ : ∃ k, c.ticksDue tick = k + 1 := ⟨c.ticksDue tick - 1, by have := ticksDue_pos c tick ht; omega⟩
    unfold tickIfNecessary
    simp only [if_pos ht, if_neg hI, Res.state_ok, hk]
    exact tickOnce_iterate R k _
  · have hk : c.ticksDue tick = 0 := by unfold ticksDue; rw [if_neg ht]
    unfold tickIfNecessary
    simp only [if_neg ht, hk, Res.state_ok, and_self]

/-- **C29.** With a 5 s bucket interval and a non-decreasing clock, in every history the averages have ticked exactly
`(lastTick - start) / 5s` times, and `lastTick` is at most 5 s behind the newest reading. -/
theorem C29_schedule_5s (R : Rounding) (S : ReservoirImpl σ X) (r0 : σ) (n : Nat) (maxErr maxAdd : Int) (ne : NewEnv)
    (h0 : 0 ≤ ne.now) (h : List (Env X × Op))
    (hmono : (ne.now :: h.map fun e => e.1.tick).Pairwise (· ≤ ·))
    (newestReading : Int) (hnewest : (ne.now :: h.map fun e => e.1.tick).getLast (by simp) = newestReading)
    (hmax : newestReading < 2 ^ 63) :
    let c := run R S (new r0 n 5000000000 maxErr maxAdd ne) h
    c.lastTick - ne.now = 5000000000 * ticksPerformed R S (new r0 n 5000000000 maxErr maxAdd ne) h ∧
      c.lastTick ≤ newestReading ∧ newestReading - c.lastTick ≤ 5000000000 := by
  have hm : ∀ (l : List Int) (a : Int), (a :: l).Pairwise (· ≤ ·) → Monotone' a l := by
    intro l
    induction l with
    | nil => intro a _; trivial
    | cons b l ih =>
      intro a hp
      rw [List.pairwise_cons] at hp
      exact ⟨hp.1 b (by simp), ih b hp.2⟩
  have hn : ∀ (l : List Int) (a : Int), (a :: l).getLast (by simp) = newest a l := by
    intro l
    induction l with
    | nil => intro a; rfl
    | cons b l ih =>
      intro a
      rw [List.getLast_cons (by simp), ih]
      unfold newest
      cases l <;> simp [List.getLastD]
  rw [hn] at hnewest
  subst hnewest
  obtain ⟨-, h2, h3, h4⟩ := schedule R S r0 n 5000000000 maxErr maxAdd ne (by norm_num) (by norm_num [tickInterval]) h0 h
    (hm _ _ hmono) hmax
  have := h4 rfl
  refine ⟨by omega, h2, h3⟩

/-- **C29.** With any interval that divides 5 s, ticks are never too many: at most one per elapsed 5 s. The
number can be smaller (`C29_one_second_refuted`). -/
theorem C29_not_too_many (R : Rounding) (S : ReservoirImpl σ X) (r0 : σ) (n : Nat) (I maxErr maxAdd : Int) (ne : NewEnv)
    (hI : 0 < I) (hdvd : I ∣ 5000000000) (h0 : 0 ≤ ne.now) (h : List (Env X × Op))
    (hmono : Monotone' ne.now (h.map fun e => e.1.tick)) (hmax : newest ne.now (h.map fun e => e.1.tick) < 2 ^ 63) :
    5000000000 * (ticksPerformed R S (new r0 n I maxErr maxAdd ne) h : Int) ≤
      newest ne.now (h.map fun e => e.1.tick) - ne.now := by
  obtain ⟨h1, h2, -, -⟩ := schedule R S r0 n I maxErr maxAdd ne hI hdvd h0 h hmono hmax
  omega

/-- Three calls at 6 s, 11 s and 23 s: 4 ticks, the tick clock stands at 20 s. -/
example : ticksPerformed .exact quietReservoir (new () 10 5000000000 20 20 ⟨0, 0, 0⟩)
      [(envAt 6000000000, .update 1), (envAt 11000000000, .readRate), (envAt 23000000000, .update 3)] = 4 ∧
    (run .exact quietReservoir (new () 10 5000000000 20 20 ⟨0, 0, 0⟩)
      [(envAt 6000000000, .update 1), (envAt 11000000000, .readRate), (envAt 23000000000, .update 3)]).lastTick
      = 20000000000 := by
  constructor <;> decide

/-- **C29.** With the 60 s bucket interval the averages tick too often: two reads at 12 s perform 4 ticks although only 2 periods
of 5 s have passed. -/
theorem C29_sixty_seconds_refuted :
    ticksPerformed .exact quietReservoir (new () 10 60000000000 20 20 ⟨0, 0, 0⟩)
      [(envAt 12000000000, .readRate), (envAt 12000000000, .readRate)] = 4 := by decide

/-- **C29.** With the 1 s bucket interval too seldom: reads at 9 s and 18 s perform 2 ticks although 3 periods have passed. -/
theorem C29_one_second_refuted :
    ticksPerformed .exact quietReservoir (new () 10 1000000000 20 20 ⟨0, 0, 0⟩)
      [(envAt 9000000000, .readRate), (envAt 18000000000, .readRate)] = 2 := by decide

private theorem totalOps_eq (h : List (Env X × Op)) :
    totalOps h = (records h).map fun e => (e.1.tTotal, BucketCounter.Op.update) := rfl

/-- **C31.** `GetInstantCountSince(s)` at time `t`, when the clock readings of the recording calls never went down: the
intervals are those of recording calls, each reported with the number of recording calls in it, as long as fewer than
`n` later intervals have any. -/
theorem C31_instant_counts (R : Rounding) (S : ReservoirImpl σ X) (r0 : σ) (n : Nat) (I maxErr maxAdd : Int) (ne : NewEnv)
    (hI : 1000000000 ≤ I) (h : List (Env X × Op)) (t s : Int) (hs : 0 ≤ s) (ht : 0 ≤ t)
    (hpos : ∀ e ∈ records h, 0 ≤ e.1.tTotal) (hmono : (records h).Pairwise fun a b => a.1.tTotal ≤ b.1.tTotal) :
    ∃ m, (run R S (new r0 n I maxErr maxAdd ne) h).getInstantCountSince t s = some m ∧ m.WF ∧
      ∀ k v, m.get? k = some v ↔ ∃ j, k = 1000 * (I / 1000000000) * j ∧
        (∃ e ∈ records h, intervalIndex (I / 1000000000) e.1.tTotal = j) ∧
        (((records h).map fun e => intervalIndex (I / 1000000000) e.1.tTotal).toFinset.filter (fun j' => j < j')).card < n ∧
        s ≤ k ∧ k ≤ t ∧
        v = i64 ((records h).countP fun e => intervalIndex (I / 1000000000) e.1.tTotal = j) := by
  rw [getInstantCountSince, (basic_run R S r0 n I maxErr maxAdd ne (by omega) h).total, totalOps_eq]
  obtain ⟨m, hm, hwf, hq⟩ := C03_query_monotone_clock I n ne.tTotal true hI
    ((records h).map fun e => (e.1.tTotal, BucketCounter.Op.update)) t s hs ht
    (by intro c hc; obtain ⟨e, he, rfl⟩ := List.mem_map.1 hc; exact hpos e he) (by rw [List.pairwise_map]; exact hmono)
  refine ⟨m, hm, hwf, fun k v => (hq k v).trans ?_⟩
  apply exists_congr; intro j
  have e1 : ((((records h).map fun e => (e.1.tTotal, BucketCounter.Op.update)).filter
      (fun c => intervalIndex (I / 1000000000) c.1 = j)).map (fun c => c.2.amount)).sum =
      (((records h).countP fun e => intervalIndex (I / 1000000000) e.1.tTotal = j : Nat) : Int) := by
    rw [List.filter_map, List.map_map, List.countP_eq_length_filter]
    have : ∀ l : List (Env X × Op), (l.map ((fun c : Int × BucketCounter.Op => c.2.amount) ∘
        fun e => (e.1.tTotal, BucketCounter.Op.update))).sum = (l.length : Int) := by
      intro l
      induction l with
      | nil => rfl
      | cons a l ih =>
        rw [List.map_cons, List.sum_cons, ih, List.length_cons]
        simp only [Function.comp, BucketCounter.Op.amount]
        push_cast; ring
    rw [this]
    rfl
  rw [e1]
  simp only [List.mem_map, exists_exists_and_eq_and, List.map_map, Function.comp_def]

/-- Summing, over pairwise different groups that cover a list, the size of each group gives the size of the list. -/
private theorem sum_groups {α : Type} (f : α → Int) (js : List Int) (hnd : js.Nodup) (l : List α) (hc : ∀ a ∈ l, f a ∈ js) :
    (js.map fun j => ((l.countP fun a => f a = j : Nat) : Int)).sum = l.length := by
  induction l with
  | nil => simp
  | cons a l ih =>
    have hone : ∀ js : List Int, js.Nodup → (js.map fun j => if f a = j then (1 : Int) else 0).sum =
        if f a ∈ js then 1 else 0 := by
      intro js
      induction js with
      | nil => simp
      | cons j js ihj =>
        intro hn
        rw [List.nodup_cons] at hn
        rw [List.map_cons, List.sum_cons, ihj hn.2]
        by_cases hj : f a = j
        · subst hj; simp [hn.1]
        · simp [hj]
    have hsplit : (js.map fun j => (((a :: l).countP fun a => f a = j : Nat) : Int)).sum =
        (js.map fun j => ((l.countP fun a => f a = j : Nat) : Int)).sum +
          (js.map fun j => if f a = j then (1 : Int) else 0).sum := by
      clear hnd hc ih hone
      induction js with
      | nil => simp
      | cons j js ihj =>
        rw [List.map_cons, List.sum_cons, ihj, List.map_cons, List.sum_cons, List.map_cons, List.sum_cons, List.countP_cons]
        by_cases hj : f a = j <;> simp only [hj, decide_true, decide_false, if_true, if_false, Bool.false_eq_true] <;> (push_cast; ring)
    rw [hsplit, ih (fun a ha => hc a (List.mem_cons_of_mem _ ha)), hone js hnd, if_pos (hc a (by simp))]
    rfl

private theorem total_of_query {α : Type} (l : List α) (τ : α → Int) (P : Int) (hPpos : 0 < P) (n : Nat) (t : Int)
    (hpos : ∀ e ∈ l, 0 ≤ τ e ∧ τ e ≤ t) (hn : (l.map fun e => τ e / P).toFinset.card ≤ n) (m : GoMap Int Int) (hwf : m.WF)
    (hq : ∀ k v, m.get? k = some v ↔ ∃ j, k = P * j ∧ (∃ e ∈ l, τ e / P = j) ∧
        ((l.map fun e => τ e / P).toFinset.filter (fun j' => j < j')).card < n ∧ 0 ≤ k ∧ k ≤ t ∧
        v = i64 (l.countP fun e => τ e / P = j)) :
    i64 (m.map Prod.snd).sum = i64 l.length := by
  have hval : ∀ p ∈ m, p.2 = i64 (l.countP fun e => τ e / P = p.1 / P) := by
    rintro ⟨k, v⟩ hp
    obtain ⟨j, hk, -, -, -, -, hv⟩ := (hq k v).1 (GoMap.get?_of_mem hwf hp)
    have hj : k / P = j := by rw [hk, Int.mul_ediv_cancel_left _ hPpos.ne']
    subst hj
    rw [hv]
  have hmap : m.map Prod.snd =
      ((m.keys.map fun k => k / P).map fun j => ((l.countP fun e => τ e / P = j : Nat) : Int)).map i64 := by
    have hgen : ∀ (g c d : Int → Int) (m : GoMap Int Int), (∀ p ∈ m, p.2 = g (c (d p.1))) →
        m.map Prod.snd = ((m.keys.map d).map c).map g := by
      intro g c d m hm
      induction m with
      | nil => rfl
      | cons p m ih =>
        simp only [GoMap.keys, List.map_cons, List.cons.injEq]
        exact ⟨hm p (by simp), ih fun q hq => hm q (List.mem_cons_of_mem _ hq)⟩
    exact hgen i64 (fun j => ((l.countP fun e => τ e / P = j : Nat) : Int)) (fun k => k / P) m hval
  rw [hmap, i64_sum_map_i64, sum_groups fun e => τ e / P]
  · apply List.Nodup.map_on _ hwf
    intro a ha b hb hab
    obtain ⟨va, hva⟩ := (GoMap.mem_keys_iff m a).1 ha
    obtain ⟨vb, hvb⟩ := (GoMap.mem_keys_iff m b).1 hb
    obtain ⟨ja, hka, -⟩ := (hq _ _).1 hva
    obtain ⟨jb, hkb, -⟩ := (hq _ _).1 hvb
    rw [hka, hkb, Int.mul_ediv_cancel_left _ hPpos.ne', Int.mul_ediv_cancel_left _ hPpos.ne'] at hab
    rw [hka, hkb, hab]
  · intro e he
    have h0 := hpos e he
    have hfe0 : 0 ≤ τ e / P := Int.ediv_nonneg h0.1 hPpos.le
    have hget : m.get? (P * (τ e / P)) = some (i64 (l.countP fun e' => τ e' / P = τ e / P)) := by
      rw [hq]
      refine ⟨τ e / P, rfl, ⟨e, he, rfl⟩, ?_, by positivity, ?_, rfl⟩
      · refine lt_of_lt_of_le (Finset.card_lt_card ?_) hn
        rw [Finset.ssubset_iff_of_subset (Finset.filter_subset _ _)]
        refine ⟨τ e / P, ?_, by simp⟩
        rw [List.mem_toFinset]
        exact List.mem_map.2 ⟨e, he, rfl⟩
      · have : P * (τ e / P) ≤ τ e := Int.mul_ediv_self_le hPpos.ne'
        omega
    rw [List.mem_map]
    exact ⟨P * (τ e / P), (GoMap.mem_keys_iff _ _).2 ⟨_, hget⟩, Int.mul_ediv_cancel_left _ hPpos.ne'⟩

/-- **C31.** If no interval has been evicted (at most `n` different ones recorded) and the query is made at or after the last
recording call, the values reported since 0 sum up to `GetCount()` (modulo 2^64). -/
theorem C31_total (R : Rounding) (S : ReservoirImpl σ X) (r0 : σ) (n : Nat) (I maxErr maxAdd : Int) (ne : NewEnv)
    (hI : 1000000000 ≤ I) (h : List (Env X × Op)) (t : Int) (ht : 0 ≤ t)
    (hpos : ∀ e ∈ records h, 0 ≤ e.1.tTotal ∧ e.1.tTotal ≤ t)
    (hmono : (records h).Pairwise fun a b => a.1.tTotal ≤ b.1.tTotal)
    (hn : ((records h).map fun e => intervalIndex (I / 1000000000) e.1.tTotal).toFinset.card ≤ n) :
    ∃ m, (run R S (new r0 n I maxErr maxAdd ne) h).getInstantCount t = some m ∧
      i64 (m.map Prod.snd).sum = (run R S (new r0 n I maxErr maxAdd ne) h).getCount := by
  obtain ⟨m, hm, hwf, hq⟩ := C31_instant_counts R S r0 n I maxErr maxAdd ne hI h t 0 le_rfl ht (fun e he => (hpos e he).1) hmono
  have hsince : ∀ c : Compass σ, c.getInstantCount t = c.getInstantCountSince t 0 := fun _ => rfl
  refine ⟨m, (hsince _).trans hm, ?_⟩
  rw [C23_count R S r0 n I maxErr maxAdd ne (by omega) h]
  unfold intervalIndex at hq hn
  exact total_of_query (records h) (fun e => e.1.tTotal) (1000 * (I / 1000000000)) (by omega) n t hpos hn m hwf hq

/-- Three calls in two intervals of a counter that remembers two. -/
example : ∃ m, (run .exact quietReservoir (new () 2 1000000000 1 1 ⟨0, 0, 0⟩)
    [(envAt 100, .update 5), (envAt 900, .updateWithError 1 true "a" ""), (envAt 1500, .update 3)]).getInstantCount 1700 = some m ∧
    m = [(1000, 1), (0, 2)] ∧ (m.map Prod.snd).sum = 3 := ⟨[(1000, 1), (0, 2)], by decide, rfl, rfl⟩

/-- **C31.** For every clock, every non-zero interval and every reservoir: the instant counts of a compass are those of a bucket counter of its own
that is updated once by every `Update` and `UpdateWithError`, at the reading of that call; so everything known about a bucket counter (C01-C09) holds
for them. -/
theorem C31_follows (R : Rounding) (S : ReservoirImpl σ X) (r0 : σ) (n : Nat) (I maxErr maxAdd : Int) (ne : NewEnv) (hI : I ≠ 0)
    (h : List (Env X × Op)) (t s : Int) :
    let c := run R S (new r0 n I maxErr maxAdd ne) h
    let b := BucketCounter.run (BucketCounter.new I n ne.tTotal true) ((records h).map fun e => (e.1.tTotal, .update))
    c.getInstantCountSince t s = b.getBucketCountsSince t s ∧ c.getInstantCount t = b.getBucketCounts t ∧ c.getCount = b.getCount ∧
      c.lastUpdateTime = b.lastUpdateTime ∧ c.getInstantCountInterval = I := by
  have H := basic_run R S r0 n I maxErr maxAdd ne hI h
  exact ⟨congrArg (fun b => b.getBucketCountsSince t s) H.total, congrArg (fun b => b.getBucketCounts t) H.total, congrArg (fun b => b.getCount) H.total,
    congrArg (fun b => b.lastUpdateTime) H.total, H.interval⟩

/-- The clock goes back: the older interval is credited although it is not the newest. -/
example : (run .exact quietReservoir (new () 2 1000000000 1 1 ⟨0, 0, 0⟩)
    [(envAt 2100, .update 5), (envAt 900, .updateWithError 1 true "a" ""), (envAt 2500, .update 3)]).getInstantCount 2700 =
      (BucketCounter.run (BucketCounter.new 1000000000 2 0 true) [(2100, .update), (900, .update), (2500, .update)]).getBucketCounts 2700 := by
  decide

end GoMetrics
