import Verif.Props.CompassRates
import Verif.Props.CompassConc
import Verif.Proofs.Seconds
/-! # C26, C30: which events reach the moving averages of a compass, and what the averages become -/
namespace GoMetrics

namespace Spec
/-- What an average is fed by calls, each given by the number of ticks it performs and whether it records an event: a call's first tick
takes everything recorded before it and not yet taken, its other ticks nothing; its own event is recorded after them. -/
def feeds (pending : Int) : List (Nat × Bool) → List Int
  | [] => []
  | (0, recording) :: l => feeds (pending + if recording then 1 else 0) l
  | (k + 1, recording) :: l => pending :: (List.replicate k 0 ++ feeds (if recording then 1 else 0) l)

/-- What is left in the end. -/
def leftOver (pending : Int) : List (Nat × Bool) → Int
  | [] => pending
  | (0, recording) :: l => leftOver (pending + if recording then 1 else 0) l
  | (_ + 1, recording) :: l => leftOver (if recording then 1 else 0) l

/-- Nothing is lost or invented. -/
theorem feeds_sum (pending : Int) (l : List (Nat × Bool)) :
    (feeds pending l).sum + leftOver pending l = pending + (l.countP fun e => e.2) := by
  induction l generalizing pending with
  | nil => simp [feeds, leftOver]
  | cons e l ih =>
    obtain ⟨k, r⟩ := e
    cases k with
    | zero =>
      simp only [feeds, leftOver, ih, List.countP_cons]
      cases r <;> simp <;> omega
    | succ k =>
      simp only [feeds, leftOver, List.sum_cons, List.sum_append, List.countP_cons]
      have := ih (if r then 1 else 0)
      have h0 : (List.replicate k (0 : Int)).sum = 0 := by simp
      rw [h0]
      cases r <;> simp at this ⊢ <;> omega

theorem feeds_length (pending : Int) (l : List (Nat × Bool)) : (feeds pending l).length = (l.map Prod.fst).sum := by
  induction l generalizing pending with
  | nil => rfl
  | cons e l ih =>
    obtain ⟨k, r⟩ := e
    cases k with
    | zero => simp only [feeds, ih, List.map_cons, List.sum_cons, Nat.zero_add]
    | succ k => simp only [feeds, List.length_cons, List.length_append, List.length_replicate, ih, List.map_cons, List.sum_cons]; omega
end Spec

open Spec Compass
variable {σ X : Type}

namespace Compass

/-- Does the call record an event? -/
def Op.records : Op → Bool
  | .readRate => false
  | _ => true

/-- For each call of a history: how many ticks it performs, and whether it records an event. -/
def tickLog (R : Rounding) (S : ReservoirImpl σ X) (c : Compass σ) : List (Env X × Op) → List (Nat × Bool)
  | [] => []
  | e :: h => (c.ticksDue e.1.tick, e.2.records) :: tickLog R S (step R S c e.1 e.2).state h

theorem tickLog_snd (R : Rounding) (S : ReservoirImpl σ X) (c : Compass σ) (h : List (Env X × Op)) :
    (tickLog R S c h).countP (fun e => e.2) = (records h).length := by
  induction h generalizing c with
  | nil => rfl
  | cons e h ih =>
    simp only [tickLog, List.countP_cons, ih]
    obtain ⟨env, op⟩ := e
    cases op <;> simp [records, Op.records]

theorem tickLog_fst (R : Rounding) (S : ReservoirImpl σ X) (c : Compass σ) (h : List (Env X × Op)) :
    ((tickLog R S c h).map Prod.fst).sum = ticksPerformed R S c h := by
  induction h generalizing c with
  | nil => rfl
  | cons e h ih => simp only [tickLog, List.map_cons, List.sum_cons, ih, ticksPerformed]

theorem step_interval (R : Rounding) (S : ReservoirImpl σ X) (c : Compass σ) (env : Env X) (op : Op) (hI : c.bucketInterval ≠ 0) :
    (step R S c env op).state.bucketInterval = c.bucketInterval := by
  cases op with
  | readRate => exact (tick_frame R c env.tick).interval
  | update d => exact (update_total R S c env d hI).2.2.2.2.2.2.2.1
  | updateWithError d s code addon =>
    apply updateWithError_of (P := fun c' => c'.bucketInterval = c.bucketInterval)
    · exact (update_total R S c env d hI).2.2.2.2.2.2.2.1
    · intro c' h; exact (successStep_frame c' _ s).2.2.2.2.1.trans h
    · intro c' h; exact (errorStep_frame c' _ _ code).2.2.2.2.1.trans h
    · intro c' h; exact (addonStep_frame c' _ _ addon).2.2.2.2.1.trans h

theorem step_uncounted (R : Rounding) (S : ReservoirImpl σ X) (c : Compass σ) (env : Env X) (op : Op) (hI : c.bucketInterval ≠ 0) :
    (step R S c env op).state.uncounted =
      if op.records then i64 ((c.tickIfNecessary R env.tick).state.uncounted + 1) else (c.tickIfNecessary R env.tick).state.uncounted := by
  have hu : ∀ d, (c.update R S env d).state.uncounted = i64 ((c.tickIfNecessary R env.tick).state.uncounted + 1) := by
    intro d
    have hok := tick_ok R c env.tick hI
    unfold update
    rw [hok]
    simp only [Res.andThen, Res.state_ok]
    generalize (c.tickIfNecessary R env.tick).state = c1 at *
    cases c1.addUncounted.totalCount.update env.tTotal with
    | ok b =>
      simp only [Res.lift]
      cases S.updateN c1.addUncounted.reservoir env.x d <;> rfl
    | panic b => rfl
  cases op with
  | readRate => rfl
  | update d => exact hu d
  | updateWithError d s code addon =>
    apply updateWithError_of (P := fun c' => c'.uncounted = i64 ((c.tickIfNecessary R env.tick).state.uncounted + 1))
    · exact hu d
    · intro c' h
      rw [← h]
      cases s
      · rfl
      · simp only [successStep, if_true, Res.lift_state]
    · intro c' h
      rw [← h]
      unfold errorStep
      by_cases hl : code.length > 0
      · simp only [if_pos hl, Res.lift_state]
      · simp only [if_neg hl, Res.state_ok]
    · intro c' h
      rw [← h]
      unfold addonStep
      by_cases hl : addon.length > 0
      · simp only [if_pos hl, Res.lift_state]
      · simp only [if_neg hl, Res.state_ok]

/-- `k` ticks in which nothing is pending. -/
theorem foldl_replicate_zero (R : Rounding) (k : Nat) (e : EWMA) :
    (List.replicate k (0 : Int)).foldl (fun e n => e.tickN R n) e = (fun e => e.tickN R 0)^[k] e := by
  induction k generalizing e with
  | zero => rfl
  | succ k ih => rw [List.replicate_succ, List.foldl_cons, ih, Function.iterate_succ_apply]

end Compass

/-- **C30**, one call after another. From any compass, through any history of calls with any clock readings (and any reservoir, even one that
panics): each average has been fed, in order, exactly what `Spec.feeds` says - each event once, by the first tick after it - and what has not
been fed is pending. Pending and fed events are counted modulo 2^64, `hlen` says that there are fewer. -/
theorem C30_fed (R : Rounding) (S : ReservoirImpl σ X) (c0 : Compass σ) (hI : c0.bucketInterval ≠ 0) (hc0 : c0.uncounted = 0)
    (h : List (Env X × Op)) (hlen : ((records h).length : Int) < 2 ^ 63) :
    let c := run R S c0 h
    let fed := feeds 0 (tickLog R S c0 h)
    c.m1Rate = fed.foldl (fun e n => e.tickN R n) c0.m1Rate ∧
    c.m5Rate = fed.foldl (fun e n => e.tickN R n) c0.m5Rate ∧
    c.m15Rate = fed.foldl (fun e n => e.tickN R n) c0.m15Rate ∧
    c.uncounted = leftOver 0 (tickLog R S c0 h) ∧
    fed.sum + c.uncounted = (records h).length ∧ fed.length = ticksPerformed R S c0 h := by
  have e63 : (2 : Int) ^ 63 = 9223372036854775808 := by norm_num
  rw [e63] at hlen
  have key : ∀ (h : List (Env X × Op)) (c : Compass σ), c.bucketInterval ≠ 0 → 0 ≤ c.uncounted →
      c.uncounted + (records h).length < 9223372036854775808 →
      (run R S c h).m1Rate = (feeds c.uncounted (tickLog R S c h)).foldl (fun e n => e.tickN R n) c.m1Rate ∧
      (run R S c h).m5Rate = (feeds c.uncounted (tickLog R S c h)).foldl (fun e n => e.tickN R n) c.m5Rate ∧
      (run R S c h).m15Rate = (feeds c.uncounted (tickLog R S c h)).foldl (fun e n => e.tickN R n) c.m15Rate ∧
      (run R S c h).uncounted = leftOver c.uncounted (tickLog R S c h) := by
    intro h
    induction h with
    | nil => intro c _ _ _; exact ⟨rfl, rfl, rfl, rfl⟩
    | cons e h ih =>
      intro c hI h0 hl
      rw [show run R S c (e :: h) = run R S (step R S c e.1 e.2).state h from rfl]
      simp only [tickLog]
      obtain ⟨t1, t2, t3, -⟩ := step_tick R S c e.1 e.2 hI
      have hu := step_uncounted R S c e.1 e.2 hI
      have hi := step_interval R S c e.1 e.2 hI
      have hd := C29_ticks_are_decays R c e.1.tick hI
      simp only at hd
      have hr : (records (e :: h)).length = (if e.2.records then 1 else 0) + (records h).length := by
        obtain ⟨env, op⟩ := e
        cases op <;> simp [records, Op.records] <;> omega
      rw [hr] at hl
      generalize hr' : e.2.records = r at hu hl
      generalize (step R S c e.1 e.2).state = c' at *
      cases hk : c.ticksDue e.1.tick with
      | zero =>
        rw [hk] at hd
        simp only at hd
        obtain ⟨d1, d2, d3, d4⟩ := hd
        have hu' : c'.uncounted = c.uncounted + if r then 1 else 0 := by
          rw [hu, d4]
          cases r
          · simp
          · simp only [if_true]
            apply i64_of_in; unfold InI64
            simp only [if_true] at hl
            push_cast at hl
            omega
        obtain ⟨i1, i2, i3, i4⟩ := ih c' (by rw [hi]; exact hI) (by rw [hu']; split <;> omega)
          (by rw [hu']; revert hl; cases r <;> simp <;> omega)
        simp only [feeds, leftOver]
        rw [i1, i2, i3, i4, t1, t2, t3, d1, d2, d3, hu']
        exact ⟨rfl, rfl, rfl, rfl⟩
      | succ k =>
        rw [hk] at hd
        simp only at hd
        obtain ⟨d1, d2, d3, d4⟩ := hd
        have hu' : c'.uncounted = if r then 1 else 0 := by
          rw [hu, d4]
          cases r <;> simp
        obtain ⟨i1, i2, i3, i4⟩ := ih c' (by rw [hi]; exact hI) (by rw [hu']; split <;> omega)
          (by rw [hu']; revert hl; cases r <;> simp <;> omega)
        simp only [feeds, leftOver, List.foldl_cons, List.foldl_append, foldl_replicate_zero]
        rw [i1, i2, i3, i4, t1, t2, t3, d1, d2, d3, hu']
        exact ⟨rfl, rfl, rfl, rfl⟩
  intro c fed
  obtain ⟨k1, k2, k3, k4⟩ := key h c0 hI (by omega) (by omega)
  rw [hc0] at k1 k2 k3 k4
  refine ⟨k1, k2, k3, k4, ?_, ?_⟩
  · have := feeds_sum 0 (tickLog R S c0 h)
    rw [tickLog_snd] at this
    change (feeds 0 _).sum + (run R S c0 h).uncounted = _
    rw [k4, this]; simp
  · exact (feeds_length _ _).trans (tickLog_fst R S c0 h)

/-- Two events, a tick of two periods that takes both (and records one more), and a read two periods later that takes that one. -/
example : feeds 0 (tickLog .exact quietReservoir (new () 10 5000000000 20 20 ⟨0, 0, 0⟩)
    [(envAt 0, .update 1), (envAt 1, .updateWithError 1 true "a" "b"), (envAt 11000000000, .update 1), (envAt 21000000000, .readRate)])
    = [2, 0, 1, 0] := by decide

/-- **C26.** What the moving-average rates are, in every history: 0 before the first tick; then `+Inf` as long as there was only one tick
and something was recorded before it; NaN otherwise. -/
theorem C26_exact {R : Rounding} (hR : R.Lawful) (hG : R.Rep 1000000000) (hpos : ∀ n : Int, 0 < n → n < 2 ^ 63 → ∃ q, R.rnd n = .fin q ∧ 0 < q)
    (S : ReservoirImpl σ X) (r0 : σ) (n : Nat) (I maxErr maxAdd : Int) (ne : NewEnv) (hI : I ≠ 0) (h : List (Env X × Op)) (env : Env X)
    (hlen : ((records h).length : Int) < 2 ^ 63) (rate : F64)
    (hrate : rate = (run R S (new r0 n I maxErr maxAdd ne) h).getOneMinuteRate R env.tick ∨
      rate = (run R S (new r0 n I maxErr maxAdd ne) h).getFiveMinuteRate R env.tick ∨
      rate = (run R S (new r0 n I maxErr maxAdd ne) h).getFifteenMinuteRate R env.tick) :
    rate =
      match feeds 0 (tickLog R S (new r0 n I maxErr maxAdd ne) (h ++ [(env, .readRate)])) with
      | [] => .fin 0
      | [count] => if 0 < count then .inf false else .nan
      | _ => .nan := by
  have hlen' : ((records (h ++ [(env, Op.readRate)])).length : Int) < 2 ^ 63 := by
    have : records (h ++ [(env, Op.readRate)]) = records h := by simp [records, List.filter_append]
    rw [this]; exact hlen
  have hu0 : (new r0 n I maxErr maxAdd ne).uncounted = 0 := rfl
  have hI0 : (new r0 n I maxErr maxAdd ne).bucketInterval ≠ 0 := hI
  generalize hh : h ++ [(env, Op.readRate)] = h' at hlen'
  obtain ⟨k1, k2, k3, k4, k5, -⟩ := C30_fed R S (new r0 n I maxErr maxAdd ne) hI0 hu0 h' hlen'
  subst hh
  have hrun : run R S (new r0 n I maxErr maxAdd ne) (h ++ [(env, .readRate)]) =
    ((run R S (new r0 n I maxErr maxAdd ne) h).tickIfNecessary R env.tick).state := run_snoc _ _ _ _ _
  rw [hrun] at k1 k2 k3 k4 k5
  have hnn : ∀ (p : Int) (l : List (Nat × Bool)), 0 ≤ p → (∀ x ∈ feeds p l, 0 ≤ x) ∧ 0 ≤ leftOver p l := by
    intro p l
    induction l generalizing p with
    | nil => intro hp; exact ⟨by simp [feeds], hp⟩
    | cons e l ih =>
      intro hp
      obtain ⟨k, r⟩ := e
      cases k with
      | zero => exact ih _ (by split <;> omega)
      | succ k =>
        have := ih (if r then 1 else 0) (by split <;> omega)
        refine ⟨?_, this.2⟩
        intro x hx
        simp only [feeds, List.mem_cons, List.mem_append, List.mem_replicate] at hx
        rcases hx with rfl | ⟨-, rfl⟩ | hx
        · exact hp
        · omega
        · exact this.1 x hx
  have hnn' := hnn 0 (tickLog R S (new r0 n I maxErr maxAdd ne) (h ++ [(env, .readRate)])) le_rfl
  generalize hfed : feeds 0 (tickLog R S (new r0 n I maxErr maxAdd ne) (h ++ [(env, .readRate)])) = fed at *
  have hun : 0 ≤ ((run R S (new r0 n I maxErr maxAdd ne) h).tickIfNecessary R env.tick).state.uncounted := by
    rw [k4]; exact hnn'.2
  have hone : rate = (fed.foldl (fun e n => e.tickN R n) EWMA.zeroValue).getRate R second := by
    rcases hrate with rfl | rfl | rfl
    · unfold getOneMinuteRate; rw [k1]; rfl
    · unfold getFiveMinuteRate; rw [k2]; rfl
    · unfold getFifteenMinuteRate; rw [k3]; rfl
  have h0 : F64.ofInt R 0 = .fin 0 := by
    have := hR.zero
    simpa [F64.ofInt] using this
  have hsec : F64.ofInt R second = .fin 1000000000 := by unfold F64.ofInt second; exact_mod_cast hG
  -- the state of an average with NaN as its rate
  have hnan : ∀ (l : List Int) (e : EWMA), e.initialized = true → e.rate = .nan → (l.foldl (fun e n => e.tickN R n) e).rate = .nan := by
    intro l
    induction l with
    | nil => intro e _ h; exact h
    | cons a l ih =>
      intro e h1 h2
      rw [List.foldl_cons]
      apply ih _ rfl
      simp only [EWMA.tickN, EWMA.newRate, h1, if_true, h2, F64.add]
  have hfirst : ∀ a : Int, 0 ≤ a → a < 2 ^ 63 → (EWMA.zeroValue.tickN R a).rate = if 0 < a then .inf false else .nan := by
    intro a ha ha'
    simp only [EWMA.tickN, EWMA.newRate, EWMA.zeroValue, EWMA.instantRate, Bool.false_eq_true, if_false, h0]
    by_cases hpa : 0 < a
    · obtain ⟨q, hq, hq'⟩ := hpos a hpa ha'
      rw [if_pos hpa, F64.ofInt, hq]
      simp only [F64.div, if_true, hq'.ne', if_false, not_lt.2 hq'.le, decide_false]
    · rw [if_neg hpa, show a = 0 by omega, h0]
      simp [F64.div]
  have hsum : ∀ l : List Int, (∀ x ∈ l, 0 ≤ x) → 0 ≤ l.sum := fun l hl => List.sum_nonneg hl
  rw [hone]
  match fed, hnn', k5 with
  | [], _, _ =>
    simp only [List.foldl_nil, EWMA.getRate, EWMA.zeroValue, hsec, F64.mul, zero_mul]
    exact hR.zero
  | [a], hn, k5 =>
    have ha : 0 ≤ a := hn.1 a (by simp)
    have ha' : a < 2 ^ 63 := by
      rw [List.sum_singleton] at k5
      omega
    simp only [List.foldl_cons, List.foldl_nil, EWMA.getRate, hfirst a ha ha', hsec]
    by_cases hpa : 0 < a
    · rw [if_pos hpa]; simp [F64.mul]
    · rw [if_neg hpa]; rfl
  | a :: b :: l, hn, k5 =>
    have ha : 0 ≤ a := hn.1 a (by simp)
    have ha' : a < 2 ^ 63 := by
      rw [List.sum_cons] at k5
      have := hsum (b :: l) (fun x hx => hn.1 x (by simp [hx]))
      omega
    simp only [List.foldl_cons]
    rw [EWMA.getRate, hnan l _ rfl ?_]
    · rfl
    · rw [EWMA.tickN, EWMA.newRate]
      simp only [show (EWMA.zeroValue.tickN R a).initialized = true from rfl, if_true, hfirst a ha ha',
        show (EWMA.zeroValue.tickN R a).alpha = .fin 0 from rfl]
      by_cases hpa : 0 < a
      · rw [if_pos hpa]
        simp only [EWMA.instantRate, show (EWMA.zeroValue.tickN R a).interval = 0 from rfl, h0, F64.sub, F64.neg, Bool.not_false]
        cases F64.div R (F64.ofInt R b) (.fin 0) with
        | nan => simp [F64.add, F64.mul]
        | inf s => cases s <;> simp [F64.add, F64.mul]
        | fin q => simp [F64.add, F64.mul]
      · rw [if_neg hpa]; rfl

/-- The hypothesis of `C26_exact` about rounding holds for the real arithmetic. -/
theorem C26_counts_positive (n : Int) (h0 : 0 < n) (h1 : n < 2 ^ 63) : ∃ q, Rounding.binary64.rnd n = .fin q ∧ 0 < q := by
  have hone : Rounding.binary64.rnd 1 = .fin 1 := by
    have := Rounding.binary64_int (n := 1) (by norm_num)
    simpa using this
  have htop : Rounding.binary64.rnd (2 ^ 63) = .fin (2 ^ 63) := by
    have := Rounding.binary64_dyadic (n := 1) (k := 63) (by norm_num) (by norm_num) (by norm_num)
    simp only [Int.cast_one, one_mul] at this
    exact_mod_cast this
  have h2 : (1 : ℚ) ≤ n := by exact_mod_cast h0
  have h3 : (n : ℚ) ≤ 2 ^ 63 := by exact_mod_cast h1.le
  have a := Rounding.binary64_lawful.mono _ _ h2
  have b := Rounding.binary64_lawful.mono _ _ h3
  rw [hone] at a
  rw [htop] at b
  cases hr : Rounding.binary64.rnd n with
  | nan => rw [hr] at a; exact a.elim
  | inf s => rw [hr] at a b; cases s <;> simp [F64.le] at a b
  | fin q =>
    rw [hr] at a
    refine ⟨q, rfl, ?_⟩
    have : (1 : ℚ) ≤ q := a
    linarith

/-- With the real arithmetic: one event, a read 6 s later says `+Inf`, a read after 11 s says NaN. -/
example : (run .binary64 quietReservoir (new () 10 5000000000 20 20 ⟨0, 0, 0⟩) [(envAt 0, .update 1)]).getOneMinuteRate .binary64
      6000000000 = .inf false ∧
    (run .binary64 quietReservoir (new () 10 5000000000 20 20 ⟨0, 0, 0⟩) [(envAt 0, .update 1)]).getFiveMinuteRate .binary64
      11000000000 = .nan := by
  constructor
  · refine (C26_exact Rounding.binary64_lawful C26_second_representable C26_counts_positive quietReservoir () 10 5000000000 20 20 ⟨0, 0, 0⟩
      (by decide) [(envAt 0, .update 1)] (envAt 6000000000) (by decide) _ (.inl rfl)).trans ?_
    have : feeds 0 (tickLog .binary64 quietReservoir (new () 10 5000000000 20 20 ⟨0, 0, 0⟩)
        ([(envAt 0, .update 1)] ++ [(envAt 6000000000, .readRate)])) = [1] := by rfl
    rw [this]; rfl
  · refine (C26_exact Rounding.binary64_lawful C26_second_representable C26_counts_positive quietReservoir () 10 5000000000 20 20 ⟨0, 0, 0⟩
      (by decide) [(envAt 0, .update 1)] (envAt 11000000000) (by decide) _ (.inr (.inl rfl))).trans ?_
    have : feeds 0 (tickLog .binary64 quietReservoir (new () 10 5000000000 20 20 ⟨0, 0, 0⟩)
        ([(envAt 0, .update 1)] ++ [(envAt 11000000000, .readRate)])) = [1, 0] := by rfl
    rw [this]

namespace CompassConc

/-- `s` after counts `l` were taken out and fed to all averages, the last one just now. -/
def Shared.afterFeeding (s : Shared) (l : List Int) : Shared :=
  { s with uncounted := 0, taken := s.taken ++ l, fed1 := s.fed1 ++ l, fed5 := s.fed5 ++ l, fed15 := s.fed15 ++ l }

/-- `k` iterations of the loop, undisturbed. -/
theorem loop_alone (I t : Int) (upd : Bool) (k : Nat) (s : Shared) :
    ∃ N, (fun x => callStep I x.1 t x.2)^[N] (s, loop upd k) = match k with
      | 0 => (s, after upd)
      | k + 1 => (s.afterFeeding (s.uncounted :: List.replicate k 0), after upd) := by
  induction k generalizing s with
  | zero => exact ⟨0, rfl⟩
  | succ k ih =>
    have h5 : (fun x => callStep I x.1 t x.2)^[5] (s, loop upd (k + 1)) =
        (s.afterFeeding [s.uncounted], loop upd k) := by
      simp [Function.iterate_succ_apply, callStep, loop, Shared.afterFeeding]
    obtain ⟨N, hN⟩ := ih (s.afterFeeding [s.uncounted])
    refine ⟨N + 5, ?_⟩
    rw [Function.iterate_add_apply, h5, hN]
    cases k with
    | zero => rfl
    | succ k => simp [Shared.afterFeeding, List.replicate_succ]

end CompassConc

/-- **C30.** The two models of the tick agree: a call that runs alone, step by step, leaves the tick clock, the pending count and - through what
it feeds them - the three averages as the sequential `Update` and rate reads do, from any state. -/
theorem C30_alone (R : Rounding) (S : ReservoirImpl σ X) (c : Compass σ) (hI : c.bucketInterval ≠ 0) (env : Env X) (op : Op) :
    ∃ N s', (fun x => CompassConc.callStep c.bucketInterval x.1 env.tick x.2)^[N]
        ({ lastTick := c.lastTick, uncounted := c.uncounted }, .readOld op.records) = (s', .done op.records) ∧
      let c' := (step R S c env op).state
      c'.lastTick = s'.lastTick ∧ c'.uncounted = s'.uncounted ∧
      c'.m1Rate = s'.fed1.foldl (fun e n => e.tickN R n) c.m1Rate ∧
      c'.m5Rate = s'.fed5.foldl (fun e n => e.tickN R n) c.m5Rate ∧
      c'.m15Rate = s'.fed15.foldl (fun e n => e.tickN R n) c.m15Rate := by
  obtain ⟨t1, t2, t3, t4⟩ := step_tick R S c env op hI
  have hu := step_uncounted R S c env op hI
  have hd := C29_ticks_are_decays R c env.tick hI
  have hl := tick_lastTick R c env.tick hI
  simp only at hd
  generalize op.records = upd at hu
  let f := fun x : CompassConc.Shared × CompassConc.PC => CompassConc.callStep c.bucketInterval x.1 env.tick x.2
  -- the end of the call
  have hend : ∀ s : CompassConc.Shared, f^[1] (s, CompassConc.after upd) =
      ({ s with uncounted := if upd then i64 (s.uncounted + 1) else s.uncounted }, .done upd) := by
    intro s; cases upd <;> rfl
  by_cases ht : c.age env.tick > tickInterval
  · obtain ⟨k, hk⟩ : ∃ k, c.ticksDue env.tick = k + 1 := ⟨c.ticksDue env.tick - 1, by have := ticksDue_pos c env.tick ht; omega⟩
    rw [hk] at hd
    simp only at hd
    obtain ⟨d1, d2, d3, d4⟩ := hd
    rw [if_pos ht] at hl
    have hk' : ((c.age env.tick).tdiv tickInterval).toNat = k + 1 := by rw [← hk]; unfold ticksDue; rw [if_pos ht]
    have h3 : f^[3] ({ lastTick := c.lastTick, uncounted := c.uncounted }, .readOld upd) =
        ({ lastTick := i64 (env.tick - (c.age env.tick).tmod c.bucketInterval), uncounted := c.uncounted,
           wins := [(c.lastTick, i64 (env.tick - (c.age env.tick).tmod c.bucketInterval), k + 1)] }, CompassConc.loop upd (k + 1)) := by
      have ht' : i64 (env.tick - c.lastTick) > tickInterval := ht
      have hk'' : ((i64 (env.tick - c.lastTick)).tdiv tickInterval).toNat = k + 1 := hk'
      simp only [f, Function.iterate_succ_apply, Function.iterate_zero_apply, CompassConc.callStep, if_pos ht', hk'', if_true,
        List.nil_append, age]
    obtain ⟨N, hN⟩ := CompassConc.loop_alone c.bucketInterval env.tick upd (k + 1)
      { lastTick := i64 (env.tick - (c.age env.tick).tmod c.bucketInterval), uncounted := c.uncounted,
        wins := [(c.lastTick, i64 (env.tick - (c.age env.tick).tmod c.bucketInterval), k + 1)] }
    simp only at hN
    change f^[N] _ = _ at hN
    rw [← h3, ← Function.iterate_add_apply] at hN
    have hrun := hend (CompassConc.Shared.afterFeeding
      { lastTick := i64 (env.tick - (c.age env.tick).tmod c.bucketInterval), uncounted := c.uncounted,
        wins := [(c.lastTick, i64 (env.tick - (c.age env.tick).tmod c.bucketInterval), k + 1)] } (c.uncounted :: List.replicate k 0))
    rw [← hN, ← Function.iterate_add_apply] at hrun
    refine ⟨1 + (N + 3), _, hrun, ?_⟩
    · simp only [CompassConc.Shared.afterFeeding, t1, t2, t3, t4, hu, d1, d2, d3, d4, hl, List.nil_append, List.foldl_cons, foldl_replicate_zero, and_self]
  · have hk : c.ticksDue env.tick = 0 := by unfold ticksDue; rw [if_neg ht]
    rw [hk] at hd
    simp only at hd
    obtain ⟨d1, d2, d3, d4⟩ := hd
    rw [if_neg ht] at hl
    have h2 : f^[2] ({ lastTick := c.lastTick, uncounted := c.uncounted }, .readOld upd) =
        ({ lastTick := c.lastTick, uncounted := c.uncounted }, CompassConc.after upd) := by
      have ht' : ¬ i64 (env.tick - c.lastTick) > tickInterval := ht
      simp only [f, Function.iterate_succ_apply, Function.iterate_zero_apply, CompassConc.callStep, if_neg ht']
    have hrun := hend { lastTick := c.lastTick, uncounted := c.uncounted }
    rw [← h2, ← Function.iterate_add_apply] at hrun
    refine ⟨1 + 2, _, hrun, ?_⟩
    · simp only [t1, t2, t3, t4, hu, d1, d2, d3, d4, hl, List.foldl_nil, and_self]

end GoMetrics
