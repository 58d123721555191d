import Verif.Spec.BucketReservoir
import Verif.Proofs.CompassReservoir
import Verif.Props.Buckets
import Verif.Proofs.Seconds
/-! # C70, C71: the bucket reservoir and its snapshots -/
namespace GoMetrics
open Spec Compass Rounding

/-! ## C71 -/

/-- **C71.** Whatever a bucket snapshot holds: only `Size` and `GetMean` work, every other getter returns -10001 (`GetValues`: one zero) with an error;
nothing panics; the mean is 0 for count 0 and value / count otherwise. -/
theorem C71_contract (R : Rounding) (b : BucketSnapshot) (q : F64) :
    let na : F64 := R.rnd (-10001)
    b.size = .ok b.count ∧ (b.count = 0 → b.getMean R = .ok (.fin 0)) ∧
    (b.count ≠ 0 → b.getMean R = .ok (F64.div R (R.rnd b.value) (R.rnd b.count))) ∧
    BucketSnapshot.getValue R q = .err na ∧ BucketSnapshot.getValues = .err [0] ∧ BucketSnapshot.getMedian R = .err na ∧
    BucketSnapshot.get75thPercentile R = .err na ∧ BucketSnapshot.get95thPercentile R = .err na ∧ BucketSnapshot.get98thPercentile R = .err na ∧
    BucketSnapshot.get99thPercentile R = .err na ∧ BucketSnapshot.get999thPercentile R = .err na ∧ BucketSnapshot.getMax = .err (-10001) ∧
    BucketSnapshot.getMin = .err (-10001) ∧ BucketSnapshot.getStdDev R = .err na := by
  have h : F64.ofInt R (-10001) = R.rnd (-10001) := by unfold F64.ofInt; norm_num
  refine ⟨rfl, fun h0 => if_pos h0, fun h0 => if_neg h0, ?_⟩
  simp [BucketSnapshot.getValue, BucketSnapshot.getValues, BucketSnapshot.getMedian, BucketSnapshot.get75thPercentile, BucketSnapshot.get95thPercentile,
    BucketSnapshot.get98thPercentile, BucketSnapshot.get99thPercentile, BucketSnapshot.get999thPercentile, BucketSnapshot.getMax,
    BucketSnapshot.getMin, BucketSnapshot.getStdDev, h, notAvailable]

/-- **C71.** In binary64 and in exact arithmetic the error value is the number -10001, which no mean of non-negative durations can be. -/
theorem C71_not_available : Rounding.binary64.rnd (-10001) = .fin (-10001) ∧ Rounding.exact.rnd (-10001) = .fin (-10001) := by
  refine ⟨?_, rfl⟩
  have := binary64_int (n := -10001) (by norm_num)
  simpa using this

/-- **C71.** In exact arithmetic the mean of a snapshot with a count is the quotient. -/
theorem C71_mean_exact (b : BucketSnapshot) (h : b.count ≠ 0) : b.getMean .exact = .ok (.fin ((b.value : ℚ) / b.count)) := by
  have hq : ((b.count : Int) : ℚ) ≠ 0 := by exact_mod_cast h
  rw [(C71_contract .exact b .nan).2.2.1 h]
  simp [Rounding.exact, F64.div, hq]

example : (BucketSnapshot.mk 4 10).getMean .exact = .ok (.fin (5 / 2)) := by rw [C71_mean_exact _ (by decide)]; norm_num

/-! ## C70 -/

theorem fetch_spec {m : GoMap Int Int} (hw : m.WF) (v : Int) :
    (∃ pick, BucketReservoir.fetchValueFromMap m pick = v) ↔ ((∀ k w, m.get? k ≠ some w) ∧ v = 0) ∨ ∃ k, m.get? k = some v := by
  cases m with
  | nil => simp [BucketReservoir.fetchValueFromMap]; tauto
  | cons p t =>
    have hlen : 0 < (p :: t).length := by simp
    constructor
    · rintro ⟨pick, rfl⟩
      right
      have hlt : pick % (p :: t).length < (p :: t).length := Nat.mod_lt _ hlen
      refine ⟨((p :: t)[pick % (p :: t).length]).1, ?_⟩
      unfold BucketReservoir.fetchValueFromMap
      rw [List.getElem?_eq_getElem hlt]
      exact GoMap.get?_of_mem hw (List.getElem_mem hlt)
    · rintro (⟨h, -⟩ | ⟨k, hk⟩)
      · exact absurd (GoMap.get?_of_mem hw (k := p.1) (v := p.2) (by simp)) (h _ _)
      · obtain ⟨i, hi, he⟩ := List.getElem_of_mem (GoMap.mem_of_get? hk)
        refine ⟨i, ?_⟩
        unfold BucketReservoir.fetchValueFromMap
        rw [Nat.mod_eq_of_lt hi, List.getElem?_eq_getElem hi, he]

theorem wholeSeconds_pos {I : Int} (h : 1000000000 ≤ I) : wholeSeconds I = I / 1000000000 ∧ 1 ≤ I / 1000000000 := by
  unfold wholeSeconds
  rw [Int.tdiv_eq_ediv_of_nonneg (by omega)]
  exact ⟨rfl, by omega⟩

/-- Where the window of a snapshot begins: one interval before the current one, but not before 0. -/
theorem align_window {I t : Int} (hI : 1000000000 ≤ I) (hI64 : InI64 I) (ht : 1000 ≤ t) (ht64 : InI64 t) :
    BucketReservoir.alignToBucketStartTimeInMs I t = some (max 0 (1000 * (I / 1000000000) * slot (I / 1000000000) t - 1000 * (I / 1000000000))) := by
  obtain ⟨hw, h1⟩ := wholeSeconds_pos hI
  unfold BucketReservoir.alignToBucketStartTimeInMs secondToMsRate slot
  rw [hw]
  have hS : I / 1000000000 ≤ 9223372036 := by unfold InI64 at hI64; omega
  generalize I / 1000000000 = S at *
  rw [if_neg (by omega), Int.tdiv_eq_ediv_of_nonneg (a := t) (by omega), ← Int.ediv_ediv_of_nonneg (by norm_num)]
  have hc1 : 1 ≤ t / 1000 := by omega
  have hc2 : t / 1000 ≤ 9223372036854775 := by unfold InI64 at ht64; omega
  generalize hcur : t / 1000 = cur at *
  have hkey : (cur - S).tdiv S * S = max 0 (S * (cur / S) - S) ∧ (cur - S).tdiv S * S ≤ cur := by
    rcases le_or_gt S cur with h | h
    · have e1 : (cur - S).tdiv S = cur / S - 1 := by
        rw [Int.tdiv_eq_ediv_of_nonneg (by omega)]
        have := Int.sub_ediv_of_dvd (a := cur) (b := S) (c := S) (dvd_refl S)
        rw [this, Int.ediv_self (by omega)]
      have e2 : 1 ≤ cur / S := (Int.le_ediv_iff_mul_le (by omega)).2 (by omega)
      have e3 : S * (cur / S) ≤ cur := Int.mul_ediv_self_le (by omega)
      have e4 : S * 1 ≤ S * (cur / S) := Int.mul_le_mul_of_nonneg_left e2 (by omega)
      rw [e1]
      have e5 : (cur / S - 1) * S = S * (cur / S) - S := by ring
      rw [e5]
      omega
    · have e1 : (cur - S).tdiv S = 0 := by
        have : cur - S = -(S - cur) := by ring
        rw [this, Int.neg_tdiv, Int.tdiv_eq_ediv_of_nonneg (by omega), Int.ediv_eq_zero_of_lt (by omega) (by omega)]
        rfl
      have e2 : cur / S = 0 := Int.ediv_eq_zero_of_lt (by omega) h
      rw [e1, e2]
      omega
  have h0 : 0 ≤ (cur - S).tdiv S * S := by rw [hkey.1]; omega
  rw [i64_of_in (x := (cur - S).tdiv S * S) (by unfold InI64; omega), i64_of_in (by unfold InI64; omega), hkey.1, Option.some.injEq]
  have e6 : 1000 * S * (cur / S) = 1000 * (S * (cur / S)) := by ring
  rw [e6]
  omega

/-- What the query for that window returns. -/
theorem window_query {I t : Int} (hI : 1000000000 ≤ I) (ht : 0 ≤ t) (N : Nat) (hN : 2 ≤ N) (t0 : Int) (h : List (Int × BucketCounter.Op))
    (hpos : ∀ c ∈ h, 0 ≤ c.1 ∧ c.1 ≤ t) (hmono : h.Pairwise fun a b => a.1 ≤ b.1) :
    ∃ m, (BucketCounter.run (BucketCounter.new I N t0 true) h).getBucketCountsSince t
        (max 0 (1000 * (I / 1000000000) * slot (I / 1000000000) t - 1000 * (I / 1000000000))) = some m ∧ m.WF ∧
      ∀ v, (∃ k, m.get? k = some v) ↔ ∃ j, (j = slot (I / 1000000000) t ∨ j = slot (I / 1000000000) t - 1) ∧
        (∃ c ∈ h, slot (I / 1000000000) c.1 = j) ∧
        v = i64 ((h.filter fun c => slot (I / 1000000000) c.1 = j).map fun c => c.2.amount).sum := by
  obtain ⟨m, hm, hwf, hq⟩ := C03_query_monotone_clock I N t0 true hI h t
    (max 0 (1000 * (I / 1000000000) * slot (I / 1000000000) t - 1000 * (I / 1000000000))) (by omega) ht (fun c hc => (hpos c hc).1) hmono
  refine ⟨m, hm, hwf, fun v => ?_⟩
  have h1 : 1 ≤ I / 1000000000 := (wholeSeconds_pos hI).2
  generalize I / 1000000000 = S at *
  have hP : 0 < 1000 * S := by omega
  have hle : ∀ c ∈ h, slot S c.1 ≤ slot S t := fun c hc => Int.ediv_le_ediv hP (hpos c hc).2
  have hge : ∀ c ∈ h, 0 ≤ slot S c.1 := fun c hc => Int.ediv_nonneg (hpos c hc).1 hP.le
  have hJt : 1000 * S * slot S t ≤ t := Int.mul_ediv_self_le hP.ne'
  have hidx : ∀ t, intervalIndex S t = slot S t := fun _ => rfl
  constructor
  · rintro ⟨k, hk⟩
    obtain ⟨j, hkj, ⟨c, hc, hcj⟩, -, hs, hkt, hv⟩ := (hq k v).1 hk
    refine ⟨j, ?_, ⟨c, hc, hcj⟩, hv⟩
    rw [hidx] at hcj
    have hjJ : j ≤ slot S t := hcj ▸ hle c hc
    have : 1000 * S * (slot S t - 1) ≤ 1000 * S * j := by rw [mul_sub, mul_one]; omega
    have := le_of_mul_le_mul_left this hP
    omega
  · rintro ⟨j, hj, ⟨c, hc, hcj⟩, hv⟩
    have hj0 : 0 ≤ j := hcj ▸ hge c hc
    have hjJ : j ≤ slot S t := hcj ▸ hle c hc
    refine ⟨1000 * S * j, (hq _ v).2 ⟨j, rfl, ⟨c, hc, hcj⟩, ?_, ?_, ?_, hv⟩⟩
    · refine lt_of_le_of_lt (Finset.card_le_card (t := {slot S t}) ?_) (by simp; omega)
      intro j' hj'
      simp only [Finset.mem_filter, List.mem_toFinset, List.mem_map, Finset.mem_singleton] at hj' ⊢
      obtain ⟨⟨c', hc', rfl⟩, hlt⟩ := hj'
      rw [hidx] at hlt ⊢
      have := hle c' hc'
      omega
    · have : 1000 * S * (slot S t - 1) ≤ 1000 * S * j := Int.mul_le_mul_of_nonneg_left (by omega) hP.le
      rw [mul_sub, mul_one] at this
      have : 0 ≤ 1000 * S * j := Int.mul_nonneg hP.le hj0
      omega
    · exact le_trans (Int.mul_le_mul_of_nonneg_left hjJ hP.le) hJt

theorem events_total {X : Type} (h : List (Env X × Op)) :
    totalOps h = (events h).map fun e => (e.1, BucketCounter.Op.update) := by
  induction h with
  | nil => rfl
  | cons e h ih =>
    obtain ⟨env, op⟩ := e
    unfold totalOps records events at ih ⊢
    cases op with
    | update d => simp only [List.filter_cons, List.filterMap_cons, if_true, List.map_cons, ih]
    | updateWithError d s c a => simp only [List.filter_cons, List.filterMap_cons, if_true, List.map_cons, ih]
    | readRate => simp only [List.filter_cons, List.filterMap_cons, Bool.false_eq_true, if_false, ih]

theorem events_feed (h : List (Env AnyReservoir.Env × Op)) (hs : ∀ e ∈ records h, e.1.x.bucket = e.1.tTotal) :
    (feed h).map (fun e => (e.1.bucket, BucketCounter.Op.updateN e.2)) = (events h).map fun e => (e.1, BucketCounter.Op.updateN e.2) := by
  induction h with
  | nil => rfl
  | cons e h ih =>
    obtain ⟨env, op⟩ := e
    have hrest : ∀ e ∈ records h, e.1.x.bucket = e.1.tTotal := fun e he => hs e (by
      unfold records at he ⊢; rw [List.filter_cons]; split <;> simp_all)
    cases op with
    | update d =>
      have := hs (env, .update d) (by simp [records])
      show (env.x.bucket, BucketCounter.Op.updateN d) :: (feed h).map _ = (env.tTotal, BucketCounter.Op.updateN d) :: (events h).map _
      rw [ih hrest, show env.x.bucket = _ from this]
    | updateWithError d s c a =>
      have := hs (env, .updateWithError d s c a) (by simp [records])
      show (env.x.bucket, BucketCounter.Op.updateN d) :: (feed h).map _ = (env.tTotal, BucketCounter.Op.updateN d) :: (events h).map _
      rw [ih hrest, show env.x.bucket = _ from this]
    | readRate => exact ih hrest

theorem fed_bucket (A : EDR.Arith) (I : Int) (n : Nat) (t0 : Int) (l : List (AnyReservoir.Env × Int)) :
    fed (AnyReservoir.impl A) (.bucket (BucketReservoir.new I n t0)) l =
      .bucket ⟨BucketCounter.run (BucketCounter.new I n t0 true) (l.map fun e => (e.1.bucket, .updateN e.2)), I⟩ := by
  induction l using List.reverseRecOn with
  | nil => rfl
  | append_singleton l e ih =>
    unfold fed at ih ⊢
    rw [List.foldl_append, ih]
    simp only [List.foldl_cons, List.foldl_nil, List.map_append, List.map_cons, List.map_nil, BucketCounter.run_append, AnyReservoir.impl,
      AnyReservoir.updateN, BucketReservoir.updateN, Res.lift_state, BucketCounter.step]

theorem reservoirFor_bucket (A : EDR.Arith) (n : Nat) (I : Int) (re : ResEnv) :
    reservoirFor A bucketReservoirType n I re = .bucket (BucketReservoir.new I n re.tValue) := by
  unfold reservoirFor
  rw [if_neg (by decide), if_pos rfl]

theorem countIn_eq (I j : Int) (l : Events) :
    (((l.map fun e => (e.1, BucketCounter.Op.update)).filter fun c => slot I c.1 = j).map fun c => c.2.amount).sum = countIn I j l := by
  unfold countIn
  rw [List.filter_map, List.map_map]
  have : ∀ k : Events, (k.map ((fun c : Int × BucketCounter.Op => c.2.amount) ∘ fun e => (e.1, BucketCounter.Op.update))).sum = (k.length : Int) := by
    intro k
    induction k with
    | nil => rfl
    | cons a k ih => rw [List.map_cons, List.sum_cons, ih, List.length_cons]; simp only [Function.comp, BucketCounter.Op.amount]; push_cast; ring
  rw [this]; rfl

theorem sumIn_eq (I j : Int) (l : Events) :
    (((l.map fun e => (e.1, BucketCounter.Op.updateN e.2)).filter fun c => slot I c.1 = j).map fun c => c.2.amount).sum = sumIn I j l := by
  unfold sumIn
  rw [List.filter_map, List.map_map]
  rfl

/-- **C70.** All the snapshots a compass with a bucket reservoir may return at time `t`, when the clock stands still within a call and never goes back
between calls (times from 0 to `t`, `t` at least 1 s, at least two buckets, interval at least 1 s): if neither the interval of `t` nor the one before
has events, only count 0 and value 0; otherwise exactly the combinations of the count of ONE of these two intervals and the sum of the durations
of ONE of them - not necessarily the same one. -/
theorem C70_possible (R : Rounding) (A : EDR.Arith) (n : Nat) (hn : 2 ≤ n) (I maxErr maxAdd : Int) (ne : NewEnv) (re : ResEnv) (hI : 1000000000 ≤ I)
    (hI64 : InI64 I) (h : List (Env AnyReservoir.Env × Op)) (hsame : ∀ e ∈ records h, e.1.x.bucket = e.1.tTotal) (t : Int) (ht : 1000 ≤ t) (ht64 : InI64 t)
    (hpos : ∀ e ∈ events h, 0 ≤ e.1 ∧ e.1 ≤ t) (hmono : (events h).Pairwise fun a b => a.1 ≤ b.1) (s : AnySnapshot) :
    let c := run R (AnyReservoir.impl A) (newWithType A bucketReservoirType n I maxErr maxAdd ne re) h
    let S := I / 1000000000
    (∃ tick scaleTime sorted pickValue pickCount, c.getSnapshot A ⟨tick, scaleTime, sorted, ⟨t, t, t, pickValue, pickCount⟩⟩ = some s) ↔
      ((∀ j, ¬ Recent S t j (events h)) ∧ s = .bucket ⟨0, 0⟩) ∨
      ∃ j j', Recent S t j (events h) ∧ Recent S t j' (events h) ∧ s = .bucket ⟨i64 (countIn S j' (events h)), i64 (sumIn S j (events h))⟩ := by
  intro c S
  have hres : c.reservoir = .bucket ⟨BucketCounter.run (BucketCounter.new I n re.tValue true) ((events h).map fun e => (e.1, .updateN e.2)), I⟩ := by
    have := reservoir_run R (AnyReservoir.impl A) (reservoirFor A bucketReservoirType n I re) n I maxErr maxAdd ne hI h
    rw [reservoirFor_bucket, fed_bucket, events_feed h hsame] at this
    simp only [c]
    unfold newWithType
    rw [reservoirFor_bucket]; exact this
  have htot : c.totalCount = BucketCounter.run (BucketCounter.new I n ne.tTotal true) ((events h).map fun e => (e.1, .update)) := by
    rw [← events_total]
    simp only [c]
    unfold newWithType
    exact (basic_run R (AnyReservoir.impl A) _ n I maxErr maxAdd ne (by omega) h).total
  obtain ⟨mv, hmv, hwv, hqv⟩ := window_query hI (by omega : 0 ≤ t) n hn re.tValue ((events h).map fun e => (e.1, BucketCounter.Op.updateN e.2))
    (by intro c hc; obtain ⟨e, he, rfl⟩ := List.mem_map.1 hc; exact hpos e he) (by rw [List.pairwise_map]; exact hmono)
  obtain ⟨mc, hmc, hwc, hqc⟩ := window_query hI (by omega : 0 ≤ t) n hn ne.tTotal ((events h).map fun e => (e.1, BucketCounter.Op.update))
    (by intro c hc; obtain ⟨e, he, rfl⟩ := List.mem_map.1 hc; exact hpos e he) (by rw [List.pairwise_map]; exact hmono)
  have hsnap : ∀ tick scaleTime sorted pv pc, c.getSnapshot A ⟨tick, scaleTime, sorted, ⟨t, t, t, pv, pc⟩⟩ =
      some (.bucket ⟨BucketReservoir.fetchValueFromMap mc pc, BucketReservoir.fetchValueFromMap mv pv⟩) := by
    intro tick scaleTime sorted pv pc
    unfold Compass.getSnapshot
    rw [hres]
    simp only
    unfold BucketReservoir.getSnapshot
    rw [align_window hI hI64 ht ht64]
    simp only [hmv, htot, hmc, Option.map_some]
  have hV : ∀ v, (∃ k, mv.get? k = some v) ↔ ∃ j, Recent S t j (events h) ∧ v = i64 (sumIn S j (events h)) := by
    intro v
    rw [hqv]
    constructor
    · rintro ⟨j, hj, ⟨c, hc, hcj⟩, hv⟩
      obtain ⟨e, he, rfl⟩ := List.mem_map.1 hc
      exact ⟨j, ⟨hj, e, he, hcj⟩, hv.trans (by rw [sumIn_eq])⟩
    · rintro ⟨j, ⟨hj, e, he, hej⟩, hv⟩
      exact ⟨j, hj, ⟨_, List.mem_map_of_mem he, hej⟩, hv.trans (by rw [sumIn_eq])⟩
  have hC : ∀ v, (∃ k, mc.get? k = some v) ↔ ∃ j, Recent S t j (events h) ∧ v = i64 (countIn S j (events h)) := by
    intro v
    rw [hqc]
    constructor
    · rintro ⟨j, hj, ⟨c, hc, hcj⟩, hv⟩
      obtain ⟨e, he, rfl⟩ := List.mem_map.1 hc
      exact ⟨j, ⟨hj, e, he, hcj⟩, hv.trans (by rw [countIn_eq])⟩
    · rintro ⟨j, ⟨hj, e, he, hej⟩, hv⟩
      exact ⟨j, hj, ⟨_, List.mem_map_of_mem he, hej⟩, hv.trans (by rw [countIn_eq])⟩
  have hVe : (∀ k w, mv.get? k ≠ some w) ↔ ∀ j, ¬ Recent S t j (events h) := by
    constructor
    · intro hk j hj
      obtain ⟨k, hk'⟩ := (hV _).2 ⟨j, hj, rfl⟩
      exact hk k _ hk'
    · intro hj k w hk
      obtain ⟨j, hj', -⟩ := (hV w).1 ⟨k, hk⟩
      exact hj j hj'
  have hCe : (∀ k w, mc.get? k ≠ some w) ↔ ∀ j, ¬ Recent S t j (events h) := by
    constructor
    · intro hk j hj
      obtain ⟨k, hk'⟩ := (hC _).2 ⟨j, hj, rfl⟩
      exact hk k _ hk'
    · intro hj k w hk
      obtain ⟨j, hj', -⟩ := (hC w).1 ⟨k, hk⟩
      exact hj j hj'
  constructor
  · rintro ⟨tick, scaleTime, sorted, pv, pc, he⟩
    rw [hsnap, Option.some.injEq] at he
    rcases (fetch_spec hwv _).1 ⟨pv, rfl⟩ with ⟨hv1, hv2⟩ | hv
    · left
      rcases (fetch_spec hwc _).1 ⟨pc, rfl⟩ with ⟨-, hc2⟩ | hc
      · exact ⟨hVe.1 hv1, by rw [← he, hv2, hc2]⟩
      · obtain ⟨j, hj, -⟩ := (hC _).1 hc
        exact absurd hj (hVe.1 hv1 j)
    · right
      obtain ⟨j, hj, hj2⟩ := (hV _).1 hv
      rcases (fetch_spec hwc _).1 ⟨pc, rfl⟩ with ⟨hc1, -⟩ | hc
      · exact absurd hj (hCe.1 hc1 j)
      · obtain ⟨j', hj', hj2'⟩ := (hC _).1 hc
        exact ⟨j, j', hj, hj', by rw [← he, hj2, hj2']⟩
  · rintro (⟨hno, rfl⟩ | ⟨j, j', hj, hj', rfl⟩)
    · obtain ⟨pv, hpv⟩ := (fetch_spec hwv 0).2 (Or.inl ⟨hVe.2 hno, rfl⟩)
      obtain ⟨pc, hpc⟩ := (fetch_spec hwc 0).2 (Or.inl ⟨hCe.2 hno, rfl⟩)
      exact ⟨0, 0, [], pv, pc, by rw [hsnap, hpv, hpc]⟩
    · obtain ⟨pv, hpv⟩ := (fetch_spec hwv _).2 (Or.inr ((hV _).2 ⟨j, hj, rfl⟩))
      obtain ⟨pc, hpc⟩ := (fetch_spec hwc _).2 (Or.inr ((hC _).2 ⟨j', hj', rfl⟩))
      exact ⟨0, 0, [], pv, pc, by rw [hsnap, hpv, hpc]⟩

/-- **C70.** If only one interval of the window has events, the mean (exact arithmetic, fewer than 2^63 events, sum within int64) is the average duration
of that interval. -/
theorem C70_one_interval (R : Rounding) (A : EDR.Arith) (n : Nat) (hn : 2 ≤ n) (I maxErr maxAdd : Int) (ne : NewEnv) (re : ResEnv) (hI : 1000000000 ≤ I)
    (hI64 : InI64 I) (h : List (Env AnyReservoir.Env × Op)) (hsame : ∀ e ∈ records h, e.1.x.bucket = e.1.tTotal) (t : Int) (ht : 1000 ≤ t) (ht64 : InI64 t)
    (hpos : ∀ e ∈ events h, 0 ≤ e.1 ∧ e.1 ≤ t) (hmono : (events h).Pairwise fun a b => a.1 ≤ b.1) (tick scaleTime : Int) (sorted : List WeightedSample)
    (pickValue pickCount : Nat) (j : Int) (hj : Recent (I / 1000000000) t j (events h)) (hone : ∀ j', Recent (I / 1000000000) t j' (events h) → j' = j)
    (hc : ((events h).length : Int) < 9223372036854775808) (hs : InI64 (sumIn (I / 1000000000) j (events h))) :
    ∃ b, (run R (AnyReservoir.impl A) (newWithType A bucketReservoirType n I maxErr maxAdd ne re) h).getSnapshot A
        ⟨tick, scaleTime, sorted, ⟨t, t, t, pickValue, pickCount⟩⟩ = some (.bucket b) ∧
      b.size = .ok (countIn (I / 1000000000) j (events h)) ∧ 0 < countIn (I / 1000000000) j (events h) ∧
      b.getMean .exact = .ok (.fin ((sumIn (I / 1000000000) j (events h) : ℚ) / countIn (I / 1000000000) j (events h))) := by
  have hcle : countIn (I / 1000000000) j (events h) ≤ (events h).length := by
    unfold countIn; exact_mod_cast List.length_filter_le _ _
  have hcpos : 0 < countIn (I / 1000000000) j (events h) := by
    obtain ⟨-, e, he, hej⟩ := hj
    unfold countIn
    exact_mod_cast List.length_pos_of_mem (List.mem_filter.2 ⟨he, by simpa using hej⟩)
  have hci : i64 (countIn (I / 1000000000) j (events h)) = countIn (I / 1000000000) j (events h) := i64_of_in (by unfold InI64; omega)
  have hex : ∃ s, (run R (AnyReservoir.impl A) (newWithType A bucketReservoirType n I maxErr maxAdd ne re) h).getSnapshot A
      ⟨tick, scaleTime, sorted, ⟨t, t, t, pickValue, pickCount⟩⟩ = some s := by
    obtain ⟨tk, st, so, pv, pc, he⟩ := (C70_possible R A n hn I maxErr maxAdd ne re hI hI64 h hsame t ht ht64 hpos hmono _).2 (Or.inr ⟨j, j, hj, hj, rfl⟩)
    have hres := reservoir_run R (AnyReservoir.impl A) (reservoirFor A bucketReservoirType n I re) n I maxErr maxAdd ne hI h
    unfold Compass.getSnapshot at he ⊢
    unfold newWithType at he ⊢
    rw [hres, reservoirFor_bucket, fed_bucket] at he ⊢
    simp only at he ⊢
    unfold BucketReservoir.getSnapshot at he ⊢
    split at he
    · simp at he
    · split at he
      · simp at he
      · split at he
        · simp at he
        · rename_i st' h1 _ _ h2 _ _ h3
          simp only at h1 h2 h3
          simp only [h1, h2, h3]
          exact ⟨_, rfl⟩
  obtain ⟨s, hs'⟩ := hex
  rcases (C70_possible R A n hn I maxErr maxAdd ne re hI hI64 h hsame t ht ht64 hpos hmono s).1 ⟨_, _, _, _, _, hs'⟩ with ⟨hno, -⟩ | ⟨a, b, ha, hb, rfl⟩
  · exact absurd hj (hno j)
  · rw [hone a ha, hone b hb, hci, i64_of_in hs] at hs'
    refine ⟨_, hs', rfl, hcpos, C71_mean_exact _ hcpos.ne'⟩

/-! ### Concrete cases -/

/-- A clock that reads `t` ms everywhere (and whose tick stands still). -/
def stillEnv (t : Int) : Env AnyReservoir.Env := ⟨0, t, ⟨⟨0, t, t, .fin 0⟩, t, []⟩, t, t, t, t, t⟩

/-- One update of 100 in the interval [0 s, 5 s), three of 1 in [5 s, 10 s). -/
def mixedHistory : List (Env AnyReservoir.Env × Op) :=
  [(stillEnv 1000, .update 100), (stillEnv 6000, .update 1), (stillEnv 6500, .update 1), (stillEnv 7000, .updateWithError 1 true "" "")]

/-- The hypotheses of C70 are met by this history. -/
example : (∀ e ∈ records mixedHistory, e.1.x.bucket = e.1.tTotal) ∧ (∀ e ∈ events mixedHistory, 0 ≤ e.1 ∧ e.1 ≤ (8000 : Int)) ∧
    (events mixedHistory).Pairwise (fun a b => a.1 ≤ b.1) ∧ Recent 5 8000 0 (events mixedHistory) ∧ Recent 5 8000 1 (events mixedHistory) ∧
    ¬ Recent 5 18000 0 (events mixedHistory) := by
  unfold Recent; decide

/-- **C70.** The mean need not be the average of any interval: a compass with intervals of 5 s, one update of 100 in one interval and three of 1 in
the next, may report count 3 and mean 100 / 3. -/
theorem C70_mixed_refuted (R : Rounding) (A : EDR.Arith) : ∃ env b,
    (run R (AnyReservoir.impl A) (newWithType A bucketReservoirType 10 5000000000 100 10 ⟨0, 0, 0⟩ ⟨0, 0, 0⟩) mixedHistory).getSnapshot A env = some (.bucket b) ∧
    b.size = .ok 3 ∧ b.getMean .exact = .ok (.fin (100 / 3)) ∧ ∀ j, (100 / 3 : ℚ) ≠ (sumIn 5 j (events mixedHistory) : ℚ) / countIn 5 j (events mixedHistory) := by
  obtain ⟨tick, st, so, pv, pc, he⟩ := (C70_possible R A 10 (by decide) 5000000000 100 10 ⟨0, 0, 0⟩ ⟨0, 0, 0⟩ (by decide) (by decide) mixedHistory (by decide) 8000
    (by decide) (by decide) (by decide) (by decide) (.bucket ⟨3, 100⟩)).2 (Or.inr ⟨0, 1, by unfold Recent; decide, by unfold Recent; decide, congrArg AnySnapshot.bucket (by decide)⟩)
  refine ⟨_, _, he, rfl, ?_, fun j => ?_⟩
  · rw [C71_mean_exact _ (by decide)]; norm_num
  · have hev : events mixedHistory = [(1000, 100), (6000, 1), (6500, 1), (7000, 1)] := by decide
    have hs : slot 5 1000 = 0 ∧ slot 5 6000 = 1 ∧ slot 5 6500 = 1 ∧ slot 5 7000 = 1 := by decide
    rw [hev]
    unfold sumIn countIn
    by_cases h0 : (0 : Int) = j
    · subst h0; simp [hs]; norm_num
    · by_cases h1 : (1 : Int) = j
      · subst h1; simp [hs]; norm_num
      · simp [hs, h0, h1]

/-- A snapshot in terms of the two counters it reads. -/
theorem snapshot_eq (R : Rounding) (A : EDR.Arith) (n : Nat) (I maxErr maxAdd : Int) (ne : NewEnv) (re : ResEnv) (hI : 1000000000 ≤ I)
    (h : List (Env AnyReservoir.Env × Op)) (env : SnapEnv) :
    (run R (AnyReservoir.impl A) (newWithType A bucketReservoirType n I maxErr maxAdd ne re) h).getSnapshot A env =
      ((BucketReservoir.mk (BucketCounter.run (BucketCounter.new I n re.tValue true) ((feed h).map fun e => (e.1.bucket, .updateN e.2))) I).getSnapshot
        (BucketCounter.run (BucketCounter.new I n ne.tTotal true) (totalOps h)) env.bucket).map .bucket := by
  have h1 := reservoir_run R (AnyReservoir.impl A) (reservoirFor A bucketReservoirType n I re) n I maxErr maxAdd ne hI h
  have h2 := (basic_run R (AnyReservoir.impl A) (reservoirFor A bucketReservoirType n I re) n I maxErr maxAdd ne (by omega) h).total
  rw [reservoirFor_bucket, fed_bucket] at h1
  rw [reservoirFor_bucket] at h2
  unfold getSnapshot newWithType
  rw [reservoirFor_bucket, h1, h2]

/-- **C70.** Why the clock must have run for a second: an update of 5 at 0.2 s, intervals of 1 s; a snapshot at 0.9 s may report the count of one event with
value 0 (or no event at all), because the window then begins before time 0 and includes an interval that never was. -/
theorem C70_first_second_refuted (R : Rounding) (A : EDR.Arith) : ∃ env b,
    (run R (AnyReservoir.impl A) (newWithType A bucketReservoirType 10 1000000000 100 10 ⟨0, 0, 0⟩ ⟨0, 0, 0⟩) [(stillEnv 200, .update 5)]).getSnapshot A env =
      some (.bucket b) ∧ env.bucket.tAlign = 900 ∧ env.bucket.tValue = 900 ∧ env.bucket.tCount = 900 ∧ b.size = .ok 1 ∧ b.getMean .exact = .ok (.fin 0) := by
  refine ⟨⟨0, 0, [], ⟨900, 900, 900, 1, 0⟩⟩, ⟨1, 0⟩, ?_, rfl, rfl, rfl, rfl, ?_⟩
  · rw [snapshot_eq _ _ _ _ _ _ _ _ (by decide)]
    exact congrArg (Option.map AnySnapshot.bucket) (by decide +kernel : _ = some (BucketSnapshot.mk 1 0))
  · rw [C71_mean_exact _ (by decide)]; norm_num

/-- **C70.** Why the clock must stand still within a call: if an interval begins between the two clock readings of one `Update(5)`, a snapshot may report
no event and mean 0 although a duration is in the window. -/
theorem C70_straddle_refuted (R : Rounding) (A : EDR.Arith) : ∃ env b,
    (run R (AnyReservoir.impl A) (newWithType A bucketReservoirType 10 5000000000 100 10 ⟨0, 0, 0⟩ ⟨0, 0, 0⟩)
      [({ stillEnv 4999 with x := { (stillEnv 4999).x with bucket := 5000 } }, .update 5)]).getSnapshot A env = some (.bucket b) ∧
    env.bucket.tAlign = 10000 ∧ env.bucket.tValue = 10000 ∧ env.bucket.tCount = 10000 ∧ b = ⟨0, 5⟩ ∧ b.size = .ok 0 ∧ b.getMean .exact = .ok (.fin 0) := by
  refine ⟨⟨0, 0, [], ⟨10000, 10000, 10000, 0, 0⟩⟩, ⟨0, 5⟩, ?_, rfl, rfl, rfl, rfl, rfl, rfl⟩
  rw [snapshot_eq _ _ _ _ _ _ _ _ (by decide)]
  exact congrArg (Option.map AnySnapshot.bucket) (by decide +kernel : _ = some (BucketSnapshot.mk 0 5))

end GoMetrics
