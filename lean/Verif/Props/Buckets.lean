import Verif.Proofs.BucketHistory
import Mathlib.Data.Finset.Card
import Mathlib.Data.Finset.Image
import Mathlib.Tactic.Ring
import Mathlib.Tactic.Positivity
/-! # C02–C09 — BucketCounter, sequential histories -/
namespace GoMetrics
open Spec

/-- Specification: the amount each BucketCounter call records (bucket_counter.go, counter.go). -/
def BucketCounter.Op.amount : BucketCounter.Op → Int
  | .update => 1
  | .updateN n => n
  | .inc => 1
  | .incN n => n
  | .dec => -1
  | .decN n => -n

namespace BucketCounter

/-- What was recorded when, according to a history of calls. -/
def recorded (h : List (Int × Op)) : List (Int × Int) := h.map (fun c => (c.1, c.2.amount))

private theorem i64_raw (op : Op) : i64 (rawAmount op) = i64 op.amount := by
  cases op <;> simp [rawAmount, Op.amount]

private theorem raw_eq (h : List (Int × Op)) :
    (h.map (fun c => (c.1, rawAmount c.2))).map (fun e => (e.1, i64 e.2)) =
      (recorded h).map (fun e => (e.1, i64 e.2)) := by
  simp [recorded, Function.comp_def, i64_raw]

private theorem amount_i64 (l : List (Int × Int)) (ts : Int) :
    i64 (amount (l.map (fun e => (e.1, i64 e.2))) ts) = i64 (amount l ts) := by
  unfold amount
  rw [← i64_sum_map_i64 ((l.filter _).map Prod.snd)]
  congr 2
  rw [List.filter_map, List.map_map, List.map_map]
  rfl

private theorem amount_raw (I : Int) (h : List (Int × Op)) (ts : Int) :
    i64 (amount (credited I (-1) (h.map (fun c => (c.1, rawAmount c.2)))) ts) =
      i64 (amount (credited I (-1) (recorded h)) ts) := by
  rw [← amount_i64, ← Spec.credited_map_fst, raw_eq, Spec.credited_map_fst, amount_i64]

private theorem fst_raw (I : Int) (h : List (Int × Op)) :
    (credited I (-1) (h.map (fun c => (c.1, rawAmount c.2)))).map Prod.fst =
      (credited I (-1) (recorded h)).map Prod.fst := by
  have e : ∀ l : List (Int × Int), (credited I (-1) l).map Prod.fst =
      (credited I (-1) (l.map (fun e => (e.1, i64 e.2)))).map Prod.fst := by
    intro l; rw [Spec.credited_map_fst, List.map_map]; rfl
  rw [e, raw_eq, ← e]

end BucketCounter

open BucketCounter

/-- **C02.** The total of a counter that keeps totals is the `int64` sum of everything recorded, whatever the
clock readings (and whatever interval, even one for which the bucket part panics). -/
theorem C02_total (interval : Int) (N : Nat) (t0 : Int) (h : List (Int × Op)) :
    (run (new interval N t0 true) h).getCount = i64 ((recorded h).map Prod.snd).sum := by
  rw [run_count _ _ (by simp [new, getCount, Counter.new, Counter.getCount, InI64])]
  have e1 : (new interval N t0 true).updateTotalCount = true := rfl
  have e2 : (new interval N t0 true).getCount = 0 := rfl
  rw [e1, e2, if_pos rfl, zero_add, ← i64_sum_map_i64, ← i64_sum_map_i64 ((recorded h).map _)]
  simp [recorded, Function.comp_def, i64_raw]

/-- **C02.** Without totals `GetCount` is always 0. -/
theorem C02_no_total (interval : Int) (N : Nat) (t0 : Int) (h : List (Int × Op)) :
    (run (new interval N t0 false) h).getCount = 0 := by
  rw [run_count _ _ (by simp [new, getCount, Counter.new, Counter.getCount, InI64])]
  rfl

/-- **C04.** For arbitrary clock readings: the query at clock reading `t` since `s > -1000` reports exactly the
intervals `Spec.Reported` demands, each with the `int64` sum of what was credited to it, each update being
credited to the latest interval seen so far. -/
theorem C04_query_arbitrary_clock (interval : Int) (N : Nat) (t0 : Int) (u : Bool)
    (hI : 1000000000 ≤ interval) (h : List (Int × Op)) (t s : Int) (hs : -1000 < s) :
    ∃ m, (run (new interval N t0 u) h).getBucketCountsSince t s = some m ∧ m.WF ∧
      ∀ k v, m.get? k = some v ↔ ∃ ts, k = 1000 * ts ∧
        Reported (credited (interval / 1000000000) (-1) (recorded h)) N s
          (intervalStart (interval / 1000000000) t) ts ∧
        v = i64 (amount (credited (interval / 1000000000) (-1) (recorded h)) ts) := by
  have hw : wholeSeconds interval = interval / 1000000000 := by
    unfold wholeSeconds; rw [Int.tdiv_eq_ediv_of_nonneg (by omega)]
  have hne : wholeSeconds interval ≠ 0 := by omega
  have hrep := rep_run interval N t0 u hne h
  have hint : (run (new interval N t0 u) h).interval = interval := run_interval _ _
  obtain ⟨m, hm, hwf, hq⟩ := hrep.query (by rw [hint]; exact hne) t s hs
  refine ⟨m, hm, hwf, ?_⟩
  intro k v
  obtain ⟨hmem, hpos, hsort, hcnt⟩ :=
    absRun_spec (wholeSeconds interval) (h.map (fun c => (c.1, rawAmount c.2)))
  rw [hq, hint, ← hw]
  generalize (absRun (wholeSeconds interval) (h.map (fun c => (c.1, rawAmount c.2)))).1 = R at *
  have hfst := fst_raw (wholeSeconds interval) h
  have hcard : ∀ ts, 0 ≤ ts → (R.map Bucket.timestamp).toFinset.filter (fun y => ts < y) =
      laterIntervals (credited (wholeSeconds interval) (-1) (recorded h)) ts := by
    intro ts hts
    unfold laterIntervals
    rw [← hfst]
    ext y
    simp only [Finset.mem_filter, List.mem_toFinset]
    constructor
    · rintro ⟨hy, hlt⟩
      obtain ⟨x, hx, rfl⟩ := List.mem_map.1 hy
      exact ⟨(hmem _ (hpos x hx)).1 ⟨x, hx, rfl⟩, hlt⟩
    · rintro ⟨hy, hlt⟩
      obtain ⟨x, hx, rfl⟩ := (hmem y (by omega)).2 hy
      exact ⟨List.mem_map.2 ⟨x, hx, rfl⟩, hlt⟩
  constructor
  · rintro ⟨x, hx, hk, hsk, hnow, hv⟩
    rw [mem_take_iff hsort] at hx
    refine ⟨x.timestamp, hk, ⟨?_, hpos x hx.1, ?_, by omega, hnow⟩, ?_⟩
    · rw [← hfst]; exact (hmem _ (hpos x hx.1)).1 ⟨x, hx.1, rfl⟩
    · rw [← hcard _ (hpos x hx.1)]; exact hx.2
    · rw [hv, hcnt x hx.1, amount_raw]
  · rintro ⟨ts, hk, ⟨hin, hts, hc, hsk, hnow⟩, hv⟩
    rw [← hfst] at hin
    obtain ⟨x, hx, rfl⟩ := (hmem ts hts).2 hin
    refine ⟨x, (mem_take_iff hsort N x).2 ⟨hx, ?_⟩, hk, by omega, hnow, ?_⟩
    · rw [hcard _ hts]; exact hc
    · rw [hv, hcnt x hx, amount_raw]

/-- Specification: number of the interval of `I` seconds that contains time `t` (ms), counting from time 0. -/
def intervalIndex (I t : Int) : Int := t / (1000 * I)

private theorem intervalStart_of_nonneg {I t : Int} (hI : 0 < I) (ht : 0 ≤ t) :
    intervalStart I t = I * intervalIndex I t := by
  unfold intervalStart intervalIndex
  rw [Int.tdiv_eq_ediv_of_nonneg ht, Int.tdiv_eq_ediv_of_nonneg (by positivity),
    Int.ediv_ediv_of_nonneg (by norm_num), mul_comm]

private theorem credited_mono {I : Int} (hI : 0 < I) (h : List (Int × Int)) (m : Int)
    (hm : ∀ e ∈ h, 0 ≤ e.1 ∧ m ≤ intervalStart I e.1)
    (hs : h.Pairwise (fun a b => a.1 ≤ b.1)) :
    credited I m h = h.map (fun e => (I * intervalIndex I e.1, e.2)) := by
  induction h generalizing m with
  | nil => rfl
  | cons e h ih =>
    obtain ⟨t, n⟩ := e
    have h0 := hm _ (List.mem_cons_self ..)
    have hs' := List.pairwise_cons.1 hs
    simp only at h0
    have hmax : max m (intervalStart I t) = I * intervalIndex I t := by
      rw [max_eq_right h0.2, intervalStart_of_nonneg hI h0.1]
    simp only [credited, List.map_cons, hmax]
    congr 1
    apply ih
    · intro e he
      have h1 := hm e (List.mem_cons_of_mem _ he)
      refine ⟨h1.1, ?_⟩
      rw [intervalStart_of_nonneg hI h1.1]
      apply Int.mul_le_mul_of_nonneg_left _ (le_of_lt hI)
      exact Int.ediv_le_ediv (by positivity) (hs'.1 e he)
    · exact hs'.2

/-- **C03.** With a clock that never goes backwards and starts at a non-negative time, a query at time `t ≥ 0`
since `s ≥ 0` reports exactly: for every interval number `j` in which an update happened, which is among the `N`
latest such intervals, and whose start `1000*I*j` (ms) lies in `[s, t]`, the `int64` sum of the amounts recorded
in that interval. -/
theorem C03_query_monotone_clock (interval : Int) (N : Nat) (t0 : Int) (u : Bool)
    (hI : 1000000000 ≤ interval) (h : List (Int × Op)) (t s : Int) (hs : 0 ≤ s) (ht : 0 ≤ t)
    (hpos : ∀ c ∈ h, 0 ≤ c.1) (hmono : h.Pairwise (fun a b => a.1 ≤ b.1)) :
    ∃ m, (run (new interval N t0 u) h).getBucketCountsSince t s = some m ∧ m.WF ∧
      ∀ k v, m.get? k = some v ↔ ∃ j, k = 1000 * (interval / 1000000000) * j ∧
        (∃ c ∈ h, intervalIndex (interval / 1000000000) c.1 = j) ∧
        ((h.map (fun c => intervalIndex (interval / 1000000000) c.1)).toFinset.filter
          (fun j' => j < j')).card < N ∧
        s ≤ k ∧ k ≤ t ∧
        v = i64 (((h.filter (fun c => intervalIndex (interval / 1000000000) c.1 = j)).map
          (fun c => c.2.amount)).sum) := by
  obtain ⟨m, hm, hwf, hq⟩ := C04_query_arbitrary_clock interval N t0 u hI h t s (by omega)
  refine ⟨m, hm, hwf, ?_⟩
  intro k v
  rw [hq]
  have hIpos : 0 < interval / 1000000000 := by omega
  generalize interval / 1000000000 = I at *
  have hcred : credited I (-1) (recorded h) =
      (recorded h).map (fun e => (I * intervalIndex I e.1, e.2)) := by
    apply credited_mono hIpos
    · intro e he
      obtain ⟨c, hc, rfl⟩ := List.mem_map.1 he
      have := hpos c hc
      refine ⟨this, ?_⟩
      rw [intervalStart_of_nonneg hIpos this]
      have : 0 ≤ I * intervalIndex I c.1 :=
        Int.mul_nonneg hIpos.le (Int.ediv_nonneg this (by positivity))
      omega
    · exact List.Pairwise.map _ (fun _ _ h => h) hmono
  have hinj : Function.Injective (fun j : Int => I * j) := by
    intro a b hab
    exact Int.eq_of_mul_eq_mul_left (by omega) hab
  have hfst : (credited I (-1) (recorded h)).map Prod.fst =
      (h.map (fun c => intervalIndex I c.1)).map (fun j => I * j) := by
    rw [hcred]; simp [recorded, Function.comp_def]
  have hidx : ∀ c ∈ h, 0 ≤ intervalIndex I c.1 := fun c hc =>
    Int.ediv_nonneg (hpos c hc) (by positivity)
  have hlater : ∀ j, (laterIntervals (credited I (-1) (recorded h)) (I * j)).card =
      ((h.map (fun c => intervalIndex I c.1)).toFinset.filter (fun j' => j < j')).card := by
    intro j
    unfold laterIntervals
    rw [hfst]
    refine Eq.trans (congrArg Finset.card ?_) (Finset.card_image_of_injective _ hinj)
    ext y
    simp only [Finset.mem_filter, List.mem_toFinset, List.mem_map, Finset.mem_image]
    constructor
    · rintro ⟨⟨j', hj', rfl⟩, hlt⟩
      exact ⟨j', ⟨hj', lt_of_mul_lt_mul_left hlt hIpos.le⟩, rfl⟩
    · rintro ⟨j', ⟨hj', hlt⟩, rfl⟩
      exact ⟨⟨j', hj', rfl⟩, Int.mul_lt_mul_of_pos_left hlt hIpos⟩
  have hamount : ∀ j, amount (credited I (-1) (recorded h)) (I * j) =
      ((h.filter (fun c => intervalIndex I c.1 = j)).map (fun c => c.2.amount)).sum := by
    intro j
    unfold amount
    rw [hcred]
    simp only [recorded, List.filter_map, List.map_map, Function.comp_def]
    congr 2
    apply List.filter_congr
    intro c _
    simp only [decide_eq_decide]
    exact ⟨fun e => hinj e, fun e => by rw [e]⟩
  have hnow : ∀ j, I * j ≤ intervalStart I t ↔ 1000 * I * j ≤ t := by
    intro j
    rw [intervalStart_of_nonneg hIpos ht]
    constructor
    · intro hle
      have h1 : j ≤ t / (1000 * I) := le_of_mul_le_mul_left hle hIpos
      calc 1000 * I * j ≤ 1000 * I * (t / (1000 * I)) :=
            Int.mul_le_mul_of_nonneg_left h1 (by positivity)
        _ ≤ t := Int.mul_ediv_self_le (by positivity)
    · intro hle
      apply Int.mul_le_mul_of_nonneg_left _ hIpos.le
      exact (Int.le_ediv_iff_mul_le (by positivity)).2 (by linarith)
  constructor
  · rintro ⟨ts, hk, ⟨hin, hts, hc, hsk, hn⟩, hv⟩
    rw [hfst, List.mem_map] at hin
    obtain ⟨j, hj, rfl⟩ := hin
    obtain ⟨c, hc', hcj⟩ := List.mem_map.1 hj
    refine ⟨j, by rw [hk]; ring, ⟨c, hc', hcj⟩, by rw [← hlater]; exact hc, by omega, ?_,
      by rw [hv, hamount]⟩
    rw [hk, ← mul_assoc]; exact (hnow j).1 hn
  · rintro ⟨j, hk, ⟨c, hc', hcj⟩, hc, hsk, hn, hv⟩
    have h0 := hidx c hc'
    refine ⟨I * j, by rw [hk]; ring, ⟨?_, ?_, by rw [hlater]; exact hc, ?_, ?_⟩, by rw [hv, hamount]⟩
    · rw [hfst]; exact List.mem_map.2 ⟨j, List.mem_map.2 ⟨c, hc', hcj⟩, rfl⟩
    · exact Int.mul_nonneg hIpos.le (by omega)
    · rw [← mul_assoc, ← hk]; exact hsk
    · rw [hnow, ← hk]; exact hn

/-- Non-vacuity of C03/C04: five updates over four intervals of 10 s in a counter of 2 buckets; only the two newest
intervals are reported, the earlier one with the sum of two updates. -/
example :
    (run (new 10000000000 2 0 true)
      [(1000, .update), (12000, .updateN 5), (21000, .incN 7), (29999, .dec), (40000, .update)]).getBucketCountsSince
        47000 0 = some [(40000, 1), (20000, 6)] := by decide

/-- **C05.** Ring level: after inserting the pointers `ps` in order into a ring for `N` buckets, the list is the `N`
most recently inserted ones, newest first, padded by the placeholders — provided no listed bucket is newer than the
last inserted one (the condition under which `getBucketList` filters nothing). -/
theorem C05_ring (N : Nat) (ps : List Nat) (heap : BHeap)
    (hts : ∀ p ∈ ps ++ List.range (N + 1),
      (heap.at p).timestamp ≤ (heap.at ((ps.reverse ++ [0]).headD 0)).timestamp) :
    (ps.foldl Deque.addLast (Deque.new N)).getBucketList heap =
      (ps.reverse ++ 0 :: (List.range' 1 N).reverse).take N := by
  have key : ∀ ps : List Nat, (ps.foldl Deque.addLast (Deque.new N)).WF ∧
      (ps.foldl Deque.addLast (Deque.new N)).queue.length = N + 1 ∧
      (ps.foldl Deque.addLast (Deque.new N)).ringList =
        (ps.reverse ++ 0 :: (List.range' 1 N).reverse).take (N + 1) := by
    intro ps
    induction ps using List.reverseRecOn with
    | nil =>
      have := (rep_new 0 N 0 true).ring
      refine ⟨Deque.wf_new N, by simp [Deque.new], ?_⟩
      simpa [new, ptrs] using this
    | append_singleton ps p ih =>
      obtain ⟨h1, h2, h3⟩ := ih
      rw [List.foldl_append]
      refine ⟨Deque.wf_addLast _ _ h1, by simpa using h2, ?_⟩
      rw [List.foldl_cons, List.foldl_nil, Deque.ringList_addLast _ _ h1, h3, List.reverse_append]
      simp only [List.reverse_cons, List.reverse_nil, List.nil_append, List.cons_append,
        List.take_succ_cons]
      congr 1
      rw [List.dropLast_eq_take, List.take_take]
      congr 1
      simp
  obtain ⟨h1, h2, h3⟩ := key ps
  rw [Deque.getBucketList_eq _ _ h1, h3, h2, List.take_take]
  · congr 1; omega
  · intro p hp
    have hpeek := peek_eq_head _ h1
    rw [h3, List.head?_take] at hpeek
    simp only [Nat.add_eq_zero_iff, one_ne_zero, and_false, if_false] at hpeek
    have e : (ps.foldl Deque.addLast (Deque.new N)).peek = (ps.reverse ++ [0]).headD 0 := by
      cases hr : ps.reverse with
      | nil => rw [hr] at hpeek; simpa using hpeek.symm
      | cons a l => rw [hr] at hpeek; simpa using hpeek.symm
    rw [e]
    apply hts
    rw [h3] at hp
    have hp := List.mem_of_mem_take hp
    simp only [List.mem_append, List.mem_reverse, List.mem_cons, List.mem_range'_1] at hp
    simp only [List.mem_append, List.mem_range]
    rcases hp with hp | hp | hp
    · exact Or.inl hp
    · right; omega
    · right; omega

/-- Non-vacuity: a ring for 2 buckets after 4 insertions. -/
example : ([3, 4, 5, 6].foldl Deque.addLast (Deque.new 2)).getBucketList
    [⟨-1,0⟩, ⟨-1,0⟩, ⟨-1,0⟩, ⟨10,1⟩, ⟨20,1⟩, ⟨30,1⟩, ⟨40,1⟩] = [6, 5] := by decide

/-- **C05.** No query ever returns more than `N` entries, for any start time and any clock behaviour. -/
theorem C05_at_most_N (interval : Int) (N : Nat) (t0 : Int) (u : Bool)
    (hI : 1000000000 ≤ interval) (h : List (Int × Op)) (t s : Int) :
    ∃ m, (run (new interval N t0 u) h).getBucketCountsSince t s = some m ∧ m.WF ∧ m.length ≤ N := by
  have hne : wholeSeconds interval ≠ 0 := by
    unfold wholeSeconds; rw [Int.tdiv_eq_ediv_of_nonneg (by omega)]; omega
  have hrep := rep_run interval N t0 u hne h
  have hint : (run (new interval N t0 u) h).interval = interval := run_interval _ _
  refine ⟨_, by rw [getBucketCountsSince, hint, alignTimestamp_eq hne], ?_, ?_⟩
  · rw [foldl_collect]; exact wf_foldl_collectB _ _ _ _ GoMap.wf_nil
  · rw [foldl_collect, hrep.bucketList]
    have : ∀ (l : List Bucket) (a b : Int) (m : GoMap Int Int),
        (l.foldl (collectB a b) m).length ≤ m.length + l.length := by
      intro l a b
      induction l with
      | nil => simp
      | cons x l ih =>
        intro m
        refine le_trans (ih _) ?_
        have : (collectB a b m x).length ≤ m.length + 1 := by
          unfold collectB
          split
          · rw [GoMap.length_set]; split <;> omega
          · omega
        simp only [List.length_cons]; omega
    refine le_trans (this _ _ _ _) ?_
    simp

/-- **C06.** The start time only filters: for every state whatsoever, a query since `s` is the query since an earlier
`s'` restricted to keys `≥ s`. -/
theorem C06_start_time_filters (b : BucketCounter) (t s s' : Int) (hss : s' ≤ s) (m m' : GoMap Int Int)
    (hm : b.getBucketCountsSince t s = some m) (hm' : b.getBucketCountsSince t s' = some m') (k : Int) :
    m.get? k = if s ≤ k then m'.get? k else none := by
  unfold getBucketCountsSince at hm hm'
  cases ha : alignTimestamp b.interval t with
  | none => rw [ha] at hm; simp at hm
  | some a =>
    rw [ha] at hm hm'
    simp only [Option.some.injEq] at hm hm'
    rw [← hm, ← hm', foldl_collect, foldl_collect, get?_foldl_collectB, get?_foldl_collectB]
    by_cases hk : s ≤ k
    · rw [if_pos hk]
      have : ∀ x : Bucket, decide (secondToMsRate * x.timestamp ≥ s ∧ x.timestamp ≤ a ∧
          secondToMsRate * x.timestamp = k) = decide (secondToMsRate * x.timestamp ≥ s' ∧
          x.timestamp ≤ a ∧ secondToMsRate * x.timestamp = k) := by
        intro x
        apply decide_eq_decide.2
        constructor
        · rintro ⟨h1, h2, h3⟩; exact ⟨by omega, h2, h3⟩
        · rintro ⟨h1, h2, h3⟩; exact ⟨by omega, h2, h3⟩
      simp only [this]
    · rw [if_neg hk]
      have : ∀ x : Bucket, decide (secondToMsRate * x.timestamp ≥ s ∧ x.timestamp ≤ a ∧
          secondToMsRate * x.timestamp = k) = false := by
        intro x
        apply decide_eq_false
        rintro ⟨h1, h2, h3⟩; omega
      simp [this]

/-- **C06.** `GetBucketCounts()` is the query since 0. -/
theorem C06_getBucketCounts (b : BucketCounter) (t : Int) :
    b.getBucketCounts t = b.getBucketCountsSince t 0 := rfl

/-- **C06.** Since `s > -1000`, every reported key belongs to an interval somebody updated in. -/
theorem C06_no_placeholders (interval : Int) (N : Nat) (t0 : Int) (u : Bool)
    (hI : 1000000000 ≤ interval) (h : List (Int × Op)) (t s : Int) (hs : -1000 < s) (m : GoMap Int Int)
    (hm : (run (new interval N t0 u) h).getBucketCountsSince t s = some m) (k : Int) (hk : k ∈ m.keys) :
    ∃ c ∈ h, k = 1000 * intervalStart (interval / 1000000000) c.1 := by
  obtain ⟨m', hm', _, hq⟩ := C04_query_arbitrary_clock interval N t0 u hI h t s hs
  rw [hm] at hm'
  obtain rfl := Option.some.inj hm'
  obtain ⟨v, hv⟩ := (GoMap.mem_keys_iff m k).1 hk
  obtain ⟨ts, rfl, ⟨hin, hpos, -⟩, -⟩ := (hq _ _).1 hv
  have : ∀ (l : List (Int × Int)) (mx : Int) (ts : Int),
      ts ∈ (credited (interval / 1000000000) mx l).map Prod.fst → ts = mx ∨
        ∃ c ∈ l, ts = intervalStart (interval / 1000000000) c.1 := by
    intro l
    induction l with
    | nil => simp [credited]
    | cons e l ih =>
      obtain ⟨t', n'⟩ := e
      intro mx ts hts
      simp only [credited, List.map_cons, List.mem_cons] at hts
      rcases hts with rfl | hts
      · rcases max_choice mx (intervalStart (interval / 1000000000) t') with h | h
        · exact Or.inl h
        · exact Or.inr ⟨(t', n'), List.mem_cons_self .., h⟩
      · rcases ih _ _ hts with rfl | ⟨c, hc, rfl⟩
        · rcases max_choice mx (intervalStart (interval / 1000000000) t') with h | h
          · exact Or.inl h
          · exact Or.inr ⟨(t', n'), List.mem_cons_self .., h⟩
        · exact Or.inr ⟨c, List.mem_cons_of_mem _ hc, rfl⟩
  rcases this _ _ _ hin with rfl | ⟨e, he, rfl⟩
  · omega
  · obtain ⟨c, hc, rfl⟩ := List.mem_map.1 he
    exact ⟨c, hc, rfl⟩

/-- **C06.** The bound `s > -1000` is needed: since `-1000` a fresh counter reports a key nobody updated. -/
theorem C06_placeholder_visible_refuted :
    (run (new 1000000000 2 0 true) []).getBucketCountsSince 0 (-1000) = some [(-1000, 0)] := by decide

/-- **C07.** Reported keys are multiples of the interval in ms, at or after `s`, and not in an interval later than the
query time's. -/
theorem C07_keys_aligned (interval : Int) (N : Nat) (t0 : Int) (u : Bool)
    (hI : 1000000000 ≤ interval) (h : List (Int × Op)) (t s : Int) (hs : -1000 < s) (m : GoMap Int Int)
    (hm : (run (new interval N t0 u) h).getBucketCountsSince t s = some m) (k : Int) (hk : k ∈ m.keys) :
    1000 * (interval / 1000000000) ∣ k ∧ s ≤ k ∧ 0 ≤ k ∧ (0 ≤ t → k ≤ t) := by
  obtain ⟨c, hc, hck⟩ := C06_no_placeholders interval N t0 u hI h t s hs m hm k hk
  obtain ⟨m', hm', _, hq⟩ := C04_query_arbitrary_clock interval N t0 u hI h t s hs
  rw [hm] at hm'
  obtain rfl := Option.some.inj hm'
  obtain ⟨v, hv⟩ := (GoMap.mem_keys_iff m k).1 hk
  obtain ⟨ts, rfl, ⟨hin, hpos, hcard, hsk, hnow⟩, -⟩ := (hq _ _).1 hv
  refine ⟨?_, hsk, by omega, ?_⟩
  · rw [hck]
    unfold intervalStart
    exact ⟨(c.1.tdiv 1000).tdiv (interval / 1000000000), by ring⟩
  · intro ht
    have hIpos : 0 < interval / 1000000000 := by omega
    rw [intervalStart_of_nonneg hIpos ht] at hnow
    have : 1000 * (interval / 1000000000) * (t / (1000 * (interval / 1000000000))) ≤ t :=
      Int.mul_ediv_self_le (by positivity)
    unfold intervalIndex at hnow
    calc 1000 * ts ≤ 1000 * ((interval / 1000000000) * (t / (1000 * (interval / 1000000000)))) := by omega
      _ ≤ t := by rw [← mul_assoc]; exact this

/-- **C07.** A time `t ≥ 0` is aligned to the interval that contains it. -/
theorem C07_interval_contains (interval t : Int) (hI : 1000000000 ≤ interval) (ht : 0 ≤ t) :
    ∃ a, alignTimestamp interval t = some a ∧ interval / 1000000000 ∣ a ∧
      1000 * a ≤ t ∧ t < 1000 * (a + interval / 1000000000) := by
  have hw : wholeSeconds interval = interval / 1000000000 := by
    unfold wholeSeconds; rw [Int.tdiv_eq_ediv_of_nonneg (by omega)]
  have hne : wholeSeconds interval ≠ 0 := by omega
  have hIpos : 0 < interval / 1000000000 := by omega
  refine ⟨_, alignTimestamp_eq hne, ?_, ?_, ?_⟩
  · rw [hw]; exact ⟨(t.tdiv 1000).tdiv (interval / 1000000000), by unfold intervalStart; ring⟩
  · rw [hw, intervalStart_of_nonneg hIpos ht, ← mul_assoc]
    exact Int.mul_ediv_self_le (by positivity)
  · rw [hw, intervalStart_of_nonneg hIpos ht]
    have := Int.lt_mul_ediv_self_add (x := t) (k := 1000 * (interval / 1000000000)) (by positivity)
    unfold intervalIndex
    linarith

/-- **C08.** A bucket interval strictly between -1s and 1s makes every update and every query panic; the update has
then already changed the total. -/
theorem C08_subsecond_panics (b : BucketCounter) (hI : -1000000000 < b.interval ∧ b.interval < 1000000000)
    (t n s : Int) :
    (b.updateN t n).panicked = true ∧ b.getBucketCountsSince t s = none ∧
      (b.updateTotalCount = true → (b.updateN t n).state.getCount = i64 (b.getCount + n)) := by
  have hw : wholeSeconds b.interval = 0 := by
    unfold wholeSeconds
    rcases le_or_gt 0 b.interval with h | h
    · rw [Int.tdiv_eq_ediv_of_nonneg h]; omega
    · have : b.interval = -(-b.interval) := by omega
      rw [this, Int.neg_tdiv, Int.tdiv_eq_ediv_of_nonneg (by omega)]; omega
  have ha : alignTimestamp b.interval t = none := by simp [alignTimestamp, hw]
  refine ⟨?_, ?_, ?_⟩
  · rw [updateN_of_none ha]; rfl
  · simp [getBucketCountsSince, ha]
  · intro hf; rw [updateN_count, if_pos hf]

/-- **C08.** With an interval of at least one second (or at most minus one) nothing panics, in any state. -/
theorem C08_no_panic (b : BucketCounter) (hI : 1000000000 ≤ b.interval ∨ b.interval ≤ -1000000000)
    (t n s : Int) (op : Op) :
    (b.updateN t n).panicked = false ∧ (b.step t op).panicked = false ∧
      (b.getBucketCountsSince t s).isSome = true := by
  have hw : wholeSeconds b.interval ≠ 0 := by
    unfold wholeSeconds
    rcases hI with h | h
    · rw [Int.tdiv_eq_ediv_of_nonneg (by omega)]; omega
    · have : b.interval = -(-b.interval) := by omega
      rw [this, Int.neg_tdiv, Int.tdiv_eq_ediv_of_nonneg (by omega)]; omega
  have ha := fun t => alignTimestamp_eq (interval := b.interval) (t := t) hw
  refine ⟨?_, ?_, ?_⟩
  · rw [updateN_of_align (ha t)]; rfl
  · rw [step_eq, updateN_of_align (ha t)]; rfl
  · simp [getBucketCountsSince, ha]

/-- Non-vacuity of C08: a 500 ms interval; the panicking update has been counted. -/
example : ((new 500000000 3 0 true).updateN 1234 5).panicked = true ∧
    ((new 500000000 3 0 true).updateN 1234 5).state.getCount = 5 := by decide
example : ((new 1500000000 3 0 true).updateN 1234 5).panicked = false := by decide

/-- **C09.** The unit is seconds, not milliseconds. For every history, `LastUpdateTime` is the latest interval
start seen, in *seconds*, or the creation time (in ms) as long as that is not positive. -/
theorem C09_last_update (interval : Int) (N : Nat) (t0 : Int) (u : Bool)
    (hI : 1000000000 ≤ interval) (h : List (Int × Op)) :
    (run (new interval N t0 u) h).lastUpdateTime =
      let latest := h.foldl (fun m c => max m (intervalStart (interval / 1000000000) c.1)) (-1)
      if latest ≤ 0 then t0 else latest := by
  have hw : wholeSeconds interval = interval / 1000000000 := by
    unfold wholeSeconds; rw [Int.tdiv_eq_ediv_of_nonneg (by omega)]
  have hne : wholeSeconds interval ≠ 0 := by omega
  have hrep := rep_run interval N t0 u hne h
  unfold lastUpdateTime
  rw [hrep.latest_ts, headTs_absRun, run_init, hw, List.foldl_map]
  rfl

/-- **C09 refuted.** After an update at 70 s the reported "milliseconds" are 60 (the interval start in seconds); and the
value can go down by updating: creation at 500000 ms is reported as 500000, after an update at 500000 ms it is 500. -/
theorem C09_milliseconds_refuted :
    (run (new 60000000000 10 0 true) [(70000, .update)]).lastUpdateTime = 60 ∧
    (new 1000000000 10 500000 true).lastUpdateTime = 500000 ∧
    (run (new 1000000000 10 500000 true) [(500000, .update)]).lastUpdateTime = 500 := by decide

end GoMetrics
