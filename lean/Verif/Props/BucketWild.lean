import Verif.Proofs.BucketWild
/-! # C107: a bucket counter whose unsynchronised loads return anything

C10 and C11 are about executions in which every load returns what was stored last, C101 lets it return something older. Here the loads without synchronisation in `UpdateN`
return anything at all that such a load could return (Model/BucketCounterWild.lean): whatever the processor and the compiler do with the order of loads and
stores, and even if a bucket is seen before its timestamp is. What is counted stays exact. What depends on reading the timestamp does not. -/
namespace GoMetrics
namespace BucketCounter

/-- Any number of concurrent `UpdateN` calls on a fresh counter, with such loads. -/
def wildAfter (interval : Int) (N : Nat) (t0 : Int) (u : Bool) (es : List (Ev Int Seen)) : Pool BucketCounter Call :=
  wild.run (Machine.start (new interval N t0 u)) es

/-- The arguments of the returned calls that added to bucket `q`. -/
def addedTo (q : Nat) (cs : List Call) : List Int :=
  (cs.filter fun c => match c.pc with
    | .done _ p => decide (p = q)
    | _ => false).map Call.n

theorem addedTo_sum (q : Nat) (cs : List Call) : (addedTo q cs).sum = (cs.map (Call.amt q)).sum := by
  unfold addedTo
  induction cs with
  | nil => rfl
  | cons c cs ih =>
    rw [List.filter_cons, List.map_cons, List.sum_cons, ← ih]
    obtain ⟨n, pc⟩ := c
    cases pc with
    | done ts p =>
      by_cases h : p = q
      · simp [Call.amt, h]
      · simp [Call.amt, h]
    | _ => simp [Call.amt]
end BucketCounter

open BucketCounter Spec

/-- **C107.** The executions of C10 are among these. -/
theorem C107_covers (interval : Int) (N : Nat) (t0 : Int) (u : Bool) (es : List (Ev Int Int)) :
    ∃ es', wildAfter interval N t0 u es' = after interval N t0 u es := by
  induction es using List.reverseRecOn with
  | nil => exact ⟨[], rfl⟩
  | append_singleton es e ih =>
    obtain ⟨es', h'⟩ := ih
    have hi := (cinv_run N _ (sharedOk_new interval N t0 u) es).shared
    unfold wildAfter after at *
    cases e with
    | spawn a =>
      refine ⟨es' ++ [.spawn a], ?_⟩
      rw [Machine.run_snoc, Machine.run_snoc, h']; rfl
    | step i x =>
      generalize hp : conc.run (Machine.start (new interval N t0 u)) es = p at *
      refine ⟨es' ++ [.step i ⟨x, p.shared.latestBucket, false, p.shared.buckets.current⟩], ?_⟩
      rw [Machine.run_snoc, Machine.run_snoc, h', hp]
      cases hc : p.calls[i]? with
      | none => simp only [Machine.apply, hc]
      | some c =>
        simp only [Machine.apply, hc]
        show Pool.mk (wildStep _ _ c).1 (p.calls.set i (wildStep _ _ c).2) = Pool.mk (callStep _ _ c).1 (p.calls.set i (callStep _ _ c).2)
        rw [wild_fresh hi]

/-- **C107.** Every bucket, whether its timestamp is visible or not, and every position is something a load may return. -/
theorem C107_any_value (b : BucketCounter) (p k : Nat) (hp : p < b.heap.length) (hk : k < b.buckets.queue.length) (t ts n : Int) :
    (∃ e : Seen, wildStep b e ⟨n, .load ts⟩ = (b, ⟨n, if ts > (b.heap.at p).timestamp then .cas ts p else .add ts p⟩)) ∧
    (∃ e : Seen, wildStep b e ⟨n, .load ts⟩ = (b, ⟨n, if ts > 0 then .cas ts p else .add ts p⟩)) ∧
    (∃ e : Seen, wildStep b e ⟨n, .reload ts⟩ = (b, ⟨n, .add ts p⟩)) ∧
    (∀ q, ∃ e : Seen, wildStep b e ⟨n, .q1 ts q⟩ = (b, ⟨n, .q2 ts q ((k + 1) % b.buckets.queue.length)⟩)) ∧
    (∀ q, ∃ e : Seen, wildStep b e ⟨n, .q3 ts q⟩ = (b, ⟨n, .q4 ts q k⟩)) := by
  have e1 := Nat.mod_eq_of_lt hp
  have e2 := Nat.mod_eq_of_lt hk
  refine ⟨⟨⟨t, p, false, k⟩, ?_⟩, ⟨⟨t, p, true, k⟩, ?_⟩, ⟨⟨t, p, false, k⟩, ?_⟩, fun q => ⟨⟨t, p, false, k⟩, ?_⟩, fun q => ⟨⟨t, p, false, k⟩, ?_⟩⟩
  · simp only [wildStep, PC.plainLoad, if_true, callStep, appears, e1, Bool.false_eq_true, if_false]
    split <;> rfl
  · have e3 : (BHeap.at (List.map (fun k => { k with timestamp := 0 }) b.heap) p).timestamp = 0 := by
      simp [BHeap.at, List.getElem?_eq_getElem hp]
    simp only [wildStep, PC.plainLoad, if_true, callStep, appears, e1, e3]
    split <;> rfl
  · simp only [wildStep, PC.plainLoad, if_true, callStep, appears, e1]
  · simp only [wildStep, PC.plainLoad, if_true, callStep, appears, e2]
  · simp only [wildStep, PC.plainLoad, if_true, callStep, appears, e2]

/-- **C107.** No index is ever out of range and no pointer invalid: positions about to be stored or used are positions of the queue, and whatever a call adds to is
a bucket. (The only panic is that of C09, the division by an interval of less than a second.) -/
theorem C107_in_range (interval : Int) (N : Nat) (t0 : Int) (u : Bool) (es : List (Ev Int Seen)) :
    let p := wildAfter interval N t0 u es
    p.shared.latestBucket < p.shared.heap.length ∧ p.shared.buckets.queue.length = N + 1 ∧ p.shared.buckets.current < N + 1 ∧
    (∀ q ∈ p.shared.buckets.queue, q < p.shared.heap.length) ∧
    ∀ c ∈ p.calls, (∀ ts q k, c.pc = .q2 ts q k ∨ c.pc = .q4 ts q k → q < p.shared.heap.length ∧ k < N + 1) ∧
      (∀ ts q, c.pc = .add ts q ∨ c.pc = .done ts q → q < p.shared.heap.length) := by
  intro p
  have h := winv_run interval N t0 u es
  refine ⟨h.valid.latest, h.valid.qlen, h.valid.cur, h.valid.slots, fun c hc => ?_⟩
  have hh := h.held c hc
  have hq := h.valid.qlen
  unfold Held at hh
  constructor
  · rintro ts q k (e | e) <;> simp only [e] at hh <;> exact ⟨hh.1, by rw [← hq]; exact hh.2⟩
  · rintro ts q (e | e) <;> simp only [e] at hh <;> exact hh

/-- **C107.** Once all calls returned, the total is the int64 sum of their arguments, and so is the sum of the contents of all buckets: every update went
into exactly one bucket. -/
theorem C107_sums (interval : Int) (N : Nat) (t0 : Int) (u : Bool) (es : List (Ev Int Seen)) (h : AllReturned (wildAfter interval N t0 u es)) :
    (u = true → (wildAfter interval N t0 u es).shared.getCount = i64 ((wildAfter interval N t0 u es).calls.map Call.n).sum) ∧
    i64 ((wildAfter interval N t0 u es).shared.heap.map Bucket.count).sum = i64 ((wildAfter interval N t0 u es).calls.map Call.n).sum := by
  have hi := winv_run interval N t0 u es
  exact ⟨fun hu => hi.sum.total_all (hi.u.trans hu) h, hi.heap.all h⟩

/-- **C107.** At every moment every bucket contains exactly the int64 sum of the arguments of the returned calls that added to it. -/
theorem C107_bucket_exact (interval : Int) (N : Nat) (t0 : Int) (u : Bool) (es : List (Ev Int Seen)) (q : Nat) :
    let p := wildAfter interval N t0 u es
    (p.shared.heap.at q).count = i64 (addedTo q p.calls).sum := by
  intro p
  rw [addedTo_sum]
  exact (winv_run interval N t0 u es).sum.bucket q

/-- **C107.** And whatever a query sees of the queue: what it reports for an interval is the content of one of the buckets of that interval. -/
theorem C107_reported (interval : Int) (N : Nat) (t0 : Int) (u : Bool) (es : List (Ev Int Seen)) (view : Deque) (t s : Int) (m : GoMap Int Int)
    (hm : ({ (wildAfter interval N t0 u es).shared with buckets := view }).getBucketCountsSince t s = some m) (k v : Int) (hk : m.get? k = some v) :
    ∃ q, let p := wildAfter interval N t0 u es
      k = 1000 * (p.shared.heap.at q).timestamp ∧ s ≤ k ∧ v = i64 (addedTo q p.calls).sum := by
  have hb := fun q => C107_bucket_exact interval N t0 u es q
  simp only at hb ⊢
  generalize wildAfter interval N t0 u es = p at *
  unfold getBucketCountsSince at hm
  simp only at hm
  cases ha : alignTimestamp p.shared.interval t with
  | none => rw [ha] at hm; simp at hm
  | some a =>
    rw [ha] at hm
    simp only [Option.some.injEq] at hm
    rw [← hm, foldl_collect, get?_foldl_collectB] at hk
    split at hk
    · rename_i x hx
      have hx := List.mem_of_getLast? hx
      obtain ⟨hx1, hx2⟩ := List.mem_filter.1 hx
      simp only [decide_eq_true_eq] at hx2
      obtain ⟨q, hq, rfl⟩ := List.mem_map.1 hx1
      refine ⟨q, ?_, ?_, ?_⟩
      · exact hx2.2.2.symm
      · have := hx2.1
        rw [hx2.2.2] at this; exact this
      · rw [← hb q]; simpa using hk.symm
    · simp at hk

/-- **C107.** As long as timestamps are visible with the buckets - pointers and positions may still be anything - buckets are created in the order of time, at most one per
interval (C11), and what a query reports for an interval is exactly what was credited to it (C10). -/
theorem C107_visible (interval : Int) (N : Nat) (t0 : Int) (u : Bool) (es : List (Ev Int Seen)) (hv : ∀ i x, Ev.step i x ∈ es → x.blank = false) :
    (((wildAfter interval N t0 u es).shared.heap.drop (N + 1)).map Bucket.timestamp).Pairwise (· < ·) ∧
    ∀ (t s : Int), -1000 < s → ∀ m, (wildAfter interval N t0 u es).shared.getBucketCountsSince t s = some m → ∀ k v, m.get? k = some v →
      ∃ ts, k = 1000 * ts ∧ v = i64 (amount (credits (wildAfter interval N t0 u es)) ts) := by
  have hc : CInv N (wildAfter interval N t0 u es) := by
    unfold wildAfter
    induction es using List.reverseRecOn with
    | nil => exact ⟨sharedOk_new interval N t0 u, by simp [Machine.run_nil, Machine.start]⟩
    | append_singleton es e ih =>
      have ih := ih fun i x hx => hv i x (by simp [hx])
      rw [Machine.run_snoc]
      generalize wild.run (Machine.start (new interval N t0 u)) es = p at *
      cases e with
      | spawn a => exact cinv_spawn a ih
      | step i x =>
        cases h : p.calls[i]? with
        | none => simpa only [Machine.apply, h] using ih
        | some c =>
          obtain ⟨pre, post, h1, -, h2⟩ := wild.apply_step_eq (x := x) h
          rw [h2]
          refine cinv_wild x (hv i x (by simp)) ?_
          rw [← h1]; exact ih
  exact ⟨hc.shared.pairwise, fun t s hs m hm k v hk => hc.reported_exact (winv_run interval N t0 u es).sum t s hs m hm k v hk⟩

/-- A schedule of `UpdateN(n)` alone at clock reading `t`, whose loads see `e`. -/
def BucketCounter.alone (i : Nat) (n : Int) (e : Seen) : List (Ev Int Seen) := .spawn n :: List.replicate 9 (.step i e)

/-- **C107, refuted: at most one bucket per interval whatever loads return.** If the second call sees the bucket of the first one but not yet its timestamp, it makes another
bucket for the same interval. -/
theorem C107_unpublished_refuted :
    ¬ ∀ (interval : Int) (N : Nat) (t0 : Int) (u : Bool) (es : List (Ev Int Seen)),
      (((wildAfter interval N t0 u es).shared.heap.drop (N + 1)).map Bucket.timestamp).Pairwise (· ≠ ·) := by
  intro h
  have h1 := h 60000000000 3 0 true (alone 0 5 ⟨60000, 0, false, 0⟩ ++ alone 1 7 ⟨60000, 4, true, 1⟩)
  revert h1
  decide +kernel

/-- **C107, refuted: reports are exact whatever loads return (C10).** Of the two buckets a query reports one: 5 and 7 are counted in one interval, the total
is 12, the report says 5. -/
theorem C107_reported_refuted :
    ¬ ∀ (interval : Int) (N : Nat) (t0 : Int) (u : Bool) (es : List (Ev Int Seen)), AllReturned (wildAfter interval N t0 u es) →
      ∀ t m, (wildAfter interval N t0 u es).shared.getBucketCounts t = some m → ∀ k v, m.get? k = some v →
        ∃ ts, k = 1000 * ts ∧ v = i64 (amount (credits (wildAfter interval N t0 u es)) ts) := by
  intro h
  obtain ⟨ts, h1, h2⟩ := h 60000000000 3 0 true (alone 0 5 ⟨60000, 0, false, 0⟩ ++ alone 1 7 ⟨60000, 4, true, 1⟩) (by
    intro c hc
    have e : (wildAfter 60000000000 3 0 true (alone 0 5 ⟨60000, 0, false, 0⟩ ++ alone 1 7 ⟨60000, 4, true, 1⟩)).calls =
        [⟨5, .done 60 4⟩, ⟨7, .done 60 5⟩] := by decide +kernel
    rw [e] at hc
    simp only [List.mem_cons, List.not_mem_nil, or_false] at hc
    rcases hc with rfl | rfl <;> exact ⟨_, _, rfl⟩) 60000 [(60000, 5)] (by decide +kernel) 60000 5 (by decide +kernel)
  obtain rfl : ts = 60 := by omega
  revert h2
  decide +kernel

/-- The same two calls if the timestamp is visible: one bucket, 12. And what the query says without it. -/
example :
    (wildAfter 60000000000 3 0 true (alone 0 5 ⟨60000, 0, false, 0⟩ ++ alone 1 7 ⟨60000, 4, false, 1⟩)).shared.getBucketCounts 60000 = some [(60000, 12)] ∧
    (wildAfter 60000000000 3 0 true (alone 0 5 ⟨60000, 0, false, 0⟩ ++ alone 1 7 ⟨60000, 4, true, 1⟩)).shared.getBucketCounts 60000 = some [(60000, 5)] ∧
    (wildAfter 60000000000 3 0 true (alone 0 5 ⟨60000, 0, false, 0⟩ ++ alone 1 7 ⟨60000, 4, true, 1⟩)).shared.getCount = 12 := by
  decide +kernel

/-- **C107, refuted: the latest bucket moves forward whatever loads return.** A call whose clock reading is old and which does not see the timestamp of the latest bucket replaces it by
an older one. -/
theorem C107_backwards_refuted :
    ¬ ∀ (interval : Int) (N : Nat) (t0 : Int) (u : Bool) (es es' : List (Ev Int Seen)),
      (let b := (wildAfter interval N t0 u es).shared
       let b' := (wildAfter interval N t0 u (es ++ es')).shared
       (b.heap.at b.latestBucket).timestamp ≤ (b'.heap.at b'.latestBucket).timestamp) := by
  intro h
  have := h 60000000000 3 0 true (alone 0 5 ⟨120000, 0, false, 0⟩) (alone 1 7 ⟨60000, 4, true, 1⟩)
  revert this
  decide +kernel

/-- Three calls whose loads see old pointers, wrong positions and no timestamps: still everything is counted, in some bucket. -/
example :
    let p := wildAfter 60000000000 2 0 true (alone 0 5 ⟨60000, 0, false, 0⟩ ++ alone 1 7 ⟨120000, 0, false, 2⟩ ++ alone 2 (-3) ⟨180000, 1, true, 9⟩)
    p.calls = [⟨5, .done 60 3⟩, ⟨7, .done 120 0⟩, ⟨-3, .done 180 1⟩] ∧ p.shared.getCount = 9 ∧
      p.shared.heap = [⟨-1, 7⟩, ⟨-1, -3⟩, ⟨-1, 0⟩, ⟨60, 5⟩] := by
  decide +kernel
end GoMetrics
