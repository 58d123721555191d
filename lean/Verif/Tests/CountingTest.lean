import Verif.Model.FastCompass
import Verif.Model.Clock
/-! # The tests of the counting metrics, replayed on the model

impl/counter_impl_test.go, impl/manual_clock_test.go, impl/bucket_queue_test.go, impl/default_bucket_counter_test.go,
impl/default_fast_compass_test.go. These are tests, not proofs of properties: they compare the hand-written model with values the authors of the code
checked it against. Where a test sleeps for a second, the clock reading moves by 1000 ms. -/
namespace GoMetrics.GoTests

/-- impl/counter_impl_test.go `Test_counterImpl` -/
example : let c0 := Counter.new; let c1 := c0.inc; let c2 := c1.incN 3; let c3 := c2.dec; let c4 := c3.decN 2
    [c0, c1, c2, c3, c4].map Counter.getCount = [0, 1, 4, 3, 1] := by decide +kernel

/-- impl/manual_clock_test.go `TestManualClock_Add` -/
example : ((⟨0⟩ : ManualClock).add 12000000000).getTime = 12000 := by decide +kernel

/-- impl/bucket_queue_test.go `Test_bucketDequeue_addLast`: buckets 10 to 14 are added -/
example : let q0 := Deque.new 3; let q1 := q0.addLast 10; let q2 := q1.addLast 11; let q3 := q2.addLast 12; let q4 := q3.addLast 13; let q5 := q4.addLast 14
    [q1, q2, q3, q4, q5].map (fun q => (q.queue.length, q.peek)) = [(4, 10), (4, 11), (4, 12), (4, 13), (4, 14)] := by decide +kernel

/-- impl/bucket_queue_test.go `Test_bucketDequeue_getBucketList`, example 1 -/
example : let h : BHeap := [⟨1000, 70⟩, ⟨1001, 80⟩, ⟨1002, 90⟩, ⟨957, 40⟩, ⟨958, 50⟩, ⟨959, 60⟩]
    (({ Deque.new 5 with current := 1 }).getBucketList h).map (fun p => (h.at p).timestamp) = [1001, 1000, 959, 958, 957] := by decide +kernel

/-- impl/bucket_queue_test.go `Test_bucketDequeue_getBucketList`, example 2 -/
example : let h : BHeap := [⟨1000, 70⟩, ⟨955, 20⟩, ⟨956, 30⟩, ⟨957, 40⟩, ⟨958, 50⟩, ⟨959, 60⟩]
    (({ Deque.new 5 with current := 5 }).getBucketList h).map (fun p => (h.at p).timestamp) = [959, 958, 957, 956, 955] := by decide +kernel

/-- For each `k` of the list `10 * k` (or `mul * k`) updates, then the clock moves on by `gap` ms; the clock starts at `t0`. -/
def rounds (t0 gap : Int) (mul : Nat) : List Nat → List (Int × BucketCounter.Op)
  | [] => []
  | k :: ks => List.replicate (mul * k) (t0, .update) ++ rounds (t0 + gap) gap mul ks

/-- The counts a query returns, in the order the query finds them (the newest first). -/
def counts (q : Option (GoMap Int Int)) : List Int := (q.getD []).map Prod.snd

/-- The keys of the result of a query. -/
def keys (q : Option (GoMap Int Int)) : List Int := (q.getD []).map Prod.fst

/-- impl/default_bucket_counter_test.go `TestBucketCounterImpl_SlowUpdated` -/
example : counts (((BucketCounter.new 1000000000 5 1575796315755 true).run
    (List.replicate 10 (1575796315755, .update) ++ List.replicate 20 (1575796316755, .update))).getBucketCounts 1575796318755) = [20, 10] := by decide +kernel

/-- impl/default_bucket_counter_test.go `TestBucketCounterImpl_SingleRoutineUpdate` -/
example : counts (((BucketCounter.new 1000000000 5 1575796315755 true).run (rounds 1575796315755 1000 10 [0, 1, 2, 3, 4, 5, 6, 7])).getBucketCounts
    1575796323755) = [70, 60, 50, 40, 30] := by decide +kernel

/-- impl/default_bucket_counter_test.go `TestBucketCounterImpl_LatestIndexAtFirst` -/
example : counts (((BucketCounter.new 1000000000 5 1575796315755 true).run (rounds 1575796315755 1000 10 [0, 1, 2, 3, 4, 5, 6])).getBucketCounts
    1575796322755) = [60, 50, 40, 30, 20] := by decide +kernel

set_option maxRecDepth 100000 in
/-- impl/default_bucket_counter_test.go `TestBucketCounterImpl_MultiGoroutineUpdate`, the 80 goroutines in step (and each `UpdateN`s its `10 * k` updates at
once; C10-C13 are about real interleavings) -/
example : let b := (BucketCounter.new 1000000000 15 0 true).run ((List.range' 1 10).flatMap fun k => List.replicate 80 (1575796315755 + 1000 * (k : Int), .updateN (10 * k)))
    (counts (b.getBucketCounts 1575796326755), b.getCount) = ([8000, 7200, 6400, 5600, 4800, 4000, 3200, 2400, 1600, 800], 44000) := by decide +kernel

/-- impl/default_bucket_counter_test.go `TestBucketCounterImpl_10sInterval` -/
example : let b := (BucketCounter.new 10000000000 5 0 true).run (rounds 0 10000 10 [0, 1, 2, 3, 4, 5, 6, 7])
    (counts (b.getBucketCounts 80000), b.getCount) = ([70, 60, 50, 40, 30], 280) := by decide +kernel

/-- impl/default_bucket_counter_test.go `TestBucketCounterImpl_QueryWithStartTime` -/
example : let b := (BucketCounter.new 10000000000 5 0 true).run (rounds 0 10000 10 [1, 2, 3, 4, 5, 6, 7])
    (counts (b.getBucketCountsSince 70000 70000), counts (b.getBucketCountsSince 70000 60000), b.getCount) = ([], [70], 280) := by decide +kernel

set_option maxRecDepth 100000 in
/-- impl/default_bucket_counter_test.go `TestBucketCounterImpl_QueryWith0` -/
example : let b := (BucketCounter.new 10000000000 10 0 true).run (rounds 0 10000 100 [1, 2, 3, 4, 5])
    (counts (b.getBucketCountsSince 50000 0), keys (b.getBucketCountsSince 50000 0)) = ([500, 400, 300, 200, 100], [40000, 30000, 20000, 10000, 0]) := by
  decide +kernel

/-- impl/default_bucket_counter_test.go `TestBucketCounterImpl_AccurateQuery` -/
example : ((((BucketCounter.new 10000000000 10 0 true).incN 10000 100).state.getBucketCounts 10000).getD []).get? 10000 = some 100 := by decide +kernel

/-- impl/default_bucket_counter_test.go `TestBucketCounterImpl_UpdateTotal`, `TestBucketCounterImpl_NotUpdateTotal` -/
example : ((BucketCounter.new 10000000000 10 0 true).run [(0, .update), (0, .update)]).getCount = 2 ∧
    ((BucketCounter.new 10000000000 10 0 false).run [(0, .update), (0, .update)]).getCount = 0 := by decide +kernel

/-- impl/default_bucket_counter_test.go `TestBucketCounterImpl_AlignTime` -/
example : BucketCounter.alignTimestamp 1000000000 1575796315755 = some 1575796315 := by decide +kernel

/-- impl/default_fast_compass_test.go `TestFastCompassImpl_Record`: the three records -/
def threeRecords : FastCompass :=
  (FastCompass.new 60000000000 10 10).run [⟨0, 0, 10000000, "success"⟩, ⟨0, 0, 20000000, "error"⟩, ⟨0, 0, 15000000, "success"⟩]

/-- impl/default_fast_compass_test.go `TestFastCompassImpl_Record`; a minute later -/
example : threeRecords.getMethodCountPerCategorySince (fun _ => 60000) 0 = some [("success", [(0, 2)]), ("error", [(0, 1)])] := by decide +kernel
example : threeRecords.getMethodRtPerCategorySince (fun _ => 60000) 0 = some [("success", [(0, 25)]), ("error", [(0, 20)])] := by decide +kernel
example : threeRecords.getCountAndRtPerCategorySince (fun _ => 60000) 0 =
    some [("success", [(0, 2 * 2 ^ 38 + 25)]), ("error", [(0, 2 ^ 38 + 20)])] := by decide +kernel

/-- impl/default_fast_compass_test.go `TestFastCompassImpl_MaxCategoryCount` -/
example : let fc := (FastCompass.new 60000000000 10 2).run [⟨0, 0, 10000000, "success"⟩, ⟨0, 0, 20000000, "error1"⟩, ⟨0, 0, 15000000, "error2"⟩]
    (fc.getMethodCountPerCategory (fun _ => 0)).map List.length = some 2 := by decide +kernel

end GoMetrics.GoTests
