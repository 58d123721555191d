import Verif.Model.BucketQueue
import Verif.Model.Counter
/-! # The bucket counter (impl/default_bucket_counter.go), sequential semantics

The interleaving semantics of `UpdateN` is in Model/BucketCounterConc.lean. -/
namespace GoMetrics

/-- impl/default_bucket_counter.go:31 `secondToMsRate`. -/
def secondToMsRate : Int := 1000

/-- `int64(d.Seconds())` for a `time.Duration` `d` in nanoseconds
(impl/default_bucket_counter.go:152, impl/bucket_reservoir.go:66).
`Duration.Seconds` goes through float64; `Proofs/Seconds.lean` relates that computation to this
truncating division. -/
def wholeSeconds (d : Int) : Int := d.tdiv 1000000000

/-- impl/default_bucket_counter.go:39-65 `BucketCounterImpl`. The clock is not a field: every clock
reading is an argument. -/
structure BucketCounter where
  totalCount : Counter
  updateTotalCount : Bool
  heap : BHeap
  latestBucket : Nat
  buckets : Deque
  interval : Int
  initTimestamp : Int
  deriving DecidableEq, Repr

namespace BucketCounter

/-- impl/default_bucket_counter.go:157-169 `newBucketCounterImpl`, for `numbOfBuckets = n ≥ 0`;
`t0` is the reading `clock.GetTime()` of line 167. -/
def new (interval : Int) (n : Nat) (t0 : Int) (updateTotalCount : Bool) : BucketCounter where
  totalCount := Counter.new
  updateTotalCount := updateTotalCount
  heap := Deque.newHeap n
  latestBucket := (Deque.new n).peek
  buckets := Deque.new n
  interval := interval
  initTimestamp := t0

/-- impl/default_bucket_counter.go:157-169 for an arbitrary `int` number of buckets. `none` is a panic:
for `numbOfBuckets < -1`, `make` panics (bucket_queue.go:52); for `-1`, `peek` indexes an empty slice
(bucket_queue.go:62). -/
def newImpl (interval : Int) (numbOfBuckets : Int) (t0 : Int) (updateTotalCount : Bool) :
    Option BucketCounter :=
  if numbOfBuckets < 0 then none else some (new interval numbOfBuckets.toNat t0 updateTotalCount)

/-- impl/default_bucket_counter.go:69-75 `LastUpdateTime`. -/
def lastUpdateTime (b : BucketCounter) : Int :=
  let result := (b.heap.at b.latestBucket).timestamp
  if result ≤ 0 then b.initTimestamp else result

/-- impl/default_bucket_counter.go:78-80 `GetCount`. -/
def getCount (b : BucketCounter) : Int := b.totalCount.getCount

/-- impl/default_bucket_counter.go:145-147 `GetBucketInterval`. -/
def getBucketInterval (b : BucketCounter) : Int := b.interval

/-- impl/default_bucket_counter.go:151-153 `alignTimestamp`: `none` is the division-by-zero panic.
No step can overflow: the result is at most `|t|/1000` in absolute value. -/
def alignTimestamp (interval : Int) (t : Int) : Option Int :=
  if wholeSeconds interval = 0 then none
  else some ((t.tdiv secondToMsRate).tdiv (wholeSeconds interval) * wholeSeconds interval)

/-- impl/default_bucket_counter.go:123 `atomic.AddInt64(&oldBucket.count, n)`. -/
def addAt (h : BHeap) (p : Nat) (n : Int) : BHeap :=
  h.modify p (fun b => { b with count := i64 (b.count + n) })

/-- impl/default_bucket_counter.go:103-105: the total-count part of `UpdateN`. -/
def bumpTotal (b : BucketCounter) (n : Int) : BucketCounter :=
  if b.updateTotalCount then { b with totalCount := b.totalCount.incN n } else b

/-- impl/default_bucket_counter.go:108-123: the bucket part of `UpdateN` when no other goroutine interferes
(so the CAS of line 114 succeeds). -/
def credit (b : BucketCounter) (currentTs n : Int) : BucketCounter :=
  let old := b.latestBucket
  if currentTs > (b.heap.at old).timestamp then
    let p := b.heap.length
    { b with
      heap := addAt (b.heap ++ [⟨currentTs, 0⟩]) p n
      latestBucket := p
      buckets := b.buckets.addLast p }
  else
    { b with heap := addAt b.heap old n }

/-- impl/default_bucket_counter.go:102-124 `UpdateN`; `t` is the clock reading of line 107. -/
def updateN (b : BucketCounter) (t : Int) (n : Int) : Res BucketCounter :=
  let b1 := b.bumpTotal n
  match alignTimestamp b1.interval t with
  | none => .panic b1
  | some currentTs => .ok (b1.credit currentTs n)

/-- impl/default_bucket_counter.go:98-100 `Update`. -/
def update (b : BucketCounter) (t : Int) : Res BucketCounter := b.updateN t 1

/-- impl/default_bucket_counter.go:82-84 `Inc`. -/
def inc (b : BucketCounter) (t : Int) : Res BucketCounter := b.update t
/-- impl/default_bucket_counter.go:86-88 `IncN`. -/
def incN (b : BucketCounter) (t n : Int) : Res BucketCounter := b.updateN t n
/-- impl/default_bucket_counter.go:90-92 `Dec`. -/
def dec (b : BucketCounter) (t : Int) : Res BucketCounter := b.updateN t (-1)
/-- impl/default_bucket_counter.go:94-96 `DecN`. -/
def decN (b : BucketCounter) (t n : Int) : Res BucketCounter := b.updateN t (i64 (-n))

/-- impl/default_bucket_counter.go:135-141, the loop body. -/
def collect (h : BHeap) (startTime currentTs : Int) (result : GoMap Int Int) (p : Nat) :
    GoMap Int Int :=
  let value := h.at p
  let bkTimestampInMs := secondToMsRate * value.timestamp
  if bkTimestampInMs ≥ startTime ∧ value.timestamp ≤ currentTs then
    result.set bkTimestampInMs value.count
  else result

/-- impl/default_bucket_counter.go:130-143 `GetBucketCountsSince`; `t` is the reading of line 132,
`none` is a panic. -/
def getBucketCountsSince (b : BucketCounter) (t : Int) (startTime : Int) : Option (GoMap Int Int) :=
  match alignTimestamp b.interval t with
  | none => none
  | some currentTs =>
    some ((b.buckets.getBucketList b.heap).foldl (collect b.heap startTime currentTs) [])

/-- impl/default_bucket_counter.go:126-128 `GetBucketCounts`. -/
def getBucketCounts (b : BucketCounter) (t : Int) : Option (GoMap Int Int) :=
  b.getBucketCountsSince t 0

/-- The mutating API calls of metrics.BucketCounter (bucket_counter.go, counter.go). -/
inductive Op where
  | update
  | updateN (n : Int)
  | inc
  | incN (n : Int)
  | dec
  | decN (n : Int)
  deriving DecidableEq, Repr

/-- One API call at clock reading `t`. -/
def step (b : BucketCounter) (t : Int) : Op → Res BucketCounter
  | .update => b.update t
  | .updateN n => b.updateN t n
  | .inc => b.inc t
  | .incN n => b.incN t n
  | .dec => b.dec t
  | .decN n => b.decN t n

/-- A history: API calls with their clock readings, in order. A panicking call leaves its state behind and the
caller may go on (Go's `recover`). -/
def run (b : BucketCounter) (h : List (Int × Op)) : BucketCounter :=
  h.foldl (fun b c => (b.step c.1 c.2).state) b

end BucketCounter
end GoMetrics
