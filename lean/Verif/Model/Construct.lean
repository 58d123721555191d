import Verif.Model.CompassType
import Verif.Model.FastCompass
/-! # The constructors for arbitrary arguments

The other models take sizes as natural numbers. Here the constructors are followed for every `int`, including what makes `make` and indexing panic (`none`). Not modelled: that `make` also
panics, or the program runs out of memory, for sizes the machine does not have. -/
namespace GoMetrics

/-- `make([]T, n)` filled with the value `v` (Go specification, "Making slices, maps and channels": a negative size panics). -/
def makeSlice {α : Type} (n : Int) (v : α) : Option (List α) := if n < 0 then none else some (List.replicate n.toNat v)

namespace Deque

/-- impl/bucket_queue.go:54-57: the loop; `none` where the slice has no slot `i`. A new bucket is the next one of the heap. -/
def fill (slots : List Nat) (heap : BHeap) : Nat → Nat → Option (List Nat × BHeap)
  | _, 0 => some (slots, heap)
  | i, k + 1 => if i < slots.length then fill (slots.set i heap.length) (heap ++ [newBucket]) (i + 1) k else none

/-- impl/bucket_queue.go:50-59 `newBucketDequeue(n)`; `n+1` is `int` arithmetic. -/
def newFor (n : Int) : Option (Deque × BHeap) :=
  (makeSlice (i64 (n + 1)) 0).bind fun slots => (fill slots [] 0 (i64 (n + 1)).toNat).map fun r => (⟨r.1, 0⟩, r.2)

/-- impl/bucket_queue.go:61-63 `peek`; `none` if the index is out of range -/
def peekFor (q : Deque) : Option Nat := q.queue[q.current]?

end Deque

/-- impl/default_bucket_counter.go:157-169 `newBucketCounterImpl` -/
def BucketCounter.newFor (interval numbOfBuckets t0 : Int) (updateTotalCount : Bool) : Option BucketCounter :=
  (Deque.newFor numbOfBuckets).bind fun q => q.1.peekFor.map fun p =>
    { totalCount := Counter.new, updateTotalCount := updateTotalCount, heap := q.2, latestBucket := p, buckets := q.1, interval := interval, initTimestamp := t0 }

/-- impl/uniform_reservoir.go:92-96 `NewUniformReservoir` -/
def UniformReservoir.newFor (size : Int) : Option UniformReservoir := (makeSlice size 0).map fun values => ⟨0, values⟩

/-- impl/bucket_reservoir.go:72-79 `NewBucketReservoir` -/
def BucketReservoir.newFor (interval numOfBucket t0 : Int) : Option BucketReservoir :=
  (BucketCounter.newFor interval numOfBucket t0 true).map fun c => ⟨c, interval⟩

namespace Compass
variable {σ : Type}

/-- The number of buckets a compass keeps for its error and addon counters (impl/default_compass.go:236, 258, 173); the field of `Compass` is a natural number. -/
def fields (reservoir : σ) (total success : BucketCounter) (numOfBucket bucketInterval maxErrorCodeCount maxAddonCount now : Int) : Compass σ where
  totalCount := total
  successCount := success
  errorCodes := []
  addons := []
  m1Rate := EWMA.zeroValue
  m5Rate := EWMA.zeroValue
  m15Rate := EWMA.zeroValue
  startTime := now
  lastTick := now
  uncounted := 0
  maxErrorCodeCount := maxErrorCodeCount
  maxAddonCount := maxAddonCount
  bucketInterval := bucketInterval
  numberOfBucket := numOfBucket.toNat
  reservoir := reservoir

/-- impl/default_compass.go:247-266 `NewCompass` -/
def newFor (reservoir : σ) (numOfBucket bucketInterval maxErrorCodeCount maxAddonCount : Int) (env : NewEnv) : Option (Compass σ) :=
  (BucketCounter.newFor bucketInterval numOfBucket env.tTotal true).bind fun total =>
  (BucketCounter.newFor bucketInterval numOfBucket env.tSuccess true).map fun success =>
    fields reservoir total success numOfBucket bucketInterval maxErrorCodeCount maxAddonCount env.now

/-- impl/default_compass.go:219-228 -/
def reservoirForInt (A : EDR.Arith) (reservoirType numOfBucket bucketInterval : Int) (env : ResEnv) : Option AnyReservoir :=
  if reservoirType = exponentiallyDecayingReservoirType then some (.edr (EDR.new 1028 (edrDefaultAlpha A) env.time env.tick))
  else if reservoirType = bucketReservoirType then (BucketReservoir.newFor bucketInterval numOfBucket env.tValue).map .bucket
  else if reservoirType = uniformReservoirType then (UniformReservoir.newFor 1024).map .uniform
  else some (.edr (EDR.new 1028 (edrDefaultAlpha A) env.time env.tick))

/-- impl/default_compass.go:213-245 `NewCompassWithType` -/
def newWithTypeFor (A : EDR.Arith) (reservoirType numOfBucket bucketInterval maxErrorCodeCount maxAddonCount : Int) (env : NewEnv) (renv : ResEnv) : Option (Compass AnyReservoir) :=
  (BucketCounter.newFor bucketInterval numOfBucket env.tTotal true).bind fun total =>
  (reservoirForInt A reservoirType numOfBucket bucketInterval renv).bind fun reservoir =>
  (BucketCounter.newFor bucketInterval numOfBucket env.tSuccess true).map fun success =>
    fields reservoir total success numOfBucket bucketInterval maxErrorCodeCount maxAddonCount env.now

end Compass
end GoMetrics
