import Verif.Model.GoBasics
/-! # The bucket ring (impl/bucket_queue.go)

Buckets are referenced by pointer (`*bucket`) both from the ring and from
`BucketCounterImpl.latestBucket`; we keep them in a heap (`List Bucket`) and represent a pointer by its
index. -/
namespace GoMetrics

/-- impl/bucket_queue.go:24-33 `bucket`. -/
structure Bucket where
  timestamp : Int
  count : Int
  deriving DecidableEq, Repr, Inhabited

/-- impl/bucket_queue.go:35-39 `newBucket`: a placeholder. -/
def newBucket : Bucket := ⟨-1, 0⟩

/-- The heap of buckets; a `*bucket` is an index. -/
abbrev BHeap := List Bucket

/-- Dereference. Pointers are always valid (an invariant proved in Proofs/BucketCounter.lean); the
default is never used. -/
def BHeap.at (h : BHeap) (p : Nat) : Bucket := (h[p]?).getD newBucket

/-- impl/bucket_queue.go:44-47 `bucketDequeue`. -/
structure Deque where
  queue : List Nat
  current : Nat
  deriving DecidableEq, Repr

namespace Deque

/-- impl/bucket_queue.go:50-59 `newBucketDequeue` for `n ≥ 0`: `n+1` fresh placeholders, pointer `i` in slot `i`.
(For `n < 0` Go panics: see `BucketCounter.newImpl`.) -/
def new (n : Nat) : Deque := ⟨List.range (n + 1), 0⟩

/-- The heap right after impl/bucket_queue.go:54-57. -/
def newHeap (n : Nat) : BHeap := List.replicate (n + 1) newBucket

/-- `bq.queue[i]`. -/
def slot (q : Deque) (i : Nat) : Nat := (q.queue[i]?).getD 0

/-- impl/bucket_queue.go:61-63 `peek`. -/
def peek (q : Deque) : Nat := q.slot q.current

/-- impl/bucket_queue.go:65-68 `addLast`. -/
def addLast (q : Deque) (p : Nat) : Deque :=
  let c := (q.current + 1) % q.queue.length
  ⟨q.queue.set c p, c⟩

/-- impl/bucket_queue.go:91-93, first loop: `for i := startPos; i >= 0 && startPos-i < length; i--`
starting at `i`; the list of visited indices. -/
def loop1 (startPos length : Nat) : Nat → List Nat
  | 0 => if startPos - 0 < length then [0] else []
  | i + 1 => if startPos - (i + 1) < length then (i + 1) :: loop1 startPos length i else []

/-- impl/bucket_queue.go:95, second loop: `for i := length; i > startPos+1; i--` starting at `i`. -/
def loop2 (startPos : Nat) : Nat → List Nat
  | 0 => []
  | i + 1 => if i + 1 > startPos + 1 then (i + 1) :: loop2 startPos i else []

/-- impl/bucket_queue.go:84-104 `getBucketList` (list of pointers). -/
def getBucketList (q : Deque) (h : BHeap) : List Nat :=
  let length := q.queue.length - 1
  let startPos := q.current
  let startTs := (h.at (q.slot q.current)).timestamp
  (loop1 startPos length startPos).map q.slot ++
    ((loop2 startPos length).map q.slot).filter (fun p => (h.at p).timestamp ≤ startTs)

end Deque
end GoMetrics
