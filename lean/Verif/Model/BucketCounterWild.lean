import Verif.Model.BucketCounterConc
/-! # `UpdateN` when an unsynchronised load may return anything it could ever return

impl/default_bucket_counter.go:102-124, impl/bucket_queue.go:65-68. As in Model/BucketCounterConc.lean, but nothing is assumed of the order in which other
goroutines see plain stores, nor of the order of loads: the plain loads of lines 108, 109, 120 and of bucket_queue.go:66-67 get their values from the environment.
 * `latestBucket` may appear to be any bucket there is - older or newer than the one stored last;
 * of a bucket that is reached through that pointer the timestamp may not be visible yet: it then reads as 0, the value of freshly allocated memory;
 * `bq.current` may appear to be any position in the queue.
Atomic operations (lines 104, 114, 123) act on the memory as it is. -/
namespace GoMetrics
namespace BucketCounter

/-- What the environment supplies to a step: the clock reading, and what plain loads return. -/
structure Seen where
  clock : Int
  /-- the bucket that `latestBucket` appears to point to -/
  latest : Nat
  /-- timestamps are not visible yet -/
  blank : Bool
  /-- what `bq.current` appears to be -/
  position : Nat
  deriving DecidableEq, Repr

/-- The memory as it appears to a plain load: impl/default_bucket_counter.go:108-109, 120, impl/bucket_queue.go:66-67. Pointers and positions out of range
are brought into range: no such value was ever stored. -/
def appears (b : BucketCounter) (e : Seen) : BucketCounter :=
  { b with
    latestBucket := e.latest % b.heap.length
    heap := if e.blank then b.heap.map (fun k => { k with timestamp := 0 }) else b.heap
    buckets := { b.buckets with current := e.position % b.buckets.queue.length } }

/-- The next step is a plain load: impl/default_bucket_counter.go:108-109, 120, impl/bucket_queue.go:66, 67. -/
def PC.plainLoad : PC → Bool
  | .load _ | .reload _ | .q1 _ _ | .q3 _ _ => true
  | _ => false

/-- One step of `UpdateN` (impl/default_bucket_counter.go:102-124): a plain load sees the memory as it appears and changes nothing. -/
def wildStep (b : BucketCounter) (e : Seen) (c : Call) : BucketCounter × Call :=
  if c.pc.plainLoad then (b, (callStep (b.appears e) e.clock c).2) else callStep b e.clock c

/-- Any number of concurrent `UpdateN` calls (impl/default_bucket_counter.go:102-124) with such loads. -/
def wild : Machine BucketCounter Call Int Seen where
  call n := ⟨n, .start⟩
  step := wildStep

end BucketCounter
end GoMetrics
