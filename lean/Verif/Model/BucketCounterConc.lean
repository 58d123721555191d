import Verif.Model.BucketCounter
import Verif.Model.Pool
/-! # Concurrent `UpdateN` (impl/default_bucket_counter.go:102-124 and impl/bucket_queue.go:65-68)

The shared memory is the same `BucketCounter` as in the sequential model. Simplifications: plain loads and stores
are sequentially consistent; a bucket allocated by the loser of the CAS is garbage and is not kept in the heap. -/
namespace GoMetrics
namespace BucketCounter

/-- Program counter of one `UpdateN` call, with the local variables alive there. `ts` is `currentTs`. -/
inductive PC where
  /-- line 103: about to update the total -/
  | start
  /-- line 107: about to read the clock -/
  | clock
  /-- lines 108-110: about to load `latestBucket` and compare timestamps (timestamps are immutable) -/
  | load (ts : Int)
  /-- lines 112-114: about to allocate a bucket and CAS `latestBucket` from `old` -/
  | cas (ts : Int) (old : Nat)
  /-- line 120: lost the CAS, about to reload `latestBucket` -/
  | reload (ts : Int)
  /-- line 116 / bucket_queue.go:66: about to load `bq.current` -/
  | q1 (ts : Int) (p : Nat)
  /-- bucket_queue.go:66: about to store `bq.current` -/
  | q2 (ts : Int) (p c : Nat)
  /-- bucket_queue.go:67: about to load `bq.current` again -/
  | q3 (ts : Int) (p : Nat)
  /-- bucket_queue.go:67: about to store the slot -/
  | q4 (ts : Int) (p c : Nat)
  /-- line 123: about to add to the bucket -/
  | add (ts : Int) (p : Nat)
  /-- returned, having added to bucket `p` -/
  | done (ts : Int) (p : Nat)
  /-- division by zero at line 107 -/
  | panicked
  deriving DecidableEq, Repr

/-- A call `UpdateN(n)`. -/
structure Call where
  n : Int
  pc : PC
  deriving DecidableEq, Repr

/-- One atomic step of `UpdateN` (impl/default_bucket_counter.go:102-124); `t` is the clock reading, used by the
step at line 107 only. -/
def callStep (b : BucketCounter) (t : Int) (c : Call) : BucketCounter × Call :=
  match c.pc with
  | .start => (b.bumpTotal c.n, { c with pc := .clock })
  | .clock =>
    match alignTimestamp b.interval t with
    | none => (b, { c with pc := .panicked })
    | some ts => (b, { c with pc := .load ts })
  | .load ts =>
    if ts > (b.heap.at b.latestBucket).timestamp then (b, { c with pc := .cas ts b.latestBucket })
    else (b, { c with pc := .add ts b.latestBucket })
  | .cas ts old =>
    if b.latestBucket = old then
      ({ b with heap := b.heap ++ [⟨ts, 0⟩], latestBucket := b.heap.length },
        { c with pc := .q1 ts b.heap.length })
    else (b, { c with pc := .reload ts })
  | .reload ts => (b, { c with pc := .add ts b.latestBucket })
  | .q1 ts p => (b, { c with pc := .q2 ts p ((b.buckets.current + 1) % b.buckets.queue.length) })
  | .q2 ts p k => ({ b with buckets := { b.buckets with current := k } }, { c with pc := .q3 ts p })
  | .q3 ts p => (b, { c with pc := .q4 ts p b.buckets.current })
  | .q4 ts p k =>
    ({ b with buckets := { b.buckets with queue := b.buckets.queue.set k p } }, { c with pc := .add ts p })
  | .add ts p => ({ b with heap := addAt b.heap p c.n }, { c with pc := .done ts p })
  | .done _ _ => (b, c)
  | .panicked => (b, c)

/-- The interleaving semantics of `UpdateN`. -/
def conc : Machine BucketCounter Call Int Int where
  call n := ⟨n, .start⟩
  step := callStep

end BucketCounter
end GoMetrics
