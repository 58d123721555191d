import Verif.Model.BucketCounterConc
import Verif.Model.CompassUpdateConc
import Mathlib.Data.Finset.Card
import Mathlib.Data.Finset.Lattice.Basic
/-! # What a garbage collector has to keep

A bucket holds two numbers and no pointers (impl/bucket_queue.go:24-33), so the buckets that must be kept are those that a field of some live object or a
local variable of some running call points to. -/
namespace GoMetrics

/-- The buckets the fields of a counter point to: `latestBucket` and the slots of the ring. -/
def BucketCounter.pointed (b : BucketCounter) : Finset Nat := insert b.latestBucket b.buckets.queue.toFinset

/-- The bucket a local variable of an `UpdateN` call points to, if it is going to be used again. -/
def BucketCounter.Call.pointed (c : BucketCounter.Call) : Finset Nat :=
  match c.pc with
  | .cas _ p | .q1 _ p | .q2 _ p _ | .q3 _ p | .q4 _ p _ | .add _ p => {p}
  | _ => ∅

/-- All buckets that must be kept. -/
def BucketCounter.reachable (p : Pool BucketCounter BucketCounter.Call) : Finset Nat :=
  p.calls.foldr (fun c s => c.pointed ∪ s) p.shared.pointed

/-- The number of calls under way. -/
def BucketCounter.running (p : Pool BucketCounter BucketCounter.Call) : Nat :=
  p.calls.countP fun c => match c.pc with
    | .done _ _ | .panicked => false
    | _ => true

/-- The number of buckets the counters of a map keep. -/
def bucketsKept (m : GoMap String BucketCounter) : Nat := (m.map fun e => e.2.pointed.card).sum

/-- The number of buckets the counters of a compass keep: the total, the successes, the error codes and the addons. -/
def CompassConc.Marks.kept (m : CompassConc.Marks) : Nat :=
  m.total.pointed.card + m.success.pointed.card + bucketsKept (m.lab false).counters + bucketsKept (m.lab true).counters

end GoMetrics
