import Verif.Model.WholeBucket
import Verif.Model.WholeWild
/-! # A whole compass with a bucket reservoir whose unsynchronised loads may return anything they could ever return

impl/default_compass.go:223, impl/bucket_reservoir.go: Model/WholeBucket.lean's reservoir, with the loads of Model/BucketCounterWild.lean in `valuePerBucket.UpdateN`, as a part of
the compass of Model/WholeWild.lean. A snapshot only loads, and writes nothing; here it finds in the two counters it reads whatever the environment says. -/
namespace GoMetrics
namespace Whole
open CompassConc (TickSeen)
open BucketCounter (Seen)

/-- What the environment supplies to a step of a call of a bucket reservoir: the clock reading and the loads of `UpdateN`, which entry of a map comes first, and what a snapshot finds
in the two counters. -/
structure BucketSeen where
  seen : Seen
  pick : Nat
  found : BucketPair.Shared

/-- What a snapshot finds: anything, but `interval`, which the constructor stored and nobody stores again (impl/default_bucket_counter.go:58, 166). -/
def BucketSeen.counters (interval : Int) (x : BucketSeen) : BucketPair.Shared :=
  ⟨{ x.found.count with interval := interval }, { x.found.value with interval := interval }⟩

/-- The interleaving semantics of a bucket reservoir (impl/bucket_reservoir.go:38-70) with such loads; otherwise Model/WholeBucket.lean's `bucketConc`. -/
def wildBucketConc (interval : Int) : Machine BucketCounter BucketPC (Option Int) BucketSeen where
  call
    | some d => .upd ⟨d, .start⟩
    | none => .snap .align
  step s x
    | .upd c => ((BucketCounter.wildStep s x.seen c).1, .upd (BucketCounter.wildStep s x.seen c).2)
    | .snap pc => (s, .snap (BucketPair.snapStep interval (x.counters interval) (x.seen.clock, x.pick) pc))

/-- The bucket reservoir (impl/bucket_reservoir.go:38-70) with such loads as a part of a compass. -/
def wildBucket (interval : Int) : Stepped BucketCounter BucketPC (Option Int) BucketSeen where
  machine := wildBucketConc interval
  updateN := some
  snapshot := none
  over := (bucket interval).over

/-- A compass with a bucket reservoir (impl/default_compass.go:84-106, 148-211, 223) all of whose plain loads are such. -/
def wildBucketCompass (R : Rounding) (bi : Int) : Machine (Parts BucketCounter BucketPC) Call Use (InBy TickSeen Seen BucketSeen) :=
  wildMachine R (wildBucket bi) bi

/-- A new one (impl/default_compass.go:213-245 for `BucketReservoirType`) after the schedule `es`; `tv` is the reading of the constructor of `valuePerBucket`. -/
def wildBucketUsed (R : Rounding) (bi : Int) (n : Nat) (maxErr maxAdd now t1 t2 tv : Int) (es : List (Ev Use (InBy TickSeen Seen BucketSeen))) :
    Pool (Parts BucketCounter BucketPC) Call :=
  (wildBucketCompass R bi).run (init (BucketCounter.new bi n tv true) bi n maxErr maxAdd now t1 t2) es

end Whole
end GoMetrics
