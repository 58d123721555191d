import Verif.Model.UniformSnapshot
import Verif.Model.BucketCounter
/-! # BucketReservoir (impl/bucket_reservoir.go) and BucketSnapshot (impl/bucket_snapshot.go) -/
namespace GoMetrics

/-- metric.go:22 -/
def notAvailable : Int := -10001

/-- impl/bucket_snapshot.go:28-31 `BucketSnapshot`; 88-93 `NewBucketSnapshot` only fills it in -/
structure BucketSnapshot where
  count : Int
  value : Int
  deriving DecidableEq

namespace BucketSnapshot
variable (R : Rounding) (b : BucketSnapshot)

/-- impl/bucket_snapshot.go:33-35 `GetValue` -/
def getValue (_quantile : F64) : Ret F64 := .err (F64.ofInt R notAvailable)
/-- impl/bucket_snapshot.go:37-39 `GetValues` -/
def getValues : Ret (List Int) := .err [0]
/-- impl/bucket_snapshot.go:41-43 `Size`; `int` has 64 bits -/
def size : Ret Int := .ok b.count
/-- impl/bucket_snapshot.go:45-47 `GetMedian` -/
def getMedian : Ret F64 := .err (F64.ofInt R notAvailable)
/-- impl/bucket_snapshot.go:49-51 `Get75thPercentile` -/
def get75thPercentile : Ret F64 := .err (F64.ofInt R notAvailable)
/-- impl/bucket_snapshot.go:53-55 `Get95thPercentile` -/
def get95thPercentile : Ret F64 := .err (F64.ofInt R notAvailable)
/-- impl/bucket_snapshot.go:57-59 `Get98thPercentile` -/
def get98thPercentile : Ret F64 := .err (F64.ofInt R notAvailable)
/-- impl/bucket_snapshot.go:61-63 `Get99thPercentile` -/
def get99thPercentile : Ret F64 := .err (F64.ofInt R notAvailable)
/-- impl/bucket_snapshot.go:65-67 `Get999thPercentile` -/
def get999thPercentile : Ret F64 := .err (F64.ofInt R notAvailable)
/-- impl/bucket_snapshot.go:69-71 `GetMax` -/
def getMax : Ret Int := .err notAvailable
/-- impl/bucket_snapshot.go:73-78 `GetMean` -/
def getMean : Ret F64 := if b.count = 0 then .ok (.fin 0) else .ok (F64.div R (F64.ofInt R b.value) (F64.ofInt R b.count))
/-- impl/bucket_snapshot.go:80-82 `GetMin` -/
def getMin : Ret Int := .err notAvailable
/-- impl/bucket_snapshot.go:84-86 `GetStdDev` -/
def getStdDev : Ret F64 := .err (F64.ofInt R notAvailable)

end BucketSnapshot

/-- impl/bucket_reservoir.go:27-32 `BucketReservoir`. The field `countPerBucket` (28) points to a counter that somebody else updates - the compass
its `totalCount` (impl/default_compass.go:223) -: it is an argument of the methods that read it. -/
structure BucketReservoir where
  valuePerBucket : BucketCounter
  interval : Int
  deriving DecidableEq

namespace BucketReservoir

/-- impl/bucket_reservoir.go:72-79 `NewBucketReservoir` for `numOfBucket ≥ 0`; `t0` is the reading in `newBucketCounterImpl` -/
def new (interval : Int) (numOfBucket : Nat) (t0 : Int) : BucketReservoir := ⟨BucketCounter.new interval numOfBucket t0 true, interval⟩

/-- impl/bucket_reservoir.go:34-36 `Size` -/
def size (_b : BucketReservoir) (countPerBucket : BucketCounter) : Int := countPerBucket.getCount

/-- impl/bucket_reservoir.go:38-40 `UpdateN`; `t` is the reading in the bucket counter -/
def updateN (b : BucketReservoir) (t value : Int) : Res BucketReservoir :=
  (b.valuePerBucket.updateN t value).lift fun c => { b with valuePerBucket := c }

/-- impl/bucket_reservoir.go:53-60 `fetchValueFromMap`: the value of an arbitrary entry - the order of iteration of a map is not specified -,
here the one at position `pick`, counted round the list; 0 for an empty map. -/
def fetchValueFromMap (target : GoMap Int Int) (pick : Nat) : Int :=
  match target[pick % target.length]? with
  | none => 0
  | some e => e.2

/-- impl/bucket_reservoir.go:62-70 `alignToBucketStartTimeInMs`; `t` is the reading of line 64. `none`: division by zero. -/
def alignToBucketStartTimeInMs (interval t : Int) : Option Int :=
  if wholeSeconds interval = 0 then none
  else some (i64 (i64 ((t.tdiv secondToMsRate - wholeSeconds interval).tdiv (wholeSeconds interval) * wholeSeconds interval) * secondToMsRate))

/-- What the environment supplies to one `GetSnapshot`: three readings of the clock, and which entries of the two maps come first. -/
structure SnapEnv where
  tAlign : Int
  tValue : Int
  tCount : Int
  pickValue : Nat
  pickCount : Nat

/-- impl/bucket_reservoir.go:42-51 `GetSnapshot`; `none` is a panic -/
def getSnapshot (b : BucketReservoir) (countPerBucket : BucketCounter) (env : SnapEnv) : Option BucketSnapshot :=
  match alignToBucketStartTimeInMs b.interval env.tAlign with
  | none => none
  | some startTime =>
    match b.valuePerBucket.getBucketCountsSince env.tValue startTime with
    | none => none
    | some valueResult =>
      match countPerBucket.getBucketCountsSince env.tCount startTime with
      | none => none
      | some countResult =>
        some ⟨fetchValueFromMap countResult env.pickCount, fetchValueFromMap valueResult env.pickValue⟩

end BucketReservoir
end GoMetrics
