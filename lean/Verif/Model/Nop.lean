import Verif.Model.Registry
import Verif.Model.Float
/-! # No-op metrics

impl/nop_bucket_counter.go, impl/nop_compass.go, impl/nop_fast_compass.go, impl/nop_snapshot.go. The structs have no fields (line 24, 27,
28, 20), so the state is `Unit`. An error is `some message`. -/
namespace GoMetrics
namespace Nop

/-- Updating methods of `NopBucketCounter`, impl/nop_bucket_counter.go:35-52. -/
inductive BCOp where
  | inc | incN (n : Int) | dec | decN (n : Int) | update | updateN (n : Int)

/-- impl/nop_bucket_counter.go:35-52: empty bodies -/
def bcStep (s : Unit) : BCOp → Unit
  | .inc => s
  | .incN _ => s
  | .dec => s
  | .decN _ => s
  | .update => s
  | .updateN _ => s

/-- impl/nop_bucket_counter.go:27-29 -/
def bcLastUpdateTime (_ : Unit) : Int := 0
/-- impl/nop_bucket_counter.go:31-33 -/
def bcGetCount (_ : Unit) : Int := 0
/-- impl/nop_bucket_counter.go:54-56 -/
def bcGetBucketCounts (_ : Unit) : GoMap Int Int := []
/-- impl/nop_bucket_counter.go:58-60 -/
def bcGetBucketCountsSince (_ : Unit) (_startTime : Int) : GoMap Int Int := []
/-- impl/nop_bucket_counter.go:62-64 -/
def bcGetBucketInterval (_ : Unit) : Int := 0

/-- impl/nop_snapshot.go:22-72: every getter, `q` the quantile asked for, with its error. -/
structure SnapshotView where
  value : F64 × Option String
  values : List Int × Option String
  size : Int × Option String
  median : F64 × Option String
  p75 : F64 × Option String
  p95 : F64 × Option String
  p98 : F64 × Option String
  p99 : F64 × Option String
  p999 : F64 × Option String
  max : Int × Option String
  mean : F64 × Option String
  min : Int × Option String
  stdDev : F64 × Option String

/-- impl/nop_snapshot.go:22-72 -/
def snapshot (_q : F64) : SnapshotView :=
  { value := (.fin 0, none), values := ([], none), size := (0, none), median := (.fin 0, none), p75 := (.fin 0, none),
    p95 := (.fin 0, none), p98 := (.fin 0, none), p99 := (.fin 0, none), p999 := (.fin 0, none), max := (0, none),
    mean := (.fin 0, none), min := (0, none), stdDev := (.fin 0, none) }

/-- Updating methods of `NopCompass`, impl/nop_compass.go:70-74. -/
inductive CompassOp where
  | update (duration : Int)
  | updateWithError (duration : Int) (isSuccess : Bool) (errorCode addon : String)

/-- impl/nop_compass.go:70-74: empty bodies -/
def compassStep (s : Unit) : CompassOp → Unit
  | .update _ => s
  | .updateWithError _ _ _ _ => s

/-- impl/nop_compass.go:30-90: every getter; `startTime` is the argument of `GetInstantCountSince`, `q` a quantile for the snapshot's
`GetValue`; the bucket counter of the last getter is given by its `GetCount`. -/
structure CompassView where
  lastUpdateTime : Int
  count : Int
  instantCount : GoMap Int Int
  instantCountSince : GoMap Int Int
  instantCountInterval : Int
  m15 : F64
  m5 : F64
  mean : F64
  m1 : F64
  snapshot : SnapshotView
  successCount : Int
  errorCodes : GoMap String Unit
  addons : GoMap String Unit
  bucketSuccess : Int

/-- impl/nop_compass.go:30-90 -/
def compass (s : Unit) (_startTime : Int) (q : F64) : CompassView :=
  { lastUpdateTime := 0, count := 0, instantCount := [], instantCountSince := [], instantCountInterval := 0, m15 := .fin 0, m5 := .fin 0,
    mean := .fin 0, m1 := .fin 0, snapshot := snapshot q, successCount := 0, errorCodes := [], addons := [],
    bucketSuccess := bcGetCount s }

/-- impl/nop_fast_compass.go:35-36 `Record`: empty body -/
def fastRecord (s : Unit) (_duration : Int) (_subCategory : String) : Unit := s

/-- impl/nop_fast_compass.go:31-64: every getter. -/
structure FastView where
  lastUpdateTime : Int
  methodCount : GoMap String (GoMap Int Int)
  methodCountSince : GoMap String (GoMap Int Int)
  methodRt : GoMap String (GoMap Int Int)
  methodRtSince : GoMap String (GoMap Int Int)
  countAndRt : GoMap String (GoMap Int Int)
  countAndRtSince : GoMap String (GoMap Int Int)
  bucketInterval : Int

/-- impl/nop_fast_compass.go:31-64 -/
def fast (_ : Unit) (_startTime : Int) : FastView :=
  { lastUpdateTime := 0, methodCount := [], methodCountSince := [], methodRt := [], methodRtSince := [], countAndRt := [],
    countAndRtSince := [], bucketInterval := goSecond }

end Nop
end GoMetrics
