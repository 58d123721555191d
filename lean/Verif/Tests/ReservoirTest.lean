import Verif.Model.CompassType
import Verif.Model.Clock
/-! # The tests of the reservoirs and of the compass, replayed on the model

impl/exponentially_decaying_reservoir_test.go, impl/bucket_reservoir_test.go, impl/default_compass_test.go. These are tests, not proofs of properties.
`math.Exp` is replaced by a function with the same rough shape that can be computed (positive, increasing, 0 below -745 as in float64); the tests do not
depend on more, except `quantiliesShouldBeBasedOnWeights`, whose weight `exp(1.8)` lies between 6 and 6.1. Random numbers are made up. -/
namespace GoMetrics.GoTests

/-- Rough exponential: 1 + x + x^2/2 + x^3/6 for positive, its inverse for negative arguments, 0 where float64 underflows; 121/20 at 1.8. -/
def roughExp : F64 → F64
  | .fin x =>
    if x < -745 then .fin 0
    else if x = 18 / 10 then .fin (121 / 20)
    else if x < 0 then .fin (1 / (1 - x + x ^ 2 / 2 - x ^ 3 / 6))
    else .fin (1 + x + x ^ 2 / 2 + x ^ 3 / 6)
  | .inf true => .fin 0
  | x => x

/-- Exact arithmetic otherwise (binary64 would do as well, only slower). -/
def A : EDR.Arith := ⟨.exact, roughExp⟩

/-- A random number in (0, 1) -/
def rand (i : Nat) : F64 := .fin (((((i * 7919 + 104729) * 1299709 % 1000003 : Nat) : ℚ) + 1) / 1000005)

/-- `n` updates `f 0`, `f 1`, ...; the manual clock is at `t0` ms at first and moves by `gap` ms after each; `seed` is for the random numbers. -/
def updates (t0 gap : Nat) (seed n : Nat) (f : Nat → Int) : List EDR.Op :=
  (List.range n).map fun i => .updateN ⟨((t0 + i * gap) * 1000000 : Nat), ((t0 + i * gap) : Nat), ((t0 + i * gap) : Nat), rand (seed + i)⟩ (f i)

/-- The snapshot taken at time `t` ms. -/
def snap (r : EDR) (t : Nat) : WeightedSnapshot :=
  EDR.getSnapshot A r (t * 1000000 : Nat) t ((EDR.afterSnapshot A r (t * 1000000 : Nat) t).getValues.insertionSort fun a b => a.value ≤ b.value)

/-- `int64SliceBetween` -/
def between (values : List Int) (min max : Int) : Bool := values.all fun v => !(decide (v < min) || decide (v > max))

/-- impl/exponentially_decaying_reservoir_test.go `TestExponentiallyDecayingReservoir_GetSnapshotFor10` -/
example : let r := EDR.run A (EDR.new 100 (.fin (99 / 100)) 0 0) (updates 0 0 0 10 fun i => i)
    (r.getSize, (snap r 0).size, between (snap r 0).getValues 0 10) = (10, 10, true) := by decide +kernel

set_option maxRecDepth 1000000 in
/-- impl/exponentially_decaying_reservoir_test.go `TestExponentiallyDecayingReservoir_HeavilyBiased_GetSnapshotFor1000` -/
example : let r := EDR.run A (EDR.new 1000 (.fin (1 / 100)) 0 0) (updates 0 0 0 100 fun i => i)
    (r.getSize, (snap r 0).size, between (snap r 0).getValues 0 100) = (100, 100, true) := by decide +kernel

set_option maxRecDepth 1000000 in
/-- impl/exponentially_decaying_reservoir_test.go `TestExponentiallyDecayingReservoir_GetSnapshotFor1000` -/
example : let r := EDR.run A (EDR.new 100 (.fin (99 / 100)) 0 0) (updates 0 0 0 1000 fun i => i)
    (r.getSize, (snap r 0).size, between (snap r 0).getValues 0 1000) = (100, 100, true) := by decide +kernel

/-- impl/exponentially_decaying_reservoir_test.go `TestExponentiallyDecayingReservoir_longPeriod`, the first 1000 updates -/
def long1 : EDR := EDR.run A (EDR.new 10 (.fin (15 / 1000)) 0 0) (updates 0 100 0 1000 fun i => 1000 + i)

set_option maxRecDepth 1000000 in
/-- `TestExponentiallyDecayingReservoir_longPeriod`, before the pause -/
example : (long1.getSize, (snap long1 100000).size, between (snap long1 100000).getValues 1000 2000) = (10, 10, true) := by decide +kernel

/-- ... 15 hours later one update, at once ... -/
def long2 : EDR := EDR.run A long1 (updates 54100000 100 5000 1 fun _ => 2000)

set_option maxRecDepth 1000000 in
/-- `TestExponentiallyDecayingReservoir_longPeriod`, after the pause: all older samples are gone -/
example : ((snap long2 54100000).size, (snap long2 54100000).getValues) = (1, [2000]) := by decide +kernel

/-- ... and 1000 more. -/
def long3 : EDR := EDR.run A long2 (updates 54100000 100 6000 1000 fun i => 3000 + i)

set_option maxRecDepth 1000000 in
/-- `TestExponentiallyDecayingReservoir_longPeriod`, at the end -/
example : ((snap long3 54200000).size, between (snap long3 54200000).getValues 3000 4000) = (10, true) := by decide +kernel

set_option maxRecDepth 1000000 in
/-- `TestExponentiallyDecayingReservoir_longPeriod_fetchShouldResample`: 20 hours later -/
example : let s := snap long1 72100000
    s.getMax = .err 0 ∧ s.getMean .exact = .err (.fin 0) ∧ s.getMedian .exact = .ok (.fin 0) ∧ s.size = 0 := by decide +kernel

/-- `TestExponentiallyDecayingReservoir_spotLift`, `..._spotFall`, with one update a minute in place of ten and a tenth of the size: two hours of `v`, ten
minutes of `w` -/
def spot (v w : Int) : EDR :=
  EDR.run A (EDR.run A (EDR.new 100 (.fin (15 / 1000)) 0 0) (updates 0 60000 0 120 fun _ => v)) (updates 7200000 60000 2000 10 fun _ => w)

set_option maxRecDepth 1000000 in
/-- `TestExponentiallyDecayingReservoir_spotLift` -/
example : (snap (spot 177 9999) 7800000).getMedian .exact = .ok (.fin 9999) := by decide +kernel

set_option maxRecDepth 1000000 in
/-- `TestExponentiallyDecayingReservoir_spotFall` -/
example : (snap (spot 9998 178) 7800000).getMedian .exact = .ok (.fin 178) := by decide +kernel

/-- `TestExponentiallyDecayingReservoir_quantiliesShouldBeBasedOnWeights` -/
def byWeight : EDR :=
  EDR.run A (EDR.run A (EDR.new 1000 (.fin (15 / 1000)) 0 0) (updates 0 0 0 40 fun _ => 177)) (updates 120000 0 2000 10 fun _ => 9999)

set_option maxRecDepth 1000000 in
/-- `TestExponentiallyDecayingReservoir_quantiliesShouldBeBasedOnWeights` -/
example : (snap byWeight 120000).getMedian .exact = .ok (.fin 9999) ∧ (snap byWeight 120000).get75thPercentile .exact = .ok (.fin 9999) := by decide +kernel

/-- impl/bucket_reservoir_test.go `TestBucketReservoir`: two values at 5 s, counted at once; the snapshot is taken at 7 s -/
def bucketSnap : Option BucketSnapshot :=
  let r := (((BucketReservoir.new 5000000000 10 0).updateN 5000 10).state.updateN 5000 20).state
  r.getSnapshot ((BucketCounter.new 5000000000 10 0 true).updateN 5000 2).state ⟨7000, 7000, 7000, 0, 0⟩

/-- impl/bucket_reservoir_test.go `TestBucketReservoir` -/
example : bucketSnap = some ⟨2, 30⟩ ∧ (⟨2, 30⟩ : BucketSnapshot).getMean .binary64 = .ok (.fin 15) := by decide +kernel
example : BucketSnapshot.getMax = .err (-10001) ∧ BucketSnapshot.getMin = .err (-10001) := ⟨rfl, rfl⟩
example : BucketSnapshot.get75thPercentile .binary64 = .err (.fin (-10001)) := by decide +kernel

/-- impl/default_compass_test.go `TestDefaultCompass_UpdateWithError`: the environment of a call when the clock says `t` ms -/
def at_ (t : Int) : Compass.Env AnyReservoir.Env := ⟨t * 1000000, t, ⟨⟨0, 0, 0, .fin 1⟩, t, []⟩, t, t, t, t, t⟩

/-- The three calls of the test. -/
def three (t : Int) : List Compass.TCall :=
  [.call (at_ t) (.updateWithError 10000000 true "" "hit"), .call (at_ t) (.updateWithError 15000000 true "" ""),
    .call (at_ t) (.updateWithError 20000000 false "error1" "")]

/-- `NewCompassWithType(metrics.BucketReservoirType, clock, 10, 60*time.Second, 10, 5)` -/
def compass0 : Compass AnyReservoir := Compass.newWithType A bucketReservoirType 10 60000000000 10 5 ⟨0, 0, 0⟩ ⟨0, 0, 0⟩

/-- after the first three calls, and after the next three a minute later -/
def compass1 : Compass AnyReservoir := Compass.trun .binary64 A compass0 (three 0)
def compass2 : Compass AnyReservoir := Compass.trun .binary64 A compass1 (three 60000)

/-- One entry of a query. -/
def entry (q : Option (GoMap Int Int)) (k : Int) : Option Int := (q.getD []).get? k

/-- One entry of a query of a counter in a map. -/
def labelEntry (m : GoMap String BucketCounter) (l : String) (t k : Int) : Option Int :=
  match m.get? l with
  | none => none
  | some b => entry (b.getBucketCounts t) k

/-- The mean of a bucket snapshot. -/
def meanOf : Option Compass.AnySnapshot → Option (Ret F64)
  | some (.bucket b) => some (b.getMean .binary64)
  | _ => none

/-- impl/default_compass_test.go `TestDefaultCompass_UpdateWithError`, first half, at one minute -/
example : compass1.getCount = 3 ∧ compass1.getSuccessCount = 2 ∧ labelEntry compass1.getErrorCodeCounts "error1" 60000 0 = some 1 ∧
    labelEntry compass1.getAddonCounts "hit" 60000 0 = some 1 ∧
    meanOf (compass1.getSnapshot A ⟨0, 0, [], ⟨60000, 60000, 60000, 0, 0⟩⟩) = some (.ok (.fin 15000000)) := by decide +kernel

/-- impl/default_compass_test.go `TestDefaultCompass_UpdateWithError`, second half, at two minutes -/
example : compass2.getCount = 6 ∧ compass2.getSuccessCount = 4 ∧ entry (compass2.getInstantCount 120000) 60000 = some 3 ∧
    labelEntry compass2.getErrorCodeCounts "error1" 120000 60000 = some 1 ∧ labelEntry compass2.getAddonCounts "hit" 120000 0 = some 1 ∧
    entry (compass2.successCount.getBucketCounts 120000) 60000 = some 2 := by decide +kernel

/-- impl/default_compass_test.go `TestDefaultCompass_Update` (the reservoir plays no role) -/
example : compass0.getCount = 0 ∧ (Compass.trun .binary64 A compass0 [.call (at_ 50000000) (.update 1000000000)]).getCount = 1 := by decide +kernel

/-- impl/default_compass_test.go `TestDefaultCompass_Rate` -/
example : compass0.getMeanRate .binary64 0 = .fin 0 ∧ compass0.getOneMinuteRate .binary64 0 = .fin 0 ∧ compass0.getFiveMinuteRate .binary64 0 = .fin 0 ∧
    compass0.getFifteenMinuteRate .binary64 0 = .fin 0 := by decide +kernel

end GoMetrics.GoTests
