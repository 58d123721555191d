import Verif.Model.WeightedSnapshot
import Verif.Model.Clock
import Verif.Model.UniformReservoir
/-! # The tests of the snapshots and of the uniform reservoir, replayed on the model

impl/uniform_snapshot_test.go, impl/weighted_snapshot_test.go, impl/uniform_reservoir_test.go. These are tests, not proofs of properties. Arithmetic is
IEEE-754 binary64; `math.Sqrt` of a number of the tests is given as the float64 it returns. -/
namespace GoMetrics.GoTests

/-- impl/uniform_snapshot_test.go `equals` of what a getter returns without error -/
def okNear (expected : ℚ) (r : Ret F64) (delta : ℚ) : Bool :=
  match r with
  | .ok v => deltaCompareFloat64 .binary64 (Rounding.binary64.rnd expected) v (Rounding.binary64.rnd delta)
  | _ => false

/-- an error is returned -/
def isErr {α : Type} : Ret α → Bool
  | .err _ => true
  | _ => false

/-- impl/uniform_snapshot_test.go `TestNewUniformSnapshot` -/
example : (UniformSnapshot.new []).size = 0 ∧ (UniformSnapshot.new [4, 1, 2, 3]).getValues = [1, 2, 3, 4] := by decide +kernel

/-- impl/uniform_snapshot_test.go `TestUniformSnapshot`: a square root that knows what it is asked for, 2.5 -/
def sqrtOfTest (x : F64) : F64 := if x = .fin (5 / 2) then .fin (7120816245988179/4503599627370496) else .nan

/-- impl/uniform_snapshot_test.go `TestUniformSnapshot` -/
example : let s := UniformSnapshot.new [5, 1, 2, 3, 4]
    (okNear 1 (s.getValue .binary64 (.fin 0)) (1 / 10) && okNear 5 (s.getValue .binary64 (.fin 1)) (1 / 10) &&
      isErr (s.getValue .binary64 .nan) && isErr (s.getValue .binary64 (Rounding.binary64.rnd (-1 / 100000))) &&
      isErr (s.getValue .binary64 (Rounding.binary64.rnd (10000001 / 10000000))) &&
      okNear 3 (s.getMedian .binary64) (1 / 10000) && okNear (45 / 10) (s.get75thPercentile .binary64) (1 / 10000) &&
      okNear 5 (s.get95thPercentile .binary64) (1 / 1000) && okNear 5 (s.get98thPercentile .binary64) (1 / 1000) &&
      okNear 5 (s.get99thPercentile .binary64) (1 / 1000) && okNear 5 (s.get999thPercentile .binary64) (1 / 1000) &&
      okNear (15811 / 10000) (.ok (s.getStdDev .binary64 sqrtOfTest)) (1 / 1000)) = true := by decide +kernel

/-- impl/uniform_snapshot_test.go `TestUniformSnapshot_GetValue` -/
example : (UniformSnapshot.new []).getMin = .ok 0 ∧ (UniformSnapshot.new []).getMax = .ok 0 := by decide +kernel

/-- impl/weighted_snapshot_test.go `newWeightSnapshotWithValues` for the values 5, 1, 2, 3, 4 with the weights 1, 2, 3, 2, 2 -/
def weighted : WeightedSnapshot :=
  WeightedSnapshot.new .binary64 [⟨.fin 0, 5, .fin 1⟩, ⟨.fin 0, 1, .fin 2⟩, ⟨.fin 0, 2, .fin 3⟩, ⟨.fin 0, 3, .fin 2⟩, ⟨.fin 0, 4, .fin 2⟩]
    [⟨.fin 0, 1, .fin 2⟩, ⟨.fin 0, 2, .fin 3⟩, ⟨.fin 0, 3, .fin 2⟩, ⟨.fin 0, 4, .fin 2⟩, ⟨.fin 0, 5, .fin 1⟩]

/-- impl/weighted_snapshot_test.go `TestWeightedSample_Quantile` -/
example : weighted.getValues = [1, 2, 3, 4, 5] ∧ weighted.getMin = .ok 1 ∧ weighted.getMax = .ok 5 ∧
    (okNear 1 (weighted.getValue .binary64 (.fin 0)) (1 / 10) && okNear 5 (weighted.getValue .binary64 (.fin 1)) (1 / 10) &&
      isErr (weighted.getValue .binary64 .nan) && isErr (weighted.getValue .binary64 (Rounding.binary64.rnd (1000000001 / 1000000000))) &&
      isErr (weighted.getValue .binary64 (Rounding.binary64.rnd (-1 / 10000000))) &&
      okNear 3 (weighted.getMedian .binary64) (1 / 10) && okNear 4 (weighted.get75thPercentile .binary64) (1 / 10) &&
      okNear 5 (weighted.get95thPercentile .binary64) (1 / 10) && okNear 5 (weighted.get98thPercentile .binary64) (1 / 10) &&
      okNear 5 (weighted.get99thPercentile .binary64) (1 / 10) && okNear 5 (weighted.get999thPercentile .binary64) (1 / 10) &&
      okNear (27 / 10) (weighted.getMean .binary64) (1 / 10)) = true := by decide +kernel

/-- impl/weighted_snapshot_test.go `TestWeightedSample_Emty` -/
example : let s := WeightedSnapshot.new .binary64 [] []
    s.getMin = .err 0 ∧ s.getMax = .err 0 ∧ s.getMean .binary64 = .err (.fin 0) ∧ s.getStdDev .binary64 sqrtOfTest = .ok (.fin 0) ∧
    (WeightedSnapshot.new .binary64 [⟨.fin 0, 1, .fin 1⟩] [⟨.fin 0, 1, .fin 1⟩]).getStdDev .binary64 sqrtOfTest = .ok (.fin 0) := by decide +kernel

set_option maxRecDepth 100000 in
/-- impl/uniform_reservoir_test.go `TestNewUniformReservoir100OutOf1000`, with some random words -/
example : let r := (UniformReservoir.new 100).run ((List.range 1000).map fun i => ((i : Int), [((i : Int) * 7919 + 104729) * 1299709 % 2 ^ 63]))
    r.size = 100 ∧ r.getSnapshot.size = 100 ∧ (r.getSnapshot.getValues.all fun v => decide (0 ≤ v ∧ v < 1000)) = true := by decide +kernel

end GoMetrics.GoTests
