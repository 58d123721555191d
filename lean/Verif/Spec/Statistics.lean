import Mathlib.Data.Rat.Cast.Order
import Mathlib.Analysis.SpecialFunctions.Pow.Real
import Verif.Model.Float
/-! # Specification of statistics: mean, variance and percentiles of exact numbers -/
namespace GoMetrics
namespace Spec

/-- The mean of a non-empty list of integers. -/
def mean (vs : List Int) : ℚ := (vs.sum : ℚ) / vs.length

/-- The (sample) variance of a list of at least two integers. -/
def variance (vs : List Int) : ℚ := (vs.map fun v : Int => ((v : ℚ) - mean vs) ^ 2).sum / ((vs.length : ℚ) - 1)

/-- The total of the weights of a list of (value, weight). -/
def totalWeight (l : List (Int × ℚ)) : ℚ := (l.map Prod.snd).sum

/-- The weighted mean of a list of (value, weight). -/
def weightedMean (l : List (Int × ℚ)) : ℚ := (l.map fun p => (p.1 : ℚ) * p.2).sum / totalWeight l

/-- The weighted (population) variance of a list of (value, weight). -/
def weightedVariance (l : List (Int × ℚ)) : ℚ := (l.map fun p => ((p.1 : ℚ) - weightedMean l) ^ 2 * p.2).sum / totalWeight l

/-- The value at position `p` of a sorted list of integers, whose elements are at the positions 1, 2, ..., `n`: between two positions, linear interpolation; before the
first and after the last, the first and the last. -/
def interpolated (sorted : List Int) (p : ℚ) : ℚ :=
  if p < 1 then sorted.headD 0
  else if sorted.length ≤ p then sorted.getLastD 0
  else sorted.getD (⌊p⌋.toNat - 1) 0 + (p - ⌊p⌋) * (sorted.getD ⌊p⌋.toNat 0 - sorted.getD (⌊p⌋.toNat - 1) 0)

/-- What is assumed of `math.Sqrt`: for every number that is a `float64` and not negative, the result is finite and off by at most 1 ulp (`2⁻⁵²`, relatively).
(IEEE-754 asks for more; Model/Sqrt.lean has a function that does what it asks for.) -/
def GoodSqrt (sqrt : F64 → F64) : Prop :=
  ∀ x : ℚ, Rounding.binary64.rnd x = .fin x → 0 ≤ x → ∃ y : ℚ, sqrt (.fin x) = .fin y ∧ |(y : ℝ) - Real.sqrt x| ≤ 2 ^ (-52 : Int) * Real.sqrt x

end Spec
end GoMetrics
