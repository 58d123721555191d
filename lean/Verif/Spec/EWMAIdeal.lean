import Verif.Model.Float
import Mathlib.Analysis.SpecialFunctions.Exp
import Mathlib.Analysis.Complex.Exponential
/-! # Specification vocabulary for C92: the ideal moving average, in real numbers -/
namespace GoMetrics
namespace Spec
open Finset

/-- The moving average with a time constant of `N` minutes of one count every 5 seconds, in events per nanosecond: a count that is `m` ticks (`5 m` seconds)
old has faded by the factor `exp (-(5 m / 60) / N)`. The first count seeds the average. -/
noncomputable def ideal (N : ℝ) (c0 : Int) (cs : List Int) : ℝ :=
  Real.exp (-(5 * cs.length / 60) / N) * (c0 / 5000000000) +
    ∑ k ∈ range cs.length, (1 - Real.exp (-(5 / 60) / N)) * (Real.exp (-(5 * (cs.length - 1 - k : ℕ) / 60) / N) * ((cs.getD k 0 : Int) / 5000000000))

/-- What is assumed of `math.Exp`: for every number that is a `float64` and between -1 and 0 the result is finite and off by at most 1 ulp (`2⁻⁵²`, relatively). -/
def GoodExp (exp : F64 → F64) : Prop :=
  ∀ x : ℚ, Rounding.binary64.rnd x = .fin x → -1 ≤ x → x ≤ 0 → ∃ y : ℚ, exp (.fin x) = .fin y ∧ |(y : ℝ) - Real.exp x| ≤ 2 ^ (-52 : Int) * Real.exp x

end Spec
end GoMetrics
