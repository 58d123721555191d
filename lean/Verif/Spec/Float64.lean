import Mathlib.Data.Rat.Defs
import Mathlib.Algebra.Order.Field.Rat
import Mathlib.Algebra.Order.Group.Abs
/-! # Specification: the numbers of IEEE-754 binary64 -/
namespace GoMetrics
namespace Spec

/-- The finite numbers of IEEE-754 binary64: a significand of 53 bits times a power of two, from `2⁻¹⁰⁷⁴` (subnormal numbers) to `2⁹⁷¹`. -/
def IsFloat64 (x : ℚ) : Prop := ∃ m e : Int, |m| < 2 ^ 53 ∧ -1074 ≤ e ∧ e ≤ 971 ∧ x = m * 2 ^ e

end Spec
end GoMetrics
