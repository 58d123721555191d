import Mathlib.Data.Rat.Cast.Order
import Mathlib.Data.Real.Basic
import Mathlib.Algebra.BigOperators.Group.List.Basic
import Mathlib.Tactic.NormNum
/-! # Specification: what a sample says about a population -/
namespace GoMetrics.Estimate

/-- The average of `f` over the members of a list, each member counting once. -/
def average {α : Type} (l : List α) (f : α → ℚ) : ℚ := (l.map f).sum / l.length

/-- The arithmetic mean of a list of values. -/
def mean (vs : List Int) : ℚ := average vs fun v => (v : ℚ)

/-- The (population) variance of a list of values. -/
def variance (vs : List Int) : ℚ := average vs fun v => ((v : ℚ) - mean vs) ^ 2

/-- The part of the values which satisfies a condition. -/
def share {α : Type} (l : List α) (P : α → Bool) : ℚ := (l.countP P : ℚ) / l.length

/-- Is `x` a `q`-quantile of the values, up to `δ`? At least the part `q - δ` of the values is at most `x`, and at most the part `q + δ` is below. -/
def IsQuantile (vs : List Int) (q δ x : ℚ) : Prop :=
  q - δ ≤ share vs (fun v : Int => decide ((v : ℚ) ≤ x)) ∧ share vs (fun v : Int => decide ((v : ℚ) < x)) ≤ q + δ

instance (vs : List Int) (q δ x : ℚ) : Decidable (IsQuantile vs q δ x) := by unfold IsQuantile; infer_instance

/-- 3 is a median of 1, 3, 4, 9; 9 is not, not even up to 1/5. -/
example : IsQuantile [1, 3, 4, 9] (1 / 2) 0 3 ∧ ¬ IsQuantile [1, 3, 4, 9] (1 / 2) (1 / 5) 9 := by
  constructor
  · unfold IsQuantile share; norm_num [List.countP_cons]
  · unfold IsQuantile share; norm_num [List.countP_cons]

end GoMetrics.Estimate
