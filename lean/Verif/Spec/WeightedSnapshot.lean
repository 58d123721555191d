import Verif.Model.WeightedSnapshot
import Verif.Proofs.EWMAFloat
/-! # Specification of weighted quantiles

The weights, and the positions a one-sided binary search looks at.

A binary search in [0, n) whose every answer is "further right" looks at n/2, then at the middle of what is right of it, and so on. -/
namespace GoMetrics

/-- The positions looked at from `i` on (`fuel` is any number at least `n - i`). -/
def probesFrom (n : Nat) : Nat → Nat → List Nat
  | 0, _ => []
  | fuel + 1, i => if i < n then (i + n) / 2 :: probesFrom n fuel ((i + n) / 2 + 1) else []

/-- The positions looked at. -/
def probes (n : Nat) : List Nat := probesFrom n n 0

namespace WeightedSnapshot

/-- Weights a float64 can hold, positive. -/
def Positive (R : Rounding) (samples : List WeightedSample) : Prop :=
  ∀ s ∈ samples, ∃ w : ℚ, s.weight = .fin w ∧ 0 < w ∧ R.Rep w

/-- The rational weight of a sample. -/
def wt (s : WeightedSample) : ℚ := match s.weight with | .fin q => q | _ => 0

/-- The fraction of the total weight before position `k`. -/
def before (cp : List WeightedSample) (k : Nat) : ℚ := ((cp.take k).map wt).sum / (cp.map wt).sum

end WeightedSnapshot

example : probes 4 = [2, 3] ∧ probes 10 = [5, 8, 9] := by decide

end GoMetrics
