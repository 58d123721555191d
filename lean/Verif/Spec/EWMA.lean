import Verif.Model.EWMA
import Mathlib.Algebra.BigOperators.Group.Finset.Basic
/-! # Specification vocabulary for C19–C22 -/
namespace GoMetrics
namespace Spec

/-- The counts a history of calls hands to the average, in order: each `Tick` takes the (int64) sum of the updates since the
previous `Tick`, each `TickN c` takes `c`. -/
def tickCounts : Int → List EWMA.Op → List Int
  | _, [] => []
  | acc, .update n :: rest => tickCounts (acc + n) rest
  | acc, .tick :: rest => i64 acc :: tickCounts 0 rest
  | acc, .tickN c :: rest => c :: tickCounts acc rest

/-- The exponentially weighted average of `c0 :: cs` events per `I` nanoseconds: the first sample seeds the average and
decays, sample `k` after it weighs `a * (1 - a) ^ (number of later samples)`. -/
def average (a : ℚ) (I : Int) (c0 : Int) (cs : List Int) : ℚ :=
  (1 - a) ^ cs.length * (c0 / I) +
    ∑ k ∈ Finset.range cs.length, a * (1 - a) ^ (cs.length - 1 - k) * ((cs.getD k 0 : Int) / I)

end Spec
end GoMetrics
