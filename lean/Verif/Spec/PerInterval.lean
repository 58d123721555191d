import Verif.Model.GoBasics
import Mathlib.Data.Finset.Card
import Mathlib.Data.Finset.Filter
/-! # Specification: what a map "interval start (ms) → number of events" has to contain -/
namespace GoMetrics.Spec

/-- `m` tells, for events at the times `times` (ms), how many there were in each interval of `I` seconds: an entry for every interval that starts between `s`
and `t`, has an event, and has fewer than `n` intervals with events after it - and no other entry. -/
def PerInterval (I : Int) (n : Nat) (s t : Int) (times : List Int) (m : GoMap Int Int) : Prop :=
  m.WF ∧ ∀ k v, m.get? k = some v ↔
    ∃ j, k = 1000 * I * j ∧ (∃ x ∈ times, x / (1000 * I) = j) ∧ ((times.map (· / (1000 * I))).toFinset.filter (j < ·)).card < n ∧ s ≤ k ∧ k ≤ t ∧
      v = i64 (times.countP fun x => x / (1000 * I) = j)

end GoMetrics.Spec
