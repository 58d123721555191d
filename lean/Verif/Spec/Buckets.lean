import Mathlib.Data.Finset.Card
import Mathlib.Data.Finset.Filter
import Mathlib.Algebra.BigOperators.Group.List.Basic
/-!
# Specification of per-interval counting

Independent of the model: a history is a list of `(t, n)`: "amount `n` was recorded when the clock said `t`
milliseconds". `I` is the interval length in whole seconds.
-/
namespace GoMetrics.Spec

/-- Start (in seconds) of the interval of `I` seconds to which the clock reading `t` (ms) belongs; both
divisions truncate towards zero, as documented in impl/default_bucket_counter.go:149-150. For `t ≥ 0` it is
the interval containing `t`: theorem `C07_interval_contains`. -/
def intervalStart (I t : Int) : Int := (t.tdiv 1000).tdiv I * I

/-- The intervals the updates of a history are credited to: each to the latest interval seen so far, `m` being
the latest one before the history (`-1`: none yet). -/
def credited (I : Int) : Int → List (Int × Int) → List (Int × Int)
  | _, [] => []
  | m, (t, n) :: h =>
    (max m (intervalStart I t), n) :: credited I (max m (intervalStart I t)) h

/-- Total amount credited to interval `ts`. -/
def amount (l : List (Int × Int)) (ts : Int) : Int :=
  ((l.filter (fun e => e.1 = ts)).map Prod.snd).sum

/-- The distinct intervals later than `ts` that were credited something. -/
def laterIntervals (l : List (Int × Int)) (ts : Int) : Finset Int :=
  (l.map Prod.fst).toFinset.filter (fun x => ts < x)

/-- Interval `ts` must be reported by a query since `s` (ms) when the current interval is `now`, by a counter
that remembers `N` intervals: something was credited to it, fewer than `N` distinct later intervals were credited
anything, and it is in the queried range. -/
def Reported (l : List (Int × Int)) (N : Nat) (s now ts : Int) : Prop :=
  ts ∈ l.map Prod.fst ∧ 0 ≤ ts ∧ (laterIntervals l ts).card < N ∧ s ≤ 1000 * ts ∧ ts ≤ now

end GoMetrics.Spec
