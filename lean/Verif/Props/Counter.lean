import Verif.Model.Counter
import Mathlib.Algebra.BigOperators.Group.List.Basic
/-! # C01 — Counter -/
namespace GoMetrics

/-- Specification: what each counter call adds (counter.go:24-46). -/
def Counter.Op.delta : Counter.Op → Int
  | .inc => 1
  | .incN n => n
  | .dec => -1
  | .decN n => -n

private theorem Counter.step_count (c : Counter) (op : Counter.Op) :
    (c.step op).count = i64 (c.count + op.delta) := by
  cases op <;> simp [Counter.step, Counter.inc, Counter.incN, Counter.dec, Counter.decN,
    Counter.Op.delta, i64_add_right]

/-- **C01.** After any sequence of calls the count is the two's-complement sum of all the deltas. -/
theorem C01_counter_sum (ops : List Counter.Op) :
    (ops.foldl Counter.step Counter.new).getCount = i64 (ops.map Counter.Op.delta).sum := by
  suffices h : ∀ c : Counter, InI64 c.count →
      (ops.foldl Counter.step c).getCount = i64 (c.count + (ops.map Counter.Op.delta).sum) by
    simpa [Counter.new] using h Counter.new (by decide)
  induction ops with
  | nil => intro c hc; simp [Counter.getCount, i64_of_in hc]
  | cons op ops ih =>
    intro c _
    rw [List.foldl_cons, ih _ (by rw [Counter.step_count]; exact i64_in _), Counter.step_count,
      i64_add_left, List.map_cons, List.sum_cons, add_assoc]

/-- **C01.** If the true sum fits in an `int64` the count is exactly the true sum. -/
theorem C01_counter_exact (ops : List Counter.Op)
    (h : InI64 (ops.map Counter.Op.delta).sum) :
    (ops.foldl Counter.step Counter.new).getCount = (ops.map Counter.Op.delta).sum := by
  rw [C01_counter_sum, i64_of_in h]

/-- **C01.** Every order in which concurrent (atomic) calls take effect gives the same count. -/
theorem C01_counter_order_independent (ops ops' : List Counter.Op) (h : ops.Perm ops') :
    (ops.foldl Counter.step Counter.new).getCount =
      (ops'.foldl Counter.step Counter.new).getCount := by
  rw [C01_counter_sum, C01_counter_sum, (h.map Counter.Op.delta).sum_eq]

/-- Non-vacuity: a mixed history inside the range, and one that overflows. -/
example : InI64 (([.inc, .incN 40, .dec, .decN (-2)] : List Counter.Op).map Counter.Op.delta).sum ∧
    (([.inc, .incN 40, .dec, .decN (-2)] : List Counter.Op).foldl Counter.step Counter.new).getCount = 42 := by
  decide
example : (([.incN 9223372036854775807, .inc] : List Counter.Op).foldl
    Counter.step Counter.new).getCount = -9223372036854775808 := by decide
/-- `DecN(MinInt64)` behaves as subtraction modulo 2^64. -/
example : (([.decN (-9223372036854775808), .dec] : List Counter.Op).foldl
    Counter.step Counter.new).getCount = 9223372036854775807 := by decide

end GoMetrics
