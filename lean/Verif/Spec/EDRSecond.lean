import Verif.Spec.EDRDecay
import Verif.Spec.Estimate
/-! # Specification for C117: what the mean of a decaying reservoir is compared with -/
namespace GoMetrics.EDR

/-- What a getter returned is not a number that is less than `t` away from `x`. -/
def Off (r : Ret F64) (x t : ℚ) : Bool :=
  match r with
  | .ok (.fin m) => decide (t ≤ |m - x|)
  | _ => true

/-- A getter returned a number that is at most `x`. -/
def AtMost (r : Ret F64) (x : ℚ) : Bool :=
  match r with
  | .ok (.fin m) => decide (m ≤ x)
  | _ => false

/-- The mean of values in which a value counts `b` times as much as one a second older. -/
def timeMean (b : ℚ) (values seconds : List Int) : ℚ :=
  (List.zipWith (fun (v s : Int) => (v : ℚ) * b ^ s) values seconds).sum / (seconds.map fun s : Int => b ^ s).sum

/-- 0 and 0 in second 5, 1 in second 7: the last counts four times as much as each of the others. -/
example : timeMean 2 [0, 0, 1] [5, 5, 7] = 2 / 3 := by unfold timeMean; norm_num

end GoMetrics.EDR
