import Verif.Spec.EDR
/-! # Specification for C89: the same history with other random numbers -/
namespace GoMetrics.EDR

/-- The same calls at the same times, with the draws `us` instead of those of the history. -/
def redraw : List Op → List ℚ → List Op
  | .updateN env v :: h, u :: us => .updateN { env with u := .fin u } v :: redraw h us
  | .getSnapshot tick t :: h, us => .getSnapshot tick t :: redraw h us
  | h, [] => h
  | [], _ => []

/-- The times of the updates of a history, in seconds. -/
def seconds : List Op → List Int
  | [] => []
  | .updateN env _ :: h => env.time.tdiv 1000 :: seconds h
  | .getSnapshot _ _ :: h => seconds h

/-- The values in the reservoir (created with the given parameters) after a history. -/
def holding (A : Arith) (size : Int) (alpha : F64) (time tick : Int) (h : List Op) : List Int :=
  ((run A (new size alpha time tick) h).getValues.map (·.value))

/-- No ties: with the draws `us`, no two updates get the same priority. -/
def NoTies (b : ℚ) (h : List Op) (us : List ℚ) : Prop := ((List.zipWith (fun s u => b ^ s / u) (seconds h) us)).Nodup

end GoMetrics.EDR
