import Verif.Spec.CompassType
import Verif.Spec.EDRDecay
/-! # Specification for C118: the same calls of a compass with other random numbers -/
namespace GoMetrics.Spec
open Compass

/-- The durations the calls record, in order. -/
def durations : List TCall → List Int
  | [] => []
  | .call _ op :: h => match op.duration? with
    | some d => d :: durations h
    | none => durations h
  | .snapshot _ :: h => durations h

/-- The same calls at the same times; what a uniform reservoir sees of the random source is, for each recording call, the next entry of `ws`. -/
def reword : List TCall → List (List Int) → List TCall
  | [], _ => []
  | .call env op :: h, ws => match op.duration? with
    | some _ => .call { env with x := { env.x with uniform := ws.headD [] } } op :: reword h ws.tail
    | none => .call env op :: reword h ws
  | .snapshot env :: h, ws => .snapshot env :: reword h ws

/-- The same calls at the same times; the random number a decaying reservoir gets is, for each recording call, the next of `us`. -/
def redrawn : List TCall → List ℚ → List TCall
  | [], _ => []
  | .call env op :: h, us => match op.duration? with
    | some _ => .call { env with x := { env.x with edr := { env.x.edr with u := .fin (us.headD 0) } } } op :: redrawn h us.tail
    | none => .call env op :: redrawn h us
  | .snapshot env :: h, us => .snapshot env :: redrawn h us

/-- What a decaying reservoir sees of the calls. -/
def sampling : List TCall → List EDR.Op
  | [] => []
  | .call env op :: h => match op.duration? with
    | some d => .updateN env.x.edr d :: sampling h
    | none => sampling h
  | .snapshot env :: h => .getSnapshot env.tick env.scaleTime :: sampling h

/-- What `GetValues()` of a snapshot returns (nothing if there is no snapshot, and nothing useful for a bucket snapshot). -/
def valuesIn : Option AnySnapshot → List Int
  | some (.weighted s) => s.getValues
  | some (.uniform s) => s.getValues
  | _ => []

end GoMetrics.Spec
