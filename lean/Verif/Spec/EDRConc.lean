import Verif.Model.EDRConc
import Verif.Spec.EDR
/-! # Specification of interleaved calls of a decaying reservoir -/
namespace GoMetrics
namespace EDRConc
open EDR

/-- The value an `UpdateN` call was given. -/
def Act.arg : Act → Option Int
  | .updateN v => some v
  | _ => none

/-- The value passed to the call, from start to end. -/
def PC.arg : PC → Option Int
  | .tick act => act.arg
  | .check act _ => act.arg
  | .reread act _ _ => act.arg
  | .cas act _ _ _ => act.arg
  | .lockScale act => act.arg
  | .time v => some v
  | .weigh v _ => some v
  | .lockRecord v _ _ _ _ _ => some v
  | .updated v _ _ _ => some v
  | .panicked v => some v
  | _ => none

/-- The update a call has completed. -/
def PC.completed : PC → Option Rec
  | .updated v ts u _ => some ⟨ts, rat u, v⟩
  | _ => none

/-- The updates completed so far. -/
def completed (p : Pool Shared PC) : List Rec := p.calls.filterMap PC.completed

/-- The update as the reservoir counts it: as if it had been made `slip` seconds later, `slip` being by how much the landmark was moved between the
reading of it for the weight and the insertion. -/
def PC.counted : PC → Option Rec
  | .updated v ts u slip => some ⟨ts + slip, rat u, v⟩
  | _ => none

/-- The updates completed so far, as the reservoir counts them. -/
def counted (p : Pool Shared PC) : List Rec := p.calls.filterMap PC.counted

/-- The readings of the clock's time supplied to the steps of a schedule, in order. -/
def times : List (Ev Act In) → List Int
  | [] => []
  | .spawn _ :: es => times es
  | .step _ x :: es => x.time :: times es

end EDRConc
end GoMetrics
