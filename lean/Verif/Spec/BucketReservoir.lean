import Verif.Model.CompassType
/-! # Specification of interval statistics: what was recorded in which interval -/
namespace GoMetrics.Spec

/-- Recorded durations, each with the time (ms) of its recording. -/
abbrev Events := List (Int × Int)

/-- Number of the interval of `I` seconds that contains time `t` (ms). -/
def slot (I t : Int) : Int := t / (1000 * I)

/-- Number of events in interval `j`. -/
def countIn (I j : Int) (l : Events) : Int := ((l.filter fun e => slot I e.1 = j).length : Nat)

/-- Sum of the durations in interval `j`. -/
def sumIn (I j : Int) (l : Events) : Int := ((l.filter fun e => slot I e.1 = j).map Prod.snd).sum

/-- Interval `j` is the one of time `t` or the one before it, and has events. -/
def Recent (I t j : Int) (l : Events) : Prop := (j = slot I t ∨ j = slot I t - 1) ∧ ∃ e ∈ l, slot I e.1 = j

/-- The recording calls of a compass history, as events: the clock reading with which the call was counted, and the duration. -/
def events {X : Type} (h : List (Compass.Env X × Compass.Op)) : Events := h.filterMap fun e =>
  match e.2 with
  | .update d => some (e.1.tTotal, d)
  | .updateWithError d _ _ _ => some (e.1.tTotal, d)
  | .readRate => none

end GoMetrics.Spec
