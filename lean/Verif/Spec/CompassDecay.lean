import Verif.Spec.CompassEstimate
import Verif.Spec.EDRFloat
/-! # Specification for C120: clocks that go on as clocks do -/
namespace GoMetrics.Spec
open Compass

/-- What the two clocks show from the creation of a compass (`time` in milliseconds, `tick` in nanoseconds) to the end of the calls `h`: the numbers fit, time does not go back, there is no pause of
more than ten hours, the clocks agree to a second, and all is over after `hours` hours. -/
structure Steady (time tick : Int) (h : List TCall) (hours : Nat) : Prop where
  start : InI64 time
  fits : ∀ t ∈ EDR.readings (sampling h), InI64 t
  over : ∀ τ ∈ tick :: EDR.ticks (sampling h), InI64 (τ + 3600000000000) ∧ τ ≤ tick + hours * 3600000000000
  pauses : (time :: EDR.readings (sampling h)).IsChain fun s t => s ≤ t ∧ t ≤ s + 36000000
  agree : EDR.Agree tick time (sampling h)

/-- The random numbers the recording calls get are in [0, 1). -/
def Drawn (h : List TCall) : Prop := ∀ u ∈ EDR.draws (sampling h), EDR.IsDraw u

/-- What was recorded: for each recording call the second in which it was made and the duration. -/
def measured (h : List TCall) : List EDR.Rec := EDR.recs (sampling h)

/-- One of the measurements was made in the last eleven hours before `time`. -/
def HasRecent (time : Int) (l : List EDR.Rec) : Prop := ∃ e ∈ l, time.tdiv 1000 - e.ts ≤ 39600

/-- The first hour of a compass, by its clock of ticks; the other clock is not more than eleven hours off. -/
structure FirstHour (time tick : Int) (h : List TCall) : Prop where
  start : InI64 time
  ends : InI64 (tick + 3600000000000)
  fits : ∀ t ∈ EDR.readings (sampling h), InI64 t
  within : ∀ τ ∈ EDR.ticks (sampling h), τ < tick + 3600000000000
  off : ∀ e ∈ measured h, |e.ts - time.tdiv 1000| ≤ 39600

end GoMetrics.Spec
