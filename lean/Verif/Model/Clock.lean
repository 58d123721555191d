import Verif.Model.GoBasics
import Verif.Model.Float
/-! # Clocks (clock.go, impl/manual_clock.go) and the float comparison (compare.go) -/
namespace GoMetrics

/-- `int64(time.Millisecond)` -/
def nanosPerMilli : Int := 1000000

/-- impl/manual_clock.go:27-30 `ManualClock` (its mutex is never used; the zero value is a clock at 0) -/
structure ManualClock where
  tickInNanos : Int
  deriving DecidableEq

namespace ManualClock

/-- impl/manual_clock.go:32-34 `GetTick`. The read is not atomic in the Go sense; on 64-bit platforms it is one load. -/
def getTick (c : ManualClock) : Int := c.tickInNanos
/-- impl/manual_clock.go:36-38 `GetTime` -/
def getTime (c : ManualClock) : Int := c.tickInNanos.tdiv nanosPerMilli
/-- impl/manual_clock.go:40-42 `Add`: one atomic add that wraps around -/
def add (c : ManualClock) (duration : Int) : ManualClock := ⟨i64 (c.tickInNanos + duration)⟩

/-- The calls. Each is one atomic access, so an execution of several goroutines is a sequence of these. -/
inductive Op where
  | getTick
  | getTime
  | add (duration : Int)
  deriving DecidableEq

/-- One call: the clock it leaves and what it returns. -/
def step (c : ManualClock) : Op → ManualClock × Option Int
  | .getTick => (c, some c.getTick)
  | .getTime => (c, some c.getTime)
  | .add d => (c.add d, none)

/-- A sequence of calls: the final clock and the values returned, in order. -/
def run (c : ManualClock) : List Op → ManualClock × List Int
  | [] => (c, [])
  | o :: h => ((run (c.step o).1 h).1, (c.step o).2.toList ++ (run (c.step o).1 h).2)

end ManualClock

/-- clock.go:41-44 `UserTimeClock` -/
structure UserTimeClock where
  startNanoTime : Int

namespace UserTimeClock

/-- clock.go:46-48 `GetTick`; `now` is what `time.Now().UnixNano()` returns -/
def getTick (c : UserTimeClock) (now : Int) : Int := i64 (now - c.startNanoTime)
/-- clock.go:50-52 `GetTime` -/
def getTime (_c : UserTimeClock) (now : Int) : Int := now.tdiv nanosPerMilli

end UserTimeClock

/-- compare.go:3-8 `DeltaCompareFloat64` -/
def deltaCompareFloat64 (R : Rounding) (expected actual delta : F64) : Bool :=
  if F64.lt actual expected then decide (F64.le (F64.sub R expected actual) delta)
  else decide (F64.le (F64.sub R actual expected) delta)

end GoMetrics
