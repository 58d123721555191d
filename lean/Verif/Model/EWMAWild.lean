import Verif.Model.EWMA
/-! # `EWMA.Tick` whose plain load of `uncounted` may return anything

ewma.go:62-90 as in Model/EWMA.lean, but nothing is assumed of what the loads of `uncounted` on lines 83 and 86, which are not atomic, return. -/
namespace GoMetrics
namespace EWMA

/-- One atomic step (ewma.go:62-90); `seen` is what a plain load of `uncounted` (lines 83, 86) returns. -/
def wildStep (R : Rounding) (s : Shared) (seen : Int) : PC → Shared × PC
  | .load => (s, .cas seen)
  | c => callStep R s () c

/-- `Update`, `Tick` and `TickN` (ewma.go:62-90) with such loads. -/
def wildConc (R : Rounding) : Machine Shared PC Op Int where
  call := (conc R).call
  step := wildStep R

end EWMA
end GoMetrics
