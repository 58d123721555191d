import Verif.Model.EWMA
/-! # The three standard moving averages (ewma.go:26-38, 100-110) -/
namespace GoMetrics
namespace EWMA

/-- ewma.go:35-37: `1 - math.Exp(-ewmaInterval/secondPerMinutes/minutes)` with the constants of ewma.go:27-31. The argument of `math.Exp` is a constant
expression: it is computed exactly and rounded once. `exp` is `math.Exp`. -/
def standardAlpha (R : Rounding) (exp : F64 → F64) (minutes : Int) : F64 :=
  F64.sub R (.fin 1) (exp (R.rnd (-5 / 60 / minutes)))

/-- ewma.go:100-102 `NewOneMinuteEWMA` with `ewmaInterval*time.Second` in nanoseconds. -/
def newOneMinute (R : Rounding) (exp : F64 → F64) : EWMA := new (standardAlpha R exp 1) 5000000000
/-- ewma.go:104-106 `NewFiveMinutesEWMA`. -/
def newFiveMinutes (R : Rounding) (exp : F64 → F64) : EWMA := new (standardAlpha R exp 5) 5000000000
/-- ewma.go:108-110 `NewFifteenMinutesEWMA`. -/
def newFifteenMinutes (R : Rounding) (exp : F64 → F64) : EWMA := new (standardAlpha R exp 15) 5000000000

end EWMA
end GoMetrics
