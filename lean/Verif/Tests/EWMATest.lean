import Verif.Model.EWMA
import Verif.Model.Clock
/-! # The tests of ewma_test.go, replayed on the model

These are tests, not proofs of properties: they compare the hand-written model with values the authors of the code checked it against. The kernel evaluates
the model in IEEE-754 binary64; `math.Exp` enters only through the three decay constants (ewma.go:36-38), given here as float64 values. -/
namespace GoMetrics.GoTests

/-- ewma.go:36 `m1Alpha` as a float64 -/
def m1Alpha : F64 := .fin (720175888963139/9007199254740992)
/-- ewma.go:37 `m5Alpha` as a float64 -/
def m5Alpha : F64 := .fin (148875908819879/9007199254740992)
/-- ewma.go:38 `m15Alpha` as a float64 -/
def m15Alpha : F64 := .fin (24950626460723/4503599627370496)

/-- ewma_test.go:104-106 `equals` -/
def near (expected : ℚ) (actual : F64) (delta : ℚ) : Bool :=
  match actual with
  | .fin a => decide (|a - expected| < delta)
  | _ => false

/-- ewma_test.go:108-112 `elapseMinute` -/
def elapseMinute (e : EWMA) : EWMA := (fun e => EWMA.tick .binary64 e)^[12] e

/-- ewma_test.go:48-52: after every minute the rate is near the expected one (given in units of 10^-8). -/
def check : List Int → EWMA → Bool
  | [], _ => true
  | x :: xs, e => near (x / 100000000) ((elapseMinute e).getRate .binary64 1000000000) (1 / 1000000) && check xs (elapseMinute e)

/-- ewma_test.go:31-53, 55-77, 79-101 -/
def scenario (alpha : F64) (expected : List Int) : Bool :=
  let e := ((EWMA.new alpha 5000000000).update 3).tick .binary64
  e.initialized && near (6 / 10) (e.getRate .binary64 1000000000) (1 / 1000000) && check expected e

/-- ewma_test.go `TestEWMA_Tick_OneMinute` -/
example : scenario m1Alpha
    [22072766, 8120117, 2987224, 1098938, 404277, 148725, 54713, 20128, 7405, 2724, 1002, 369, 136, 50, 18] = true := by decide +kernel

/-- ewma_test.go `TestEWMA_Tick_FiveMinute` -/
example : scenario m5Alpha
    [49123845, 40219203, 32928698, 26959738, 22072766, 18071653, 14795818, 12113791, 9917933, 8120117, 6648190, 5443077, 4456415, 3648604, 2987224] = true := by decide +kernel

/-- ewma_test.go `TestEWMA_Tick_FifteenMinute` -/
example : scenario m15Alpha
    [56130419, 52510399, 49123845, 45955700, 42991879, 40219203, 37625345, 35198773, 32928698, 30805027, 28818318, 26959738, 25221023, 23594443, 22072766] = true := by decide +kernel

end GoMetrics.GoTests
