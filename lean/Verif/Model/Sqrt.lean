import Verif.Model.Float
/-! # `math.Sqrt`

The standard library's `math.Sqrt` is the square root IEEE-754 asks for (an instruction of the processor, or a digit-by-digit computation in software). It is called in
impl/uniform_snapshot.go:119 and impl/weighted_snapshot.go:165; where the models of these lines have a function as a parameter, this is the function. -/
namespace GoMetrics

/-- The largest number whose square is at most `n < 4^k`, digit by digit: `math.Sqrt`, called in impl/uniform_snapshot.go:119 and impl/weighted_snapshot.go:165. -/
def rootDigits : Nat → Nat → Nat
  | 0, _ => 0
  | k + 1, n =>
    let r := 2 * rootDigits k (n / 4)
    if (r + 1) * (r + 1) ≤ n then r + 1 else r

/-- How many binary places of the root of `x` are computed: enough for 61 significant digits (as rootDigits: impl/uniform_snapshot.go:119). -/
def rootPlaces (x : ℚ) : Int := 60 - Int.log 2 x / 2

/-- 61 digits of the square root of a positive number, and another digit 1 if there is a remainder (as rootDigits: impl/uniform_snapshot.go:119). -/
def rootSticky (x : ℚ) : ℚ :=
  let X := x * 2 ^ (2 * rootPlaces x)
  let s : Nat := rootDigits 61 ⌊X⌋.toNat
  (if (s : ℚ) * s = X then (s : ℚ) else s + 1 / 2) / 2 ^ rootPlaces x

/-- `math.Sqrt`, called in impl/uniform_snapshot.go:119 and impl/weighted_snapshot.go:165. -/
def F64.sqrt : F64 → F64
  | .nan => .nan
  | .inf false => .inf false
  | .inf true => .nan
  | .fin x => if x < 0 then .nan else if x = 0 then .fin 0 else Rounding.binary64.rnd (rootSticky x)

end GoMetrics
