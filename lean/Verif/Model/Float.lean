import Mathlib.Data.Rat.Floor
import Mathlib.Data.Int.Log
import Mathlib.Tactic.Linarith
import Mathlib.Tactic.Ring
import Mathlib.Tactic.Positivity
import Mathlib.Tactic.FieldSimp
import Mathlib.Tactic.NormNum
import Mathlib.Algebra.Order.Field.Power
/-!
# float64

Not modelled from a file of the repository but from IEEE-754 / the Go specification. A `float64` is NaN, an infinity or a
rational number; every operation computes the exact rational result and then rounds it with a rounding `R`. Theorems are
proved for every lawful rounding, or for exact arithmetic (`exact`); `binary64` (Proofs/Float.lean shows that it is lawful)
is round-to-nearest, ties-to-even, with subnormals and overflow. Simplifications: the sign of zero is not modelled
(division by zero is division by +0), and no fused multiply-add (Go fuses on some architectures, not on amd64: Model/Fused.lean).
-/
namespace GoMetrics

/-- A `float64` value. -/
inductive F64 where
  | nan
  | inf (neg : Bool)
  | fin (q : ℚ)
  deriving DecidableEq

/-- A rounding: what `float64` an exact rational becomes. -/
structure Rounding where
  rnd : ℚ → F64

namespace F64

/-- `-x`. -/
def neg : F64 → F64
  | nan => nan
  | inf s => inf (!s)
  | fin q => fin (-q)

/-- `x <= y` as Go evaluates it: false if either is NaN. -/
def le : F64 → F64 → Prop
  | nan, _ => False
  | _, nan => False
  | inf true, _ => True
  | _, inf false => True
  | inf false, _ => False
  | _, inf true => False
  | fin a, fin b => a ≤ b

/-- `x < y` as Go evaluates it. -/
def lt : F64 → F64 → Prop
  | nan, _ => False
  | _, nan => False
  | inf true, inf true => False
  | inf true, _ => True
  | inf false, _ => False
  | fin _, inf true => False
  | fin _, inf false => True
  | fin a, fin b => a < b

instance : DecidableRel le
  | nan, _ => isFalse (by simp [le])
  | inf true, nan => isFalse (by simp [le])
  | inf false, nan => isFalse (by simp [le])
  | fin _, nan => isFalse (by simp [le])
  | inf true, inf true => isTrue (by simp [le])
  | inf true, inf false => isTrue (by simp [le])
  | inf true, fin _ => isTrue (by simp [le])
  | inf false, inf true => isFalse (by simp [le])
  | inf false, inf false => isTrue (by simp [le])
  | inf false, fin _ => isFalse (by simp [le])
  | fin _, inf true => isFalse (by simp [le])
  | fin _, inf false => isTrue (by simp [le])
  | fin a, fin b => decidable_of_iff (a ≤ b) (by simp [le])

instance : DecidableRel lt
  | nan, _ => isFalse (by simp [lt])
  | inf true, nan => isFalse (by simp [lt])
  | inf false, nan => isFalse (by simp [lt])
  | fin _, nan => isFalse (by simp [lt])
  | inf true, inf true => isFalse (by simp [lt])
  | inf true, inf false => isTrue (by simp [lt])
  | inf true, fin _ => isTrue (by simp [lt])
  | inf false, inf true => isFalse (by simp [lt])
  | inf false, inf false => isFalse (by simp [lt])
  | inf false, fin _ => isFalse (by simp [lt])
  | fin _, inf true => isFalse (by simp [lt])
  | fin _, inf false => isTrue (by simp [lt])
  | fin a, fin b => decidable_of_iff (a < b) (by simp [lt])

/-- Neither NaN nor infinite. -/
def isFinite : F64 → Bool
  | fin _ => true
  | _ => false

/-- `x + y`. -/
def add (R : Rounding) : F64 → F64 → F64
  | nan, _ => nan
  | _, nan => nan
  | inf s, inf s' => if s = s' then inf s else nan
  | inf s, fin _ => inf s
  | fin _, inf s => inf s
  | fin a, fin b => R.rnd (a + b)

/-- `x - y`. -/
def sub (R : Rounding) (x y : F64) : F64 := add R x (neg y)

/-- `x * y`. -/
def mul (R : Rounding) : F64 → F64 → F64
  | nan, _ => nan
  | _, nan => nan
  | inf s, inf s' => inf (s != s')
  | inf s, fin b => if b = 0 then nan else inf (s != decide (b < 0))
  | fin a, inf s => if a = 0 then nan else inf (decide (a < 0) != s)
  | fin a, fin b => R.rnd (a * b)

/-- `x / y`; a zero divisor is `+0`. -/
def div (R : Rounding) : F64 → F64 → F64
  | nan, _ => nan
  | _, nan => nan
  | inf _, inf _ => nan
  | inf s, fin b => inf (s != decide (b < 0))
  | fin _, inf _ => fin 0
  | fin a, fin b => if b = 0 then (if a = 0 then nan else inf (decide (a < 0))) else R.rnd (a / b)

/-- `float64(n)` for an integer. -/
def ofInt (R : Rounding) (n : Int) : F64 := R.rnd n

end F64

/-- The laws a rounding must satisfy: 0 is exact, never NaN, symmetric, monotone, and rounding twice changes nothing. -/
structure Rounding.Lawful (R : Rounding) : Prop where
  zero : R.rnd 0 = .fin 0
  not_nan : ∀ q, R.rnd q ≠ .nan
  odd : ∀ q, R.rnd (-q) = (R.rnd q).neg
  mono : ∀ a b, a ≤ b → (R.rnd a).le (R.rnd b)
  idem : ∀ a b, R.rnd a = .fin b → R.rnd b = .fin b

/-- Exact arithmetic. -/
def Rounding.exact : Rounding := ⟨.fin⟩

/-- Round half to even. -/
def roundEven (x : ℚ) : Int :=
  let f := ⌊x⌋
  let d := x - f
  if d < 1 / 2 then f
  else if 1 / 2 < d then f + 1
  else if f % 2 = 0 then f else f + 1

/-- The exponent of the last place of a positive rational in IEEE-754 binary64 (normal numbers have 53 significant
bits, subnormals the fixed exponent -1074). -/
def ulpExp (x : ℚ) : Int := max (Int.log 2 x - 52) (-1074)

/-- The binary64 magnitude of a positive rational before the overflow check. -/
def roundPos (x : ℚ) : ℚ := roundEven (x / 2 ^ ulpExp x) * 2 ^ ulpExp x

/-- IEEE-754 binary64, round to nearest, ties to even. -/
def Rounding.binary64 : Rounding where
  rnd q :=
    if q = 0 then .fin 0
    else
      let r := roundPos |q|
      if 2 ^ (1024 : Int) ≤ r then .inf (decide (q < 0))
      else .fin (if q < 0 then -r else r)

end GoMetrics
