import Verif.Model.EWMA
import Verif.Model.WeightedSnapshot
/-! # Fused multiply-add

"An implementation may combine multiple floating-point operations into a single fused operation, possibly across statements, and produce a result that differs
from the value obtained by executing and rounding the instructions individually" (Go specification, "Floating-point operators"): `x*y + z` may be computed
without rounding `x*y`. The compiler for amd64 does not do it unless asked to, those for arm64, ppc64, riscv64 and s390x do. The functions below are the
ones of the other models at the places where a product feeds an addition or subtraction, with a `Bool` per place (in a loop: per iteration) that says
whether it is fused. There are no other such places: the remaining products of the repository (ewma.go:97, impl/default_compass.go:100,
impl/exponentially_decaying_reservoir.go:128, :165, :177, impl/uniform_snapshot.go:45 in `int(pos)`) are not operands of an addition. -/
namespace GoMetrics

/-- How a product that is an operand of an addition is rounded: not at all if the two operations are fused. (`F64.add R z (F64.mul .exact x y)` is the fused
multiply-add of IEEE-754, also for infinities and NaNs.) -/
def Rounding.product (R : Rounding) (fused : Bool) : Rounding := if fused then .exact else R

namespace EWMA

/-- ewma.go:71-79: the new rate. The product of line 72 is an operand of the addition of line 73. -/
def newRateF (R : Rounding) (fused : Bool) (initialized : Bool) (alpha rate instant : F64) : F64 :=
  if initialized then F64.add R rate (F64.mul (R.product fused) alpha (F64.sub R instant rate)) else instant

/-- ewma.go:66-80 `TickN` -/
def tickNF (R : Rounding) (fused : Bool) (e : EWMA) (count : Int) : EWMA :=
  { e with rate := newRateF R fused e.initialized e.alpha e.rate (e.instantRate R count), initialized := true }

/-- ewma.go:82-90 `Tick`, undisturbed -/
def tickF (R : Rounding) (fused : Bool) (e : EWMA) : EWMA := ({ e with uncounted := 0 } : EWMA).tickNF R fused e.uncounted

/-- One API call (ewma.go:62-90). -/
def stepF (R : Rounding) (e : EWMA) : Bool × Op → EWMA
  | (_, .update n) => e.update n
  | (fused, .tick) => e.tickF R fused
  | (fused, .tickN c) => e.tickNF R fused c

/-- A history of API calls (ewma.go:62-90), each with the choice the code that runs it makes. -/
def runF (R : Rounding) (e : EWMA) (h : List (Bool × Op)) : EWMA := h.foldl (stepF R) e

end EWMA

namespace UniformSnapshot

/-- impl/uniform_snapshot.go:59 `pos - math.Floor(pos)`; `pos` is the product of line 45. `math.Floor` gets the rounded product. -/
def fractionF (R : Rounding) (fused : Bool) (u : UniformSnapshot) (quantile : F64) : F64 :=
  F64.sub R (F64.mul (R.product fused) quantile (F64.ofInt R (u.size + 1))) (u.position R quantile).floor

/-- impl/uniform_snapshot.go:35-60 `GetValue`; `frac`: the subtraction of line 59 is fused with the product of line 45; `sum`: the addition of line 59 is fused
with the product of line 59. -/
def getValueF (R : Rounding) (frac sum : Bool) (u : UniformSnapshot) (quantile : F64) : Ret F64 :=
  if badQuantile quantile then .err (.fin 0)
  else if u.size = 0 then .ok (.fin 0)
  else
    let i := truncInt (u.position R quantile)
    if i < 1 then
      match index u.values 0 with
      | none => .panic
      | some v => .ok (F64.ofInt R v)
    else if i ≥ u.size then
      match index u.values (u.size - 1) with
      | none => .panic
      | some v => .ok (F64.ofInt R v)
    else
      match index u.values (i - 1), index u.values i with
      | some lower, some upper =>
        .ok (F64.add R (F64.ofInt R lower) (F64.mul (R.product sum) (u.fractionF R frac quantile) (F64.ofInt R (i64 (upper - lower)))))
      | _, _ => .panic

/-- impl/uniform_snapshot.go:112-116; `fused k`: whether the `k`-th addition is fused with its product -/
def diffSumF (R : Rounding) (fused : Nat → Bool) (mean : F64) (values : List Int) : F64 :=
  values.zipIdx.foldl (fun s v => F64.add R s (F64.mul (R.product (fused v.2)) (F64.sub R (F64.ofInt R v.1) mean) (F64.sub R (F64.ofInt R v.1) mean))) (.fin 0)

/-- impl/uniform_snapshot.go:118 -/
def varianceF (R : Rounding) (fused : Nat → Bool) (u : UniformSnapshot) : F64 :=
  F64.div R (diffSumF R fused (u.getMean R) u.values) (F64.ofInt R (u.size - 1))

/-- impl/uniform_snapshot.go:105-120 `GetStdDev`; `math.Sqrt` is a parameter. -/
def getStdDevF (R : Rounding) (fused : Nat → Bool) (sqrt : F64 → F64) (u : UniformSnapshot) : F64 :=
  if u.size ≤ 1 then .fin 0 else sqrt (u.varianceF R fused)

end UniformSnapshot

namespace WeightedSnapshot

/-- impl/weighted_snapshot.go:137-140 -/
def weightedSumF (R : Rounding) (fused : Nat → Bool) (l : List (Int × F64)) : F64 :=
  l.zipIdx.foldl (fun s p => F64.add R s (F64.mul (R.product (fused p.2)) (F64.ofInt R p.1.1) p.1.2)) (.fin 0)

/-- impl/weighted_snapshot.go:131-142 `GetMean` -/
def getMeanF (R : Rounding) (fused : Nat → Bool) (w : WeightedSnapshot) : Ret F64 :=
  if w.values.length = 0 then .err (.fin 0) else .ok (weightedSumF R fused (w.values.zip w.normalizedWeights))

/-- impl/weighted_snapshot.go:161-164; only the second product of line 163 is an operand of the addition. -/
def varianceSumF (R : Rounding) (fused : Nat → Bool) (mean : F64) (l : List (Int × F64)) : F64 :=
  l.zipIdx.foldl (fun s p => F64.add R s (F64.mul (R.product (fused p.2)) (F64.mul R p.1.2 (F64.sub R (F64.ofInt R p.1.1) mean))
    (F64.sub R (F64.ofInt R p.1.1) mean))) (.fin 0)

/-- impl/weighted_snapshot.go:158-164; `fm`: the choices in `GetMean` -/
def varianceF (R : Rounding) (fm fused : Nat → Bool) (w : WeightedSnapshot) : F64 :=
  varianceSumF R fused ((w.getMeanF R fm).value .nan) (w.values.zip w.normalizedWeights)

/-- impl/weighted_snapshot.go:152-166 `GetStdDev` -/
def getStdDevF (R : Rounding) (fm fused : Nat → Bool) (sqrt : F64 → F64) (w : WeightedSnapshot) : Ret F64 :=
  if w.values.length ≤ 1 then .ok (.fin 0) else .ok (sqrt (w.varianceF R fm fused))

end WeightedSnapshot
end GoMetrics
