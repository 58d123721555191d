import Verif.Model.UniformReservoir
import Verif.Model.Seconds
import Mathlib.Data.List.Sort
/-! # UniformSnapshot (impl/uniform_snapshot.go) -/
namespace GoMetrics

/-- What a getter does: return a value and no error, a value and an error, or panic. -/
inductive Ret (α : Type) where
  | ok (v : α)
  | err (v : α)
  | panic
  deriving DecidableEq

/-- `s[i]` for a Go slice: panics outside the bounds (Go spec, "Index expressions"). -/
def index {α : Type} (s : List α) (i : Int) : Option α := if i < 0 then none else s[i.toNat]?

/-- `math.Floor` of the Go library. -/
def F64.floor : F64 → F64
  | .fin q => .fin ⌊q⌋
  | x => x

/-- `math.IsNaN` -/
def F64.isNaN : F64 → Bool
  | .nan => true
  | _ => false

/-- The check at the head of both `GetValue`s (impl/uniform_snapshot.go:36, impl/weighted_snapshot.go:41). -/
def badQuantile (q : F64) : Bool := decide (q.lt (.fin 0)) || decide (F64.lt (.fin 1) q) || q.isNaN

/-- `int(x)`: truncation; what Go leaves implementation-defined is what amd64 does. -/
def truncInt (x : F64) : Int := (toInt64 x).getD (-9223372036854775808)

/-- impl/uniform_snapshot.go:31-33 -/
structure UniformSnapshot where
  values : List Int
  deriving DecidableEq

namespace UniformSnapshot

/-- impl/uniform_snapshot.go:152-160 `NewUniformSnapshot`, 162-174 (`Len`, `Less` and `Swap` of `Int64Slice`: ascending order): `sort.Sort` leaves the elements in ascending order (for integers
there is only one such list, so the algorithm does not matter). Aliasing: see
Model/UniformHeap.lean. -/
def new (values : List Int) : UniformSnapshot := ⟨values.insertionSort (· ≤ ·)⟩

/-- impl/uniform_snapshot.go:69-71 `Size` -/
def size (u : UniformSnapshot) : Int := u.values.length

/-- impl/uniform_snapshot.go:45 -/
def position (R : Rounding) (u : UniformSnapshot) (quantile : F64) : F64 := F64.mul R quantile (F64.ofInt R (u.size + 1))

/-- impl/uniform_snapshot.go:35-60 `GetValue` -/
def getValue (R : Rounding) (u : UniformSnapshot) (quantile : F64) : Ret F64 :=
  if badQuantile quantile then .err (.fin 0)
  else if u.size = 0 then .ok (.fin 0)
  else
    let pos := u.position R quantile
    let i := truncInt pos
    if i < 1 then
      match index u.values 0 with
      | none => .panic
      | some v => .ok (F64.ofInt R v)
    else if i ≥ u.size then
      match index u.values (u.size - 1) with
      | none => .panic
      | some v => .ok (F64.ofInt R v)
    else
      match index u.values (i - 1), index u.values i with
      | some lower, some upper =>
        .ok (F64.add R (F64.ofInt R lower) (F64.mul R (F64.sub R pos pos.floor) (F64.ofInt R (i64 (upper - lower)))))
      | _, _ => .panic

/-- impl/uniform_snapshot.go:62-67 `GetValues` -/
def getValues (u : UniformSnapshot) : List Int := u.values

/-- impl/uniform_snapshot.go:73-79 `GetMax` -/
def getMax (u : UniformSnapshot) : Ret Int :=
  if u.size = 0 then .ok 0 else match index u.values (u.size - 1) with | none => .panic | some v => .ok v

/-- impl/uniform_snapshot.go:96-103 `GetMin` -/
def getMin (u : UniformSnapshot) : Ret Int :=
  if u.size = 0 then .ok 0 else match index u.values 0 with | none => .panic | some v => .ok v

/-- impl/uniform_snapshot.go:88-91 -/
def sum (u : UniformSnapshot) : Int := u.values.foldl (fun s v => i64 (s + v)) 0

/-- impl/uniform_snapshot.go:81-94 `GetMean` -/
def getMean (R : Rounding) (u : UniformSnapshot) : F64 :=
  if u.size = 0 then .fin 0 else F64.div R (F64.ofInt R u.sum) (F64.ofInt R u.size)

/-- impl/uniform_snapshot.go:112-116 -/
def diffSum (R : Rounding) (mean : F64) (values : List Int) : F64 :=
  values.foldl (fun s v => F64.add R s (F64.mul R (F64.sub R (F64.ofInt R v) mean) (F64.sub R (F64.ofInt R v) mean))) (.fin 0)

/-- impl/uniform_snapshot.go:118 -/
def variance (R : Rounding) (u : UniformSnapshot) : F64 :=
  F64.div R (diffSum R (u.getMean R) u.values) (F64.ofInt R (u.size - 1))

/-- impl/uniform_snapshot.go:105-120 `GetStdDev`; `math.Sqrt` is a parameter. -/
def getStdDev (R : Rounding) (sqrt : F64 → F64) (u : UniformSnapshot) : F64 :=
  if u.size ≤ 1 then .fin 0 else sqrt (u.variance R)

/-- impl/uniform_snapshot.go:123-150: the percentiles; the constants are rounded to `float64`. -/
def getMedian (R : Rounding) (u : UniformSnapshot) : Ret F64 := u.getValue R (R.rnd (5 / 10))
def get75thPercentile (R : Rounding) (u : UniformSnapshot) : Ret F64 := u.getValue R (R.rnd (75 / 100))
def get95thPercentile (R : Rounding) (u : UniformSnapshot) : Ret F64 := u.getValue R (R.rnd (95 / 100))
def get98thPercentile (R : Rounding) (u : UniformSnapshot) : Ret F64 := u.getValue R (R.rnd (98 / 100))
def get99thPercentile (R : Rounding) (u : UniformSnapshot) : Ret F64 := u.getValue R (R.rnd (99 / 100))
def get999thPercentile (R : Rounding) (u : UniformSnapshot) : Ret F64 := u.getValue R (R.rnd (999 / 1000))

end UniformSnapshot

/-- impl/uniform_reservoir.go:86-90 `GetSnapshot` -/
def UniformReservoir.getSnapshot (u : UniformReservoir) : UniformSnapshot := UniformSnapshot.new u.values

end GoMetrics
