import Verif.Model.UniformSnapshot
/-! # WeightedSnapshot (impl/weighted_snapshot.go) -/
namespace GoMetrics

/-- impl/weighted_snapshot.go:204-208 `WeightedSample`; 222-228 `NewWeightSample` only fills it in -/
structure WeightedSample where
  key : F64
  value : Int
  weight : F64
  deriving DecidableEq

/-- `x == y` as Go evaluates it. -/
def F64.eq (x y : F64) : Prop := x.le y ∧ y.le x

instance : DecidableRel F64.eq := fun x y => by unfold F64.eq; infer_instance

/-- The loop of `sort.Search` of the Go library: `i`, `j` and `h := (i + j) / 2`; `!f(h)` moves `i`, otherwise `j` moves. Each round makes
`j - i` smaller, so `fuel = n` rounds are enough (Proofs/WeightedSnapshot.lean, `searchLoop_done`). -/
def searchLoop (f : Nat → Bool) : Nat → Nat → Nat → Nat
  | 0, i, _ => i
  | fuel + 1, i, j =>
    if i < j then
      if !f ((i + j) / 2) then searchLoop f fuel ((i + j) / 2 + 1) j else searchLoop f fuel i ((i + j) / 2)
    else i

/-- `sort.Search(n, f)` -/
def sortSearch (n : Nat) (f : Nat → Bool) : Nat := searchLoop f n 0 n

/-- impl/weighted_snapshot.go:34-38 `WeightedSnapshot` -/
structure WeightedSnapshot where
  values : List Int
  normalizedWeights : List F64
  quantiles : List F64
  deriving DecidableEq

namespace WeightedSnapshot

/-- impl/weighted_snapshot.go:182-186: the sum of the weights, in the order of the samples -/
def totalWeight (R : Rounding) (samples : List WeightedSample) : F64 := samples.foldl (fun t s => F64.add R t s.weight) (.fin 0)

/-- impl/weighted_snapshot.go:198-200: `quantiles[0]` is 0, each other one the previous quantile plus the previous weight -/
def cumulative (R : Rounding) (acc : F64) : List F64 → List F64
  | [] => []
  | w :: ws => acc :: cumulative R (F64.add R acc w) ws

/-- impl/weighted_snapshot.go:168-202 `NewWeightedSnapshot`. `cp` is the slice after `sort.Slice` (189-191): theorems quantify over every list
`cp` that `IsSorted` allows, because `sort.Slice` is not stable. -/
def new (R : Rounding) (samples cp : List WeightedSample) : WeightedSnapshot :=
  if samples.length = 0 then ⟨[], [], []⟩
  else
    { values := cp.map (·.value)
      normalizedWeights := cp.map fun s => F64.div R s.weight (totalWeight R samples)
      quantiles := cumulative R (.fin 0) (cp.map fun s => F64.div R s.weight (totalWeight R samples)) }

/-- What `sort.Slice` with the order of impl/weighted_snapshot.go:190 may leave: the same samples, ascending by value. -/
def IsSorted (samples cp : List WeightedSample) : Prop := cp.Perm samples ∧ cp.Pairwise (fun a b => a.value ≤ b.value)

/-- impl/weighted_snapshot.go:72: `sort.SearchFloat64s(w.quantiles, target)` is `sort.Search` for the first element `>= target` -/
def searchPos (w : WeightedSnapshot) (target : F64) : Nat :=
  sortSearch w.quantiles.length fun i => decide (target.le ((w.quantiles[i]?).getD .nan))

/-- impl/weighted_snapshot.go:71-77 `searchQuantile`, its result `found`, 73-75: `sort.Search` with `==` -/
def searchFound (w : WeightedSnapshot) (target : F64) : Bool :=
  decide (sortSearch w.quantiles.length (fun i => decide (F64.eq ((w.quantiles[i]?).getD .nan) target)) ≠ w.quantiles.length)

/-- impl/weighted_snapshot.go:40-66 `GetValue` -/
def getValue (R : Rounding) (w : WeightedSnapshot) (quantile : F64) : Ret F64 :=
  if badQuantile quantile then .err (.fin 0)
  else if w.values.length = 0 then .ok (.fin 0)
  else
    let pos : Int := if w.searchFound quantile then w.searchPos quantile else (w.searchPos quantile : Int) - 1
    let at_ (i : Int) : Ret F64 := match index w.values i with | none => .panic | some v => .ok (F64.ofInt R v)
    if pos < 1 then at_ 0
    else if pos ≥ (w.values.length : Int) then at_ ((w.values.length : Int) - 1)
    else at_ pos

/-- impl/weighted_snapshot.go:79-86 `GetValues` -/
def getValues (w : WeightedSnapshot) : List Int := w.values

/-- impl/weighted_snapshot.go:88-90 `Size` -/
def size (w : WeightedSnapshot) : Int := w.values.length

/-- impl/weighted_snapshot.go:122-129 `GetMax` -/
def getMax (w : WeightedSnapshot) : Ret Int :=
  if w.values.length = 0 then .err 0
  else match index w.values ((w.values.length : Int) - 1) with | none => .panic | some v => .ok v

/-- impl/weighted_snapshot.go:144-150 `GetMin` -/
def getMin (w : WeightedSnapshot) : Ret Int :=
  if w.values.length = 0 then .err 0 else match index w.values 0 with | none => .panic | some v => .ok v

/-- impl/weighted_snapshot.go:137-140: `normalizedWeights[index]` exists for every index because both slices have the same length
(Proofs/WeightedSnapshot.lean, `length_weights`); the loop is over the pairs. -/
def weightedSum (R : Rounding) (acc : F64) : List (Int × F64) → F64
  | [] => acc
  | (v, w) :: t => weightedSum R (F64.add R acc (F64.mul R (F64.ofInt R v) w)) t

/-- impl/weighted_snapshot.go:131-142 `GetMean` -/
def getMean (R : Rounding) (w : WeightedSnapshot) : Ret F64 :=
  if w.values.length = 0 then .err (.fin 0) else .ok (weightedSum R (.fin 0) (w.values.zip w.normalizedWeights))

/-- impl/weighted_snapshot.go:161-164 -/
def varianceSum (R : Rounding) (mean acc : F64) : List (Int × F64) → F64
  | [] => acc
  | (v, w) :: t =>
    varianceSum R mean (F64.add R acc (F64.mul R (F64.mul R w (F64.sub R (F64.ofInt R v) mean)) (F64.sub R (F64.ofInt R v) mean))) t

/-- The first component of what a getter returns (`mean, _ := w.GetMean()`, 158). -/
def _root_.GoMetrics.Ret.value (d : F64) : Ret F64 → F64
  | .ok v => v
  | .err v => v
  | .panic => d

/-- impl/weighted_snapshot.go:158-164 -/
def variance (R : Rounding) (w : WeightedSnapshot) : F64 :=
  varianceSum R ((w.getMean R).value .nan) (.fin 0) (w.values.zip w.normalizedWeights)

/-- impl/weighted_snapshot.go:152-166 `GetStdDev`; `math.Sqrt` is a parameter. -/
def getStdDev (R : Rounding) (sqrt : F64 → F64) (w : WeightedSnapshot) : Ret F64 :=
  if w.values.length ≤ 1 then .ok (.fin 0) else .ok (sqrt (w.variance R))

/-- impl/weighted_snapshot.go:92-120: the percentiles; the constants are rounded to `float64`. -/
def getMedian (R : Rounding) (w : WeightedSnapshot) : Ret F64 := w.getValue R (R.rnd (5 / 10))
def get75thPercentile (R : Rounding) (w : WeightedSnapshot) : Ret F64 := w.getValue R (R.rnd (75 / 100))
def get95thPercentile (R : Rounding) (w : WeightedSnapshot) : Ret F64 := w.getValue R (R.rnd (95 / 100))
def get98thPercentile (R : Rounding) (w : WeightedSnapshot) : Ret F64 := w.getValue R (R.rnd (98 / 100))
def get99thPercentile (R : Rounding) (w : WeightedSnapshot) : Ret F64 := w.getValue R (R.rnd (99 / 100))
def get999thPercentile (R : Rounding) (w : WeightedSnapshot) : Ret F64 := w.getValue R (R.rnd (999 / 1000))

end WeightedSnapshot
end GoMetrics
