import Verif.Model.EDR
import Verif.Model.BucketReservoir
import Verif.Model.Clock
/-! # float64 with signed zeros

`F64` (Model/Float.lean) has one zero. IEEE-754 and Go have two, which compare equal but give different infinities as divisors. Here are the functions of the
repository that compute with `float64`, once more, with the two zeros; C106 says what the difference is. -/
namespace GoMetrics

/-- A `float64` value with its sign, also if it is zero. -/
inductive Z64 where
  | nan
  | inf (neg : Bool)
  | zero (neg : Bool)
  | fin (q : ℚ) (ne : q ≠ 0)

namespace Z64

/-- The value without the sign of zero. -/
def unsigned : Z64 → F64
  | nan => .nan
  | inf s => .inf s
  | zero _ => .fin 0
  | fin q _ => .fin q

/-- The exact result `q` rounded. If zero comes out, its sign is that of `q` (IEEE-754, 6.3), and `s` if `q` is itself zero. -/
def round (R : Rounding) (q : ℚ) (s : Bool) : Z64 :=
  match R.rnd q with
  | .nan => nan
  | .inf b => inf b
  | .fin r => if h : r = 0 then zero (if q = 0 then s else decide (q < 0)) else fin r h

/-- `float64(n)` for an integer: never -0 -/
def ofInt (R : Rounding) (n : Int) : Z64 := round R n false

/-- A constant of the program: +0 if it is zero -/
def const (R : Rounding) (q : ℚ) : Z64 := round R q false

/-- `-x` -/
def neg : Z64 → Z64
  | nan => nan
  | inf s => inf (!s)
  | zero s => zero (!s)
  | fin q h => fin (-q) (neg_ne_zero.2 h)

/-- `x + y`: the sum of two zeros is -0 only if both are; an exact sum of zero of other numbers is +0 (IEEE-754, 6.3, round to nearest). -/
def add (R : Rounding) : Z64 → Z64 → Z64
  | nan, _ => nan
  | _, nan => nan
  | inf s, inf s' => if s = s' then inf s else nan
  | inf s, _ => inf s
  | _, inf s => inf s
  | zero s, zero s' => round R 0 (s && s')
  | zero _, fin b _ => round R b false
  | fin a _, zero _ => round R a false
  | fin a _, fin b _ => round R (a + b) false

/-- `x - y` -/
def sub (R : Rounding) (x y : Z64) : Z64 := add R x (neg y)

/-- `x * y`: the sign is the exclusive or of the signs. -/
def mul (R : Rounding) : Z64 → Z64 → Z64
  | nan, _ => nan
  | _, nan => nan
  | inf s, inf s' => inf (s != s')
  | inf _, zero _ => nan
  | zero _, inf _ => nan
  | inf s, fin b _ => inf (s != decide (b < 0))
  | fin a _, inf s => inf (decide (a < 0) != s)
  | zero s, zero s' => round R 0 (s != s')
  | zero s, fin b _ => round R 0 (s != decide (b < 0))
  | fin a _, zero s => round R 0 (decide (a < 0) != s)
  | fin a _, fin b _ => round R (a * b) false

/-- `x / y`: the sign is the exclusive or of the signs, also if `y` is zero. -/
def div (R : Rounding) : Z64 → Z64 → Z64
  | nan, _ => nan
  | _, nan => nan
  | inf _, inf _ => nan
  | inf s, zero s' => inf (s != s')
  | inf s, fin b _ => inf (s != decide (b < 0))
  | zero s, inf s' => zero (s != s')
  | fin a _, inf s => zero (decide (a < 0) != s)
  | zero _, zero _ => nan
  | fin a _, zero s => inf (decide (a < 0) != s)
  | zero s, fin b _ => round R 0 (s != decide (b < 0))
  | fin a _, fin b _ => round R (a / b) false

/-- `x < y`: the zeros are equal (IEEE-754, 5.11). -/
def lt (x y : Z64) : Prop := x.unsigned.lt y.unsigned
/-- `x <= y` -/
def le (x y : Z64) : Prop := x.unsigned.le y.unsigned
/-- `x == y` -/
def eq (x y : Z64) : Prop := x.le y ∧ y.le x

instance : DecidableRel lt := fun x y => by unfold lt; infer_instance
instance : DecidableRel le := fun x y => by unfold le; infer_instance
instance : DecidableRel eq := fun x y => by unfold eq; infer_instance

/-- `math.Floor`: `Floor(±0) = ±0` -/
def floor : Z64 → Z64
  | fin q _ => if h : (⌊q⌋ : ℚ) = 0 then zero false else fin ⌊q⌋ h
  | x => x

/-- `math.IsNaN` -/
def isNaN : Z64 → Bool
  | nan => true
  | _ => false

/-- `int(x)`: both zeros become 0 -/
def truncInt (x : Z64) : Int := GoMetrics.truncInt x.unsigned

/-- `int64(x)` -/
def toInt64 (x : Z64) : Option Int := GoMetrics.toInt64 x.unsigned

/-- impl/uniform_snapshot.go:36, impl/weighted_snapshot.go:41 -/
def badQuantile (q : Z64) : Bool := decide (q.lt (zero false)) || decide (lt (const .exact 1) q) || q.isNaN

/-- A value of type `float64`: a zero, an infinity, NaN or a number that binary64 represents. -/
def IsFloat64 (x : Z64) : Prop := ∀ q h, x = .fin q h → Rounding.binary64.rnd q = .fin q

end Z64

/-- What a getter returns, without the sign of zero. -/
def Ret.unsigned : Ret Z64 → Ret F64
  | .ok v => .ok v.unsigned
  | .err v => .err v.unsigned
  | .panic => .panic

/-- Go standard library, `func (d Duration) Seconds() float64` -/
def secondsZ (R : Rounding) (d : Int) : Z64 :=
  Z64.add R (Z64.ofInt R (d.tdiv 1000000000)) (Z64.div R (Z64.ofInt R (d.tmod 1000000000)) (Z64.ofInt R 1000000000))

/-- compare.go:3-8 `DeltaCompareFloat64` -/
def deltaCompareZ (R : Rounding) (expected actual delta : Z64) : Bool :=
  if actual.lt expected then decide ((Z64.sub R expected actual).le delta) else decide ((Z64.sub R actual expected).le delta)

/-- ewma.go:52-60 -/
structure EWMAZ where
  initialized : Bool
  rate : Z64
  uncounted : Int
  alpha : Z64
  interval : Int

namespace EWMAZ

/-- ewma.go:112-118 `newEWMA` -/
def new (alpha : Z64) (interval : Int) : EWMAZ := ⟨false, .zero false, 0, alpha, interval⟩

/-- ewma.go:62-64 `Update` -/
def update (e : EWMAZ) (n : Int) : EWMAZ := { e with uncounted := i64 (e.uncounted + n) }

/-- ewma.go:67 -/
def instantRate (R : Rounding) (e : EWMAZ) (count : Int) : Z64 := Z64.div R (Z64.ofInt R count) (Z64.ofInt R e.interval)

/-- ewma.go:71-79 -/
def newRate (R : Rounding) (initialized : Bool) (alpha rate instant : Z64) : Z64 :=
  if initialized then Z64.add R rate (Z64.mul R alpha (Z64.sub R instant rate)) else instant

/-- ewma.go:66-80 `TickN` -/
def tickN (R : Rounding) (e : EWMAZ) (count : Int) : EWMAZ :=
  { e with rate := newRate R e.initialized e.alpha e.rate (e.instantRate R count), initialized := true }

/-- ewma.go:82-90 `Tick` -/
def tick (R : Rounding) (e : EWMAZ) : EWMAZ := ({ e with uncounted := 0 } : EWMAZ).tickN R e.uncounted

/-- ewma.go:96-98 `GetRate` -/
def getRate (R : Rounding) (e : EWMAZ) (unit : Int) : Z64 := Z64.mul R e.rate (Z64.ofInt R unit)

/-- One API call (the calls are those of Model/EWMA.lean). -/
def step (R : Rounding) (e : EWMAZ) : EWMA.Op → EWMAZ
  | .update n => e.update n
  | .tick => e.tick R
  | .tickN c => e.tickN R c

/-- A history of API calls. -/
def run (R : Rounding) (e : EWMAZ) (h : List EWMA.Op) : EWMAZ := h.foldl (step R) e

end EWMAZ

/-- impl/default_compass.go:94-101 `GetMeanRate`; the counts and times are integers -/
def Compass.getMeanRateZ {σ : Type} (R : Rounding) (c : Compass σ) (tick : Int) : Z64 :=
  let count := c.getCount
  let elapsed := i64 (tick - c.startTime)
  if count = 0 ∨ elapsed ≤ 0 then .zero false
  else Z64.mul R (Z64.div R (Z64.ofInt R count) (Z64.ofInt R elapsed)) (Z64.ofInt R second)

/-- impl/bucket_snapshot.go:73-78 `GetMean` -/
def BucketSnapshot.getMeanZ (R : Rounding) (b : BucketSnapshot) : Ret Z64 :=
  if b.count = 0 then .ok (.zero false) else .ok (Z64.div R (Z64.ofInt R b.value) (Z64.ofInt R b.count))

namespace UniformSnapshot

/-- impl/uniform_snapshot.go:45 -/
def positionZ (R : Rounding) (u : UniformSnapshot) (quantile : Z64) : Z64 := Z64.mul R quantile (Z64.ofInt R (u.size + 1))

/-- impl/uniform_snapshot.go:35-60 `GetValue` -/
def getValueZ (R : Rounding) (u : UniformSnapshot) (quantile : Z64) : Ret Z64 :=
  if quantile.badQuantile then .err (.zero false)
  else if u.size = 0 then .ok (.zero false)
  else
    let pos := u.positionZ R quantile
    let i := pos.truncInt
    if i < 1 then
      match index u.values 0 with
      | none => .panic
      | some v => .ok (Z64.ofInt R v)
    else if i ≥ u.size then
      match index u.values (u.size - 1) with
      | none => .panic
      | some v => .ok (Z64.ofInt R v)
    else
      match index u.values (i - 1), index u.values i with
      | some lower, some upper =>
        .ok (Z64.add R (Z64.ofInt R lower) (Z64.mul R (Z64.sub R pos pos.floor) (Z64.ofInt R (i64 (upper - lower)))))
      | _, _ => .panic

/-- impl/uniform_snapshot.go:81-94 `GetMean` -/
def getMeanZ (R : Rounding) (u : UniformSnapshot) : Z64 :=
  if u.size = 0 then .zero false else Z64.div R (Z64.ofInt R u.sum) (Z64.ofInt R u.size)

/-- impl/uniform_snapshot.go:112-116 -/
def diffSumZ (R : Rounding) (mean : Z64) (values : List Int) : Z64 :=
  values.foldl (fun s v => Z64.add R s (Z64.mul R (Z64.sub R (Z64.ofInt R v) mean) (Z64.sub R (Z64.ofInt R v) mean))) (.zero false)

/-- impl/uniform_snapshot.go:118 -/
def varianceZ (R : Rounding) (u : UniformSnapshot) : Z64 :=
  Z64.div R (diffSumZ R (u.getMeanZ R) u.values) (Z64.ofInt R (u.size - 1))

/-- impl/uniform_snapshot.go:105-120 `GetStdDev` -/
def getStdDevZ (R : Rounding) (sqrt : Z64 → Z64) (u : UniformSnapshot) : Z64 :=
  if u.size ≤ 1 then .zero false else sqrt (u.varianceZ R)

end UniformSnapshot

/-- impl/weighted_snapshot.go:204-208 -/
structure SampleZ where
  key : Z64
  value : Int
  weight : Z64

/-- A sample without the signs of zeros. -/
def SampleZ.unsigned (s : SampleZ) : WeightedSample := ⟨s.key.unsigned, s.value, s.weight.unsigned⟩

/-- impl/weighted_snapshot.go:34-38 -/
structure WeightedSnapshotZ where
  values : List Int
  normalizedWeights : List Z64
  quantiles : List Z64

namespace WeightedSnapshotZ

/-- impl/weighted_snapshot.go:182-186 -/
def totalWeight (R : Rounding) (samples : List SampleZ) : Z64 := samples.foldl (fun t s => Z64.add R t s.weight) (.zero false)

/-- impl/weighted_snapshot.go:198-200 -/
def cumulative (R : Rounding) (acc : Z64) : List Z64 → List Z64
  | [] => []
  | w :: ws => acc :: cumulative R (Z64.add R acc w) ws

/-- impl/weighted_snapshot.go:168-202 `NewWeightedSnapshot`; `cp` is the slice after `sort.Slice` -/
def new (R : Rounding) (samples cp : List SampleZ) : WeightedSnapshotZ :=
  if samples.length = 0 then ⟨[], [], []⟩
  else
    { values := cp.map (·.value)
      normalizedWeights := cp.map fun s => Z64.div R s.weight (totalWeight R samples)
      quantiles := cumulative R (.zero false) (cp.map fun s => Z64.div R s.weight (totalWeight R samples)) }

/-- impl/weighted_snapshot.go:72 -/
def searchPos (w : WeightedSnapshotZ) (target : Z64) : Nat :=
  sortSearch w.quantiles.length fun i => decide (target.le ((w.quantiles[i]?).getD .nan))

/-- impl/weighted_snapshot.go:73-75 -/
def searchFound (w : WeightedSnapshotZ) (target : Z64) : Bool :=
  decide (sortSearch w.quantiles.length (fun i => decide (Z64.eq ((w.quantiles[i]?).getD .nan) target)) ≠ w.quantiles.length)

/-- impl/weighted_snapshot.go:40-66 `GetValue` -/
def getValue (R : Rounding) (w : WeightedSnapshotZ) (quantile : Z64) : Ret Z64 :=
  if quantile.badQuantile then .err (.zero false)
  else if w.values.length = 0 then .ok (.zero false)
  else
    let pos : Int := if w.searchFound quantile then w.searchPos quantile else (w.searchPos quantile : Int) - 1
    let at_ (i : Int) : Ret Z64 := match index w.values i with | none => .panic | some v => .ok (Z64.ofInt R v)
    if pos < 1 then at_ 0
    else if pos ≥ (w.values.length : Int) then at_ ((w.values.length : Int) - 1)
    else at_ pos

/-- impl/weighted_snapshot.go:137-140 -/
def weightedSum (R : Rounding) (acc : Z64) : List (Int × Z64) → Z64
  | [] => acc
  | (v, w) :: t => weightedSum R (Z64.add R acc (Z64.mul R (Z64.ofInt R v) w)) t

/-- impl/weighted_snapshot.go:131-142 `GetMean` -/
def getMean (R : Rounding) (w : WeightedSnapshotZ) : Ret Z64 :=
  if w.values.length = 0 then .err (.zero false) else .ok (weightedSum R (.zero false) (w.values.zip w.normalizedWeights))

/-- impl/weighted_snapshot.go:161-164 -/
def varianceSum (R : Rounding) (mean acc : Z64) : List (Int × Z64) → Z64
  | [] => acc
  | (v, w) :: t =>
    varianceSum R mean (Z64.add R acc (Z64.mul R (Z64.mul R w (Z64.sub R (Z64.ofInt R v) mean)) (Z64.sub R (Z64.ofInt R v) mean))) t

/-- impl/weighted_snapshot.go:158 `mean, _ := w.GetMean()` -/
def meanOf (R : Rounding) (w : WeightedSnapshotZ) : Z64 :=
  match w.getMean R with
  | .ok v => v
  | .err v => v
  | .panic => .nan

/-- impl/weighted_snapshot.go:158-164 -/
def variance (R : Rounding) (w : WeightedSnapshotZ) : Z64 := varianceSum R (w.meanOf R) (.zero false) (w.values.zip w.normalizedWeights)

/-- impl/weighted_snapshot.go:152-166 `GetStdDev` -/
def getStdDev (R : Rounding) (sqrt : Z64 → Z64) (w : WeightedSnapshotZ) : Ret Z64 :=
  if w.values.length ≤ 1 then .ok (.zero false) else .ok (sqrt (w.variance R))

end WeightedSnapshotZ

/-- impl/weighted_snapshot.go:210-220 `Compare` -/
def SampleZ.compare (w sample : SampleZ) : Int := if w.key.lt sample.key then -1 else if sample.key.lt w.key then 1 else 0

/-- The skip list of samples, as in Model/EDR.lean. -/
abbrev SkipListZ := List SampleZ

namespace SkipListZ

/-- `Insert` (as `SkipList.insert` in Model/EDR.lean) -/
def insert (s : SampleZ) : SkipListZ → SkipListZ
  | [] => [s]
  | e :: t => if e.compare s < 0 then e :: insert s t else if e.compare s = 0 then s :: t else s :: e :: t

/-- `Get` -/
def get? (s : SampleZ) : SkipListZ → Option SampleZ
  | [] => none
  | e :: t => if e.compare s < 0 then get? s t else if e.compare s = 0 then some e else none

/-- `Delete` -/
def delete (s : SampleZ) : SkipListZ → SkipListZ
  | [] => []
  | e :: t => if e.compare s < 0 then e :: delete s t else if e.compare s = 0 then t else e :: t

/-- `Iter` -/
def iter (s : SampleZ) (l : SkipListZ) : List SampleZ := l.dropWhile fun e => decide (e.compare s < 0)

/-- impl/exponentially_decaying_reservoir.go:110-112 -/
def overwrite (s : SampleZ) : SkipListZ → SkipListZ
  | [] => []
  | e :: t => if e.compare s < 0 then e :: overwrite s t
    else if e.compare s = 0 then { e with value := s.value, weight := s.weight } :: t else e :: t

end SkipListZ

/-- impl/exponentially_decaying_reservoir.go:57-66 -/
structure EDRZ where
  values : SkipListZ
  alpha : Z64
  size : Int
  count : Int
  startTime : Int
  nextScaleTime : Int

namespace EDRZ

/-- impl/exponentially_decaying_reservoir.go:207-216 `NewExponentiallyDecayingReservoir` -/
def new (size : Int) (alpha : Z64) (time tick : Int) : EDRZ where
  values := []
  alpha := alpha
  size := size
  count := 0
  startTime := EDR.currentTimeInSecond time
  nextScaleTime := i64 (tick + EDR.rescaleThreshold)

/-- impl/exponentially_decaying_reservoir.go:68-73 `Size` -/
def getSize (r : EDRZ) : Int := if r.size > r.count then r.count else r.size

/-- impl/exponentially_decaying_reservoir.go:184-194 `GetValues` -/
def getValues (r : EDRZ) : List SampleZ := SkipListZ.iter ⟨.zero false, 0, .zero false⟩ r.values

/-- The rounding and `math.Exp`. -/
structure Arith where
  R : Rounding
  exp : Z64 → Z64

variable (A : Arith)

/-- impl/exponentially_decaying_reservoir.go:127-129 `weight` -/
def weight (alpha : Z64) (t : Int) : Z64 := A.exp (Z64.mul A.R alpha (Z64.ofInt A.R t))

/-- impl/exponentially_decaying_reservoir.go:165 -/
def scalingFactor (alpha : Z64) (old new : Int) : Z64 := A.exp (Z64.mul A.R alpha.neg (Z64.ofInt A.R (i64 (new - old))))

/-- impl/exponentially_decaying_reservoir.go:177 -/
def scale (f : Z64) (s : SampleZ) : SampleZ := ⟨Z64.mul A.R s.key f, s.value, Z64.mul A.R s.weight f⟩

/-- impl/exponentially_decaying_reservoir.go:174-179 -/
def rescaleLoop (f : Z64) (samples : List SampleZ) (l : SkipListZ) : SkipListZ :=
  samples.foldl (fun l s => SkipListZ.insert (scale A f s) (SkipListZ.delete s l)) l

/-- impl/exponentially_decaying_reservoir.go:162-180 -/
def rescaleLocked (r : EDRZ) (time : Int) : EDRZ :=
  let f := scalingFactor A r.alpha r.startTime (EDR.currentTimeInSecond time)
  let r1 := { r with startTime := EDR.currentTimeInSecond time }
  if Z64.eq f (.zero false) then { r1 with values := [], count := 0 }
  else
    let l := rescaleLoop A f r1.getValues r1.values
    { r1 with values := l, count := i64 l.length }

/-- impl/exponentially_decaying_reservoir.go:131-136, 156-182 -/
def rescaleIfNeeded (r : EDRZ) (tick time : Int) : EDRZ :=
  if r.nextScaleTime ≤ tick then rescaleLocked A { r with nextScaleTime := i64 (tick + EDR.rescaleThreshold) } time else r

/-- impl/exponentially_decaying_reservoir.go:84 -/
def priority (w u : Z64) : Z64 := Z64.div A.R w u

/-- impl/exponentially_decaying_reservoir.go:89-124 -/
def record (r : EDRZ) (prio : Z64) (value : Int) (itemWeight : Z64) : Res EDRZ :=
  let r := { r with count := i64 (r.count + 1) }
  let sample : SampleZ := ⟨prio, value, itemWeight⟩
  if r.count ≤ r.size then .ok { r with values := SkipListZ.insert sample r.values }
  else match r.getValues with
    | [] => .panic r
    | first :: _ =>
      if prio.le first.key then .ok r
      else match SkipListZ.get? sample r.values with
        | some _ => .ok { r with values := SkipListZ.overwrite sample r.values }
        | none => .ok { r with values := SkipListZ.insert sample (SkipListZ.delete first r.values) }

/-- The readings of the clock (132, 163, 79) and the draw (84). -/
structure Env where
  tick : Int
  scaleTime : Int
  time : Int
  u : Z64

/-- impl/exponentially_decaying_reservoir.go:75-125 `UpdateN` -/
def updateN (r : EDRZ) (env : Env) (value : Int) : Res EDRZ :=
  let r := rescaleIfNeeded A r env.tick env.scaleTime
  let w := weight A r.alpha (i64 (EDR.currentTimeInSecond env.time - r.startTime))
  record r (priority A w env.u) value w

/-- The state-changing API calls. -/
inductive Op where
  | updateN (env : Env) (value : Int)
  | getSnapshot (tick scaleTime : Int)

/-- A call without the sign of the draw. -/
def Op.unsigned : Op → EDR.Op
  | .updateN env value => .updateN ⟨env.tick, env.scaleTime, env.time, env.u.unsigned⟩ value
  | .getSnapshot tick scaleTime => .getSnapshot tick scaleTime

/-- One call. -/
def step (r : EDRZ) : Op → Res EDRZ
  | .updateN env v => updateN A r env v
  | .getSnapshot tick t => .ok (rescaleIfNeeded A r tick t)

/-- A history of calls that do not overlap. -/
def run (r : EDRZ) (h : List Op) : EDRZ := h.foldl (fun r o => (step A r o).state) r

/-- impl/exponentially_decaying_reservoir.go:196-201 `GetSnapshot`: the snapshot -/
def getSnapshot (r : EDRZ) (tick scaleTime : Int) (cp : List SampleZ) : WeightedSnapshotZ :=
  WeightedSnapshotZ.new A.R (rescaleIfNeeded A r tick scaleTime).getValues cp

end EDRZ
end GoMetrics
