import Verif.Model.WeightedSnapshot
import Verif.Model.BucketCounter
import Verif.Model.Compass
/-! # ExponentiallyDecayingReservoir (impl/exponentially_decaying_reservoir.go), sequential semantics

The interleaving semantics is in Model/EDRConc.lean. -/
namespace GoMetrics

/-- impl/weighted_snapshot.go:210-220 `Compare`. NaN compares equal to everything. -/
def WeightedSample.compare (w sample : WeightedSample) : Int :=
  if w.key.lt sample.key then -1 else if sample.key.lt w.key then 1 else 0

/-- The skip list of `github.com/Workiva/go-datastructures/slice/skip`, by its documented contract: a list ordered by `Compare`. A search
walks from the front while `Compare` is negative; the levels of a skip list only skip parts of that walk. The library's source is not in
/repo. -/
abbrev SkipList := List WeightedSample

namespace SkipList

/-- `Insert`: an entry that compares equal is replaced. -/
def insert (s : WeightedSample) : SkipList → SkipList
  | [] => [s]
  | e :: t => if e.compare s < 0 then e :: insert s t else if e.compare s = 0 then s :: t else s :: e :: t

/-- `Get`: the entry that compares equal. -/
def get? (s : WeightedSample) : SkipList → Option WeightedSample
  | [] => none
  | e :: t => if e.compare s < 0 then get? s t else if e.compare s = 0 then some e else none

/-- `Delete`: removes the entry that compares equal. (The slice `Delete` returns is never nil, also if nothing was removed.) -/
def delete (s : WeightedSample) : SkipList → SkipList
  | [] => []
  | e :: t => if e.compare s < 0 then e :: delete s t else if e.compare s = 0 then t else e :: t

/-- `Iter`: the entries from the first one on that does not compare less. -/
def iter (s : WeightedSample) (l : SkipList) : List WeightedSample := l.dropWhile fun e => decide (e.compare s < 0)

/-- impl/exponentially_decaying_reservoir.go:110-112: the entry that `Get` finds is changed through its pointer; its key stays. -/
def overwrite (s : WeightedSample) : SkipList → SkipList
  | [] => []
  | e :: t => if e.compare s < 0 then e :: overwrite s t
    else if e.compare s = 0 then { e with value := s.value, weight := s.weight } :: t else e :: t

end SkipList

/-- impl/exponentially_decaying_reservoir.go:57-66. The clock is not a field: readings are inputs. -/
structure EDR where
  values : SkipList
  alpha : F64
  size : Int
  count : Int
  startTime : Int
  nextScaleTime : Int
  deriving DecidableEq

namespace EDR

/-- impl/exponentially_decaying_reservoir.go:43 `edrRescaleThreshold` (one hour in nanoseconds) -/
def rescaleThreshold : Int := 3600000000000

/-- impl/exponentially_decaying_reservoir.go:203-205 `currentTimeInSecond` -/
def currentTimeInSecond (timeInMs : Int) : Int := timeInMs.tdiv secondToMsRate

/-- impl/exponentially_decaying_reservoir.go:207-216 `NewExponentiallyDecayingReservoir`; `time` and `tick` are the readings of lines 213 and 214 -/
def new (size : Int) (alpha : F64) (time tick : Int) : EDR where
  values := []
  alpha := alpha
  size := size
  count := 0
  startTime := currentTimeInSecond time
  nextScaleTime := i64 (tick + rescaleThreshold)

/-- impl/exponentially_decaying_reservoir.go:68-73 `Size`, undisturbed -/
def getSize (r : EDR) : Int := if r.size > r.count then r.count else r.size

/-- impl/exponentially_decaying_reservoir.go:184-194 `GetValues` -/
def getValues (r : EDR) : List WeightedSample := SkipList.iter ⟨.fin 0, 0, .fin 0⟩ r.values

/-- The arithmetic: the rounding of float64 operations, and `math.Exp`, of which only the laws stated as hypotheses of a theorem are used. -/
structure Arith where
  R : Rounding
  exp : F64 → F64

variable (A : Arith)

/-- impl/exponentially_decaying_reservoir.go:127-129 `weight` -/
def weight (alpha : F64) (t : Int) : F64 := A.exp (F64.mul A.R alpha (F64.ofInt A.R t))

/-- impl/exponentially_decaying_reservoir.go:165: the factor for a landmark that moves from `old` to `new` -/
def scalingFactor (alpha : F64) (old new : Int) : F64 :=
  A.exp (F64.mul A.R alpha.neg (F64.ofInt A.R (i64 (new - old))))

/-- impl/exponentially_decaying_reservoir.go:177 -/
def scale (f : F64) (s : WeightedSample) : WeightedSample := ⟨F64.mul A.R s.key f, s.value, F64.mul A.R s.weight f⟩

/-- impl/exponentially_decaying_reservoir.go:174-179: delete and re-insert, one sample after the other -/
def rescaleLoop (f : F64) (samples : List WeightedSample) (l : SkipList) : SkipList :=
  samples.foldl (fun l s => SkipList.insert (scale A f s) (SkipList.delete s l)) l

/-- impl/exponentially_decaying_reservoir.go:162-180: what `rescale` does while it holds the lock; `time` is the reading of line 163 -/
def rescaleLocked (r : EDR) (time : Int) : EDR :=
  let f := scalingFactor A r.alpha r.startTime (currentTimeInSecond time)
  let r1 := { r with startTime := currentTimeInSecond time }
  if F64.eq f (.fin 0) then { r1 with values := [], count := 0 }
  else
    let l := rescaleLoop A f r1.getValues r1.values
    { r1 with values := l, count := i64 l.length }

/-- impl/exponentially_decaying_reservoir.go:131-136 and 156-182 `rescaleIfNeeded`, undisturbed (the CAS succeeds) -/
def rescaleIfNeeded (r : EDR) (tick time : Int) : EDR :=
  if r.nextScaleTime ≤ tick then rescaleLocked A { r with nextScaleTime := i64 (tick + rescaleThreshold) } time else r

/-- impl/exponentially_decaying_reservoir.go:84 `priority`; `u` is the random number, in [0,1) -/
def priority (w u : F64) : F64 := F64.div A.R w u

/-- impl/exponentially_decaying_reservoir.go:89-124: what `UpdateN` does while it holds the lock. `samples[0]` of an empty slice panics (99).
The loop of 116-122 runs once, because `Delete` never returns nil. -/
def record (r : EDR) (prio : F64) (value : Int) (itemWeight : F64) : Res EDR :=
  let r := { r with count := i64 (r.count + 1) }
  let sample : WeightedSample := ⟨prio, value, itemWeight⟩
  if r.count ≤ r.size then .ok { r with values := SkipList.insert sample r.values }
  else match r.getValues with
    | [] => .panic r
    | first :: _ =>
      if prio.le first.key then .ok r
      else match SkipList.get? sample r.values with
        | some _ => .ok { r with values := SkipList.overwrite sample r.values }
        | none => .ok { r with values := SkipList.insert sample (SkipList.delete first r.values) }

/-- What the environment supplies to one `UpdateN`. -/
structure Env where
  /-- `GetTick()` (132) -/
  tick : Int
  /-- `GetTime()` in `rescale` (163) -/
  scaleTime : Int
  /-- `GetTime()` (79) -/
  time : Int
  /-- `randGenerator.Float64()` (84) -/
  u : F64

/-- impl/exponentially_decaying_reservoir.go:75-125 `UpdateN`, undisturbed -/
def updateN (r : EDR) (env : Env) (value : Int) : Res EDR :=
  let r := rescaleIfNeeded A r env.tick env.scaleTime
  let w := weight A r.alpha (i64 (currentTimeInSecond env.time - r.startTime))
  record r (priority A w env.u) value w

/-- impl/exponentially_decaying_reservoir.go:196-201 `GetSnapshot`: the state it leaves -/
def afterSnapshot (r : EDR) (tick scaleTime : Int) : EDR := rescaleIfNeeded A r tick scaleTime

/-- impl/exponentially_decaying_reservoir.go:196-201 `GetSnapshot`: the snapshot; `cp` is what sorting by value leaves
(Model/WeightedSnapshot.lean) -/
def getSnapshot (r : EDR) (tick scaleTime : Int) (cp : List WeightedSample) : WeightedSnapshot :=
  WeightedSnapshot.new A.R (afterSnapshot A r tick scaleTime).getValues cp

/-- The state-changing API calls. -/
inductive Op where
  | updateN (env : Env) (value : Int)
  | getSnapshot (tick scaleTime : Int)

/-- One call. -/
def step (r : EDR) : Op → Res EDR
  | .updateN env v => updateN A r env v
  | .getSnapshot tick t => .ok (afterSnapshot A r tick t)

/-- A history of calls that do not overlap; a panicking call leaves its state behind. -/
def run (r : EDR) (h : List Op) : EDR := h.foldl (fun r o => (step A r o).state) r

/-- reservoir.go: this reservoir as a component of a compass (impl/default_compass.go:220-221). -/
def impl : ReservoirImpl EDR Env := ⟨fun r x v => updateN A r x v⟩

end EDR
end GoMetrics
