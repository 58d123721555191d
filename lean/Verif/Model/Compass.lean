import Verif.Model.BucketCounter
import Verif.Model.EWMA
/-! # Compass (impl/default_compass.go), sequential semantics

The concurrent semantics of `tickIfNecessary` is in Model/CompassConc.lean. -/
namespace GoMetrics

/-- reservoir.go `Reservoir`, the mutating half: `updateN` may consult its environment (clock readings, random draws), of type
`X`, and may panic. The reservoirs of this repository are modelled in their own files; nothing is assumed about it here. -/
structure ReservoirImpl (σ X : Type) where
  updateN : σ → X → Int → Res σ

/-- impl/default_compass.go:32-78 `DefaultCompass`. The clock is not a field: readings are inputs. -/
structure Compass (σ : Type) where
  totalCount : BucketCounter
  successCount : BucketCounter
  errorCodes : GoMap String BucketCounter
  addons : GoMap String BucketCounter
  m1Rate : EWMA
  m5Rate : EWMA
  m15Rate : EWMA
  startTime : Int
  lastTick : Int
  uncounted : Int
  maxErrorCodeCount : Int
  maxAddonCount : Int
  bucketInterval : Int
  numberOfBucket : Nat
  reservoir : σ

namespace Compass
variable {σ X : Type}

/-- impl/default_compass.go:30 `tickInterval` in nanoseconds. -/
def tickInterval : Int := 5000000000

/-- The clock readings `GetTime()` made while a compass is created, in the order of the source. -/
structure NewEnv where
  /-- newBucketCounterImpl for `totalCount` -/
  tTotal : Int
  /-- `now` -/
  now : Int
  /-- newBucketCounterImpl for `successCount` -/
  tSuccess : Int

/-- impl/default_compass.go:247-266 `NewCompass` (and, given the reservoir it builds, 213-245 `NewCompassWithType`), for
`numOfBucket ≥ 0` (otherwise `newBucketCounterImpl` panics). The three moving averages are not set: they are zero values. -/
def new (reservoir : σ) (numOfBucket : Nat) (bucketInterval maxErrorCodeCount maxAddonCount : Int) (env : NewEnv) :
    Compass σ where
  totalCount := BucketCounter.new bucketInterval numOfBucket env.tTotal true
  successCount := BucketCounter.new bucketInterval numOfBucket env.tSuccess true
  errorCodes := []
  addons := []
  m1Rate := EWMA.zeroValue
  m5Rate := EWMA.zeroValue
  m15Rate := EWMA.zeroValue
  startTime := env.now
  lastTick := env.now
  uncounted := 0
  maxErrorCodeCount := maxErrorCodeCount
  maxAddonCount := maxAddonCount
  bucketInterval := bucketInterval
  numberOfBucket := numOfBucket
  reservoir := reservoir

/-- impl/default_compass.go:200-207: one iteration of the tick loop, undisturbed. -/
def tickOnce (R : Rounding) (c : Compass σ) : Compass σ :=
  { c with
    uncounted := 0
    m1Rate := c.m1Rate.tickN R c.uncounted
    m5Rate := c.m5Rate.tickN R c.uncounted
    m15Rate := c.m15Rate.tickN R c.uncounted }

/-- impl/default_compass.go:193 `age` when the clock says `tick`. -/
def age (c : Compass σ) (tick : Int) : Int := i64 (tick - c.lastTick)

/-- impl/default_compass.go:194, 197-198: how many times the loop body runs when the clock says `tick`. -/
def ticksDue (c : Compass σ) (tick : Int) : Nat :=
  if c.age tick > tickInterval then ((c.age tick).tdiv tickInterval).toNat else 0

/-- impl/default_compass.go:190-211 `tickIfNecessary`; `tick` is the reading of line 192. The CAS succeeds (no concurrency).
The `%` of line 195 panics for a zero bucket interval. -/
def tickIfNecessary (R : Rounding) (c : Compass σ) (tick : Int) : Res (Compass σ) :=
  if c.age tick > tickInterval then
    if c.bucketInterval = 0 then .panic c
    else
      .ok ((tickOnce R)^[c.ticksDue tick] { c with lastTick := i64 (tick - (c.age tick).tmod c.bucketInterval) })
  else .ok c

/-- What the environment supplies to one call: every reading is separate. -/
structure Env (X : Type) where
  /-- `GetTick()` in `tickIfNecessary` -/
  tick : Int
  /-- `GetTime()` in `totalCount.Update()` -/
  tTotal : Int
  /-- the reservoir's environment -/
  x : X
  /-- `GetTime()` in `successCount.Update()` -/
  tSuccess : Int
  /-- `GetTime()` when a new error counter is created, and in its `Update()` -/
  tErrNew : Int
  tErr : Int
  /-- the same for the addon counter -/
  tAddonNew : Int
  tAddon : Int

/-- impl/default_compass.go:181 -/
def addUncounted (c : Compass σ) : Compass σ := { c with uncounted := i64 (c.uncounted + 1) }

/-- impl/default_compass.go:179-184 `Update`; `duration` in nanoseconds. -/
def update (R : Rounding) (S : ReservoirImpl σ X) (c : Compass σ) (env : Env X) (duration : Int) : Res (Compass σ) :=
  (c.tickIfNecessary R env.tick).andThen fun c =>
  ((c.addUncounted.totalCount.update env.tTotal).lift fun b => { c.addUncounted with totalCount := b }).andThen fun c =>
  (S.updateN c.reservoir env.x duration).lift fun r => { c with reservoir := r }

/-- impl/default_compass.go:170-177 `findOrNewCounter` and the `Update()` on its result (159, 166): without a counter the
method call on the nil interface panics. `t0` is the reading of a new counter's constructor. -/
def bump (interval : Int) (n : Nat) (maxCount : Int) (m : GoMap String BucketCounter) (key : String) (t0 t : Int) :
    Res (GoMap String BucketCounter) :=
  match m.get? key with
  | some bc => (bc.update t).lift fun b => m.set key b
  | none =>
    if (m.length : Int) < maxCount then
      ((BucketCounter.new interval n t0 true).update t).lift fun b => m.set key b
    else .panic m

/-- impl/default_compass.go:150-152 -/
def successStep (c : Compass σ) (t : Int) (isSuccess : Bool) : Res (Compass σ) :=
  if isSuccess then (c.successCount.update t).lift fun b => { c with successCount := b } else .ok c

/-- impl/default_compass.go:154-160 -/
def errorStep (c : Compass σ) (t0 t : Int) (errorCode : String) : Res (Compass σ) :=
  if errorCode.length > 0 then
    (bump c.bucketInterval c.numberOfBucket c.maxErrorCodeCount c.errorCodes errorCode t0 t).lift
      fun m => { c with errorCodes := m }
  else .ok c

/-- impl/default_compass.go:162-167 -/
def addonStep (c : Compass σ) (t0 t : Int) (addon : String) : Res (Compass σ) :=
  if addon.length > 0 then
    (bump c.bucketInterval c.numberOfBucket c.maxAddonCount c.addons addon t0 t).lift
      fun m => { c with addons := m }
  else .ok c

/-- impl/default_compass.go:148-168 `UpdateWithError`. -/
def updateWithError (R : Rounding) (S : ReservoirImpl σ X) (c : Compass σ) (env : Env X) (duration : Int)
    (isSuccess : Bool) (errorCode addon : String) : Res (Compass σ) :=
  (c.update R S env duration).andThen fun c =>
  (c.successStep env.tSuccess isSuccess).andThen fun c =>
  (c.errorStep env.tErrNew env.tErr errorCode).andThen fun c =>
  c.addonStep env.tAddonNew env.tAddon addon

/-- impl/default_compass.go:144-146 `GetCount`. -/
def getCount (c : Compass σ) : Int := c.totalCount.getCount
/-- impl/default_compass.go:128-130 `GetSuccessCount`. -/
def getSuccessCount (c : Compass σ) : Int := c.successCount.getCount
/-- impl/default_compass.go:108-110 `GetBucketSuccessCount` (the counter itself, which is shared with the compass). -/
def getBucketSuccessCount (c : Compass σ) : BucketCounter := c.successCount
/-- impl/default_compass.go:120-126 `GetErrorCodeCounts` (a copy of the map; the counters are shared). -/
def getErrorCodeCounts (c : Compass σ) : GoMap String BucketCounter := c.errorCodes
/-- impl/default_compass.go:112-118 `GetAddonCounts`. -/
def getAddonCounts (c : Compass σ) : GoMap String BucketCounter := c.addons
/-- impl/default_compass.go:80-82 `GetInstantCountInterval`. -/
def getInstantCountInterval (c : Compass σ) : Int := c.bucketInterval
/-- impl/default_compass.go:136-138 `GetInstantCountSince`; `t` is the clock reading. -/
def getInstantCountSince (c : Compass σ) (t startTime : Int) : Option (GoMap Int Int) :=
  c.totalCount.getBucketCountsSince t startTime
/-- impl/default_compass.go:132-134 `GetInstantCount`. -/
def getInstantCount (c : Compass σ) (t : Int) : Option (GoMap Int Int) := c.totalCount.getBucketCounts t
/-- impl/default_compass.go:140-142 `LastUpdateTime`. -/
def lastUpdateTime (c : Compass σ) : Int := c.totalCount.lastUpdateTime

/-- `time.Second.Nanoseconds()` -/
def second : Int := 1000000000

/-- impl/default_compass.go:103-106 `GetOneMinuteRate`: the rate returned (the state it leaves is `tickIfNecessary`'s). -/
def getOneMinuteRate (R : Rounding) (c : Compass σ) (tick : Int) : F64 :=
  (c.tickIfNecessary R tick).state.m1Rate.getRate R second
/-- impl/default_compass.go:89-92 `GetFiveMinuteRate`. -/
def getFiveMinuteRate (R : Rounding) (c : Compass σ) (tick : Int) : F64 :=
  (c.tickIfNecessary R tick).state.m5Rate.getRate R second
/-- impl/default_compass.go:84-87 `GetFifteenMinuteRate`. -/
def getFifteenMinuteRate (R : Rounding) (c : Compass σ) (tick : Int) : F64 :=
  (c.tickIfNecessary R tick).state.m15Rate.getRate R second

/-- impl/default_compass.go:94-101 `GetMeanRate`; `tick` is the clock reading. -/
def getMeanRate (R : Rounding) (c : Compass σ) (tick : Int) : F64 :=
  let count := c.getCount
  let elapsed := i64 (tick - c.startTime)
  if count = 0 ∨ elapsed ≤ 0 then .fin 0
  else F64.mul R (F64.div R (F64.ofInt R count) (F64.ofInt R elapsed)) (F64.ofInt R second)

/-- The state-changing API calls. `readRate` is any of the three moving-average getters. -/
inductive Op where
  | update (duration : Int)
  | updateWithError (duration : Int) (isSuccess : Bool) (errorCode addon : String)
  | readRate
  deriving DecidableEq

/-- One call. -/
def step (R : Rounding) (S : ReservoirImpl σ X) (c : Compass σ) (env : Env X) : Op → Res (Compass σ)
  | .update d => c.update R S env d
  | .updateWithError d s e a => c.updateWithError R S env d s e a
  | .readRate => c.tickIfNecessary R env.tick

/-- A history of calls, each with its environment; a panicking call leaves its state behind. -/
def run (R : Rounding) (S : ReservoirImpl σ X) (c : Compass σ) (h : List (Env X × Op)) : Compass σ :=
  h.foldl (fun c e => (step R S c e.1 e.2).state) c

end Compass
end GoMetrics
