import Verif.Model.BucketCounter
import Verif.Model.Pool
/-! # FastCompass (impl/default_fast_compass.go) -/
namespace GoMetrics

/-- impl/default_fast_compass.go:42 `countBase`. -/
def countBase : Int := 2 ^ 38

/-- impl/default_fast_compass.go:62-70 `FastCompassImpl`; the clock and the mutex are not fields (readings are inputs,
the mutex appears in the concurrent model below). -/
structure FastCompass where
  maxSubCategoryCount : Int
  bucketInterval : Int
  numberOfBuckets : Int
  subCategories : GoMap String BucketCounter

namespace FastCompass

/-- impl/default_fast_compass.go:165-174 `newFastCompass`; `maxSub` is the configured
`GetMaxSubCategoryCount()`. -/
def new (interval : Int) (bucketCount : Int) (maxSub : Int) : FastCompass :=
  ⟨maxSub, interval, bucketCount, []⟩

/-- A call `Record(duration, subCategory)`. `t0` is the clock reading of the constructor of a new bucket counter,
`t` the one of `UpdateN`. Durations are nanoseconds. -/
structure Rec where
  t0 : Int
  t : Int
  duration : Int
  subCategory : String
  deriving DecidableEq

/-- impl/default_fast_compass.go:104 the amount `countBase + duration.Nanoseconds()/1e6` (no overflow: at most
`2^38 + 2^63/10^6`). -/
def packed (duration : Int) : Int := countBase + duration.tdiv 1000000

/-- impl/default_fast_compass.go:83-105 `Record`. -/
def record (fc : FastCompass) (r : Rec) : Res FastCompass :=
  if r.duration < 0 ∨ r.subCategory.length = 0 then .ok fc
  else
    match fc.subCategories.get? r.subCategory with
    | some bc =>
      (bc.updateN r.t (packed r.duration)).lift
        (fun bc' => { fc with subCategories := fc.subCategories.set r.subCategory bc' })
    | none =>
      if (fc.subCategories.length : Int) ≥ fc.maxSubCategoryCount then .ok fc
      else
        match BucketCounter.newImpl fc.bucketInterval fc.numberOfBuckets r.t0 false with
        | none => .panic fc
        | some bc =>
          (bc.updateN r.t (packed r.duration)).lift
            (fun bc' => { fc with subCategories := fc.subCategories.set r.subCategory bc' })

/-- A history of `Record` calls. -/
def run (fc : FastCompass) (h : List Rec) : FastCompass := h.foldl (fun fc r => (fc.record r).state) fc

/-- `int64(uint64(count) >> countOffset)`, impl/default_fast_compass.go:118 (the result is below 2^26). -/
def countOf (count : Int) : Int := u64 count / 2 ^ 38

/-- `int64(uint64(count) & rtBitwiseAndBase)`, impl/default_fast_compass.go:136. -/
def rtOf (count : Int) : Int := u64 count % 2 ^ 38

/-- The inner loop shared by the three getters: impl/default_fast_compass.go:115-119, 133-137, 151-155. -/
def mapValues (f : Int → Int) (m : GoMap Int Int) : GoMap Int Int := m.map (fun e => (e.1, f e.2))

/-- The outer loop shared by the three getters (impl/default_fast_compass.go:113-121, 131-139, 149-157): each category's
counter reads the clock itself, `clock cat` is that reading. `none` is a panic. -/
def collect (f : Int → Int) (clock : String → Int) (startTime : Int) :
    GoMap String BucketCounter → Option (GoMap String (GoMap Int Int))
  | [] => some []
  | (key, value) :: rest =>
    match value.getBucketCountsSince (clock key) startTime, collect f clock startTime rest with
    | some bkCnt, some result => some ((key, mapValues f bkCnt) :: result)
    | _, _ => none

/-- impl/default_fast_compass.go:111-123 `GetMethodCountPerCategorySince`. -/
def getMethodCountPerCategorySince (fc : FastCompass) (clock : String → Int) (startTime : Int) :=
  collect countOf clock startTime fc.subCategories

/-- impl/default_fast_compass.go:129-141 `GetMethodRtPerCategorySince`. -/
def getMethodRtPerCategorySince (fc : FastCompass) (clock : String → Int) (startTime : Int) :=
  collect rtOf clock startTime fc.subCategories

/-- impl/default_fast_compass.go:147-159 `GetCountAndRtPerCategorySince`. -/
def getCountAndRtPerCategorySince (fc : FastCompass) (clock : String → Int) (startTime : Int) :=
  collect id clock startTime fc.subCategories

/-- impl/default_fast_compass.go:107-109 `GetMethodCountPerCategory`. -/
def getMethodCountPerCategory (fc : FastCompass) (clock : String → Int) :=
  fc.getMethodCountPerCategorySince clock 0
/-- impl/default_fast_compass.go:125-127 `GetMethodRtPerCategory`. -/
def getMethodRtPerCategory (fc : FastCompass) (clock : String → Int) :=
  fc.getMethodRtPerCategorySince clock 0
/-- impl/default_fast_compass.go:143-145 `GetCountAndRtPerCategory`. -/
def getCountAndRtPerCategory (fc : FastCompass) (clock : String → Int) :=
  fc.getCountAndRtPerCategorySince clock 0

/-- impl/default_fast_compass.go:72-81 `LastUpdateTime`. -/
def lastUpdateTime (fc : FastCompass) : Int :=
  fc.subCategories.foldl
    (fun result e => if result < e.2.lastUpdateTime then e.2.lastUpdateTime else result) 0

/-- impl/default_fast_compass.go:161-163 `GetBucketInterval`. -/
def getBucketInterval (fc : FastCompass) : Int := fc.bucketInterval

/-! ## Synchronisation of the category map (for C18)

Only who touches the map when: `Record` checks its arguments, locks, looks up, compares the size with the limit, inserts and unlocks
(impl/default_fast_compass.go:84-102, `defer` at 89); a getter ranges over the map without locking (lines 113, 131, 149; `LastUpdateTime`
line 74). The map operations are intervals in time: Go crashes ("concurrent map iteration and map write") when an iteration overlaps an
insertion. The bucket counters in the map are left out. -/

/-- What a call is doing to the map. -/
inductive SyncPC where
  /-- line 84 -/
  | recordStart (duration : Int) (cat : String)
  /-- line 88 -/
  | locking (cat : String)
  /-- line 90 -/
  | lookup (cat : String)
  /-- line 92 -/
  | limit (cat : String)
  /-- inside the map assignment of line 101 -/
  | inserting (cat : String)
  /-- lines 102-104, then the deferred unlock -/
  | unlocking
  /-- lines 74, 113, 131, 149 -/
  | getterStart
  /-- inside the range loop -/
  | iterating
  | finished
  deriving DecidableEq, Repr

/-- The shared memory: `subCategoriesMutex`, the keys of `subCategories`, and the limit. -/
structure SyncState where
  held : Bool
  cats : List String
  max : Int
  deriving DecidableEq, Repr

/-- A call's argument: `some (duration, category)` a `Record`, `none` a getter. -/
def sync : Machine SyncState SyncPC (Option (Int × String)) Unit where
  call
    | some r => .recordStart r.1 r.2
    | none => .getterStart
  step s _ pc :=
    match pc with
    | .recordStart d c => if d < 0 ∨ c.length = 0 then (s, .finished) else (s, .locking c)
    | .locking c => if s.held then (s, .locking c) else ({ s with held := true }, .lookup c)
    | .lookup c => if c ∈ s.cats then (s, .unlocking) else (s, .limit c)
    | .limit c => if (s.cats.length : Int) ≥ s.max then (s, .unlocking) else (s, .inserting c)
    | .inserting c => ({ s with cats := c :: s.cats }, .unlocking)
    | .unlocking => ({ s with held := false }, .finished)
    | .getterStart => (s, .iterating)
    | .iterating => (s, .finished)
    | .finished => (s, .finished)

end FastCompass
end GoMetrics
