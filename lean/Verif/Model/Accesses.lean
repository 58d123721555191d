import Verif.Spec.Races
import Verif.Model.RWLock
import Verif.Model.EWMA
import Verif.Model.MetricName
import Verif.Model.CompassConc
import Verif.Model.CompassUpdateConc
import Verif.Model.EDRConc
import Verif.Model.Registry
import Verif.Model.BucketReader
/-! # Which memory the steps of the methods access, and how (for C88)

For each small-step model: the fields of the object as locations, and for each place in the code the accesses of the next step. `atomic` is written
where the source calls `sync/atomic`, locks, unlocks, or uses a `sync.Map` or a `sync.Once`; `plain` where it reads or writes the field directly.
`Footprint.Honest`, proved for each of them in Proofs/Races.lean, says that the steps access nothing else. Fields that are set by a constructor and never
again are one location (`const`). Memory that a step allocates exists only afterwards. -/
namespace GoMetrics

section
variable {Loc : Type}
/-- ordinary load, ordinary store, atomic load, atomic store or read-modify-write, load and store in a critical section that is one step -/
def rd (l : Loc) : Access Loc := ⟨l, false, .plain⟩
def wr (l : Loc) : Access Loc := ⟨l, true, .plain⟩
def ard (l : Loc) : Access Loc := ⟨l, false, .atomic⟩
def awr (l : Loc) : Access Loc := ⟨l, true, .atomic⟩
def lrd (l : Loc) : Access Loc := ⟨l, false, .locked⟩
def lwr (l : Loc) : Access Loc := ⟨l, true, .locked⟩
end

namespace Guarded
/-- The object as a whole and its lock. -/
inductive Loc where
  | obj
  | lock
  deriving DecidableEq

variable {S A L I R Q K V : Type}

/-- impl/uniform_reservoir.go:45-69, 86-90 and impl/default_fast_compass.go:88-104: all code between lock and unlock accesses the object directly. -/
def footprint : Footprint (Guard S A I R) (GuardPC A L I R Q K V) Loc where
  V
    | .obj => S
    | .lock => Bool × Nat
  val
    | .obj, s => s.obj
    | .lock, s => (s.writer, s.readers)
  live _ _ := True
  acc _
    | .wWait _ | .wOut _ _ | .rWait _ | .rOut _ _ => [awr .lock]
    | .wIn _ _ _ => [wr .obj]
    | .rIn _ _ => [rd .obj]
    | .wDone _ _ | .rDone _ _ => []
end Guarded

namespace EWMA
/-- ewma.go:52-60; `const` are `alpha` and `interval`. -/
inductive Loc where
  | uncounted
  | rate
  | initialized
  | mutex
  | const
  deriving DecidableEq

/-- ewma.go:62-90: `Update` adds atomically (63), `Tick` loads `uncounted` directly (83, 86) and swaps it atomically (85, 87), `TickN` works on `rate` and
`initialized` between lock and unlock (71-79). -/
def footprint : Footprint Shared PC Loc where
  V
    | .uncounted => Int
    | .rate => F64
    | .initialized => Bool
    | .mutex => Bool
    | .const => F64 × Int
  val
    | .uncounted, s => s.e.uncounted
    | .rate, s => s.e.rate
    | .initialized, s => s.e.initialized
    | .mutex, s => s.held
    | .const, s => (s.e.alpha, s.e.interval)
  live _ _ := True
  acc _
    | .update _ => [awr .uncounted]
    | .load => [rd .uncounted]
    | .cas _ => [awr .uncounted]
    | .enter _ _ => [rd .const, awr .mutex]
    | .read _ _ _ => [rd .const, rd .initialized, rd .rate]
    | .store _ _ _ _ => [wr .rate]
    | .setInit _ _ => [wr .initialized]
    | .unlock _ _ => [awr .mutex]
    | .updated _ | .done _ _ => []

/-- ewma.go:96-98 `GetRate`: an ordinary load of `rate`, without the lock. -/
def getRateAccess : Access Loc := rd .rate
end EWMA

namespace BucketCounter
/-- impl/default_bucket_counter.go:39-65, impl/bucket_queue.go:24-47: the total, the pointer `latestBucket`, the position `current` of the queue, its slots,
the timestamp and the count of a bucket; `const` are `updateTotalCount`, `interval` and the length of the queue. -/
inductive Loc where
  | total
  | latest
  | position
  | slot (k : Nat)
  | stamp (p : Nat)
  | count (p : Nat)
  | alloc
  | const
  deriving DecidableEq

/-- Contents of a location. -/
def Loc.V : Loc → Type
  | .total => Int
  | .latest => Nat
  | .position => Nat
  | .slot _ => Option Nat
  | .stamp _ => Option Int
  | .count _ => Option Int
  | .alloc => Nat
  | .const => Bool × Int × Nat

def Loc.val : (l : Loc) → BucketCounter → l.V
  | .total, b => b.totalCount.count
  | .latest, b => b.latestBucket
  | .position, b => b.buckets.current
  | .slot k, b => b.buckets.queue[k]?
  | .stamp p, b => b.heap[p]?.map (·.timestamp)
  | .count p, b => b.heap[p]?.map (·.count)
  | .alloc, b => b.heap.length
  | .const, b => (b.updateTotalCount, b.interval, b.buckets.queue.length)

/-- A bucket's fields exist once it has been allocated. -/
def Loc.live (b : BucketCounter) : Loc → Prop
  | .stamp p => p < b.heap.length
  | .count p => p < b.heap.length
  | _ => True

/-- impl/default_bucket_counter.go:102-124, impl/bucket_queue.go:65-68: the total is increased atomically (104, impl/counter_impl.go:50), `latestBucket` is
loaded directly (108, 120) and swapped atomically (114), the timestamp of a bucket is only read (110), the queue is accessed directly, the count of a
bucket is increased atomically (123). `alloc` is the allocator. -/
def accesses (b : BucketCounter) (c : Call) : List (Access Loc) :=
  match c.pc with
  | .start => [rd .const, awr .total]
  | .clock => [rd .const]
  | .load _ => [rd .latest, rd (.stamp b.latestBucket)]
  | .cas _ _ => [awr .latest, awr .alloc]
  | .reload _ => [rd .latest]
  | .q1 _ _ => [rd .position, rd .const]
  | .q2 _ _ _ => [wr .position]
  | .q3 _ _ => [rd .position]
  | .q4 _ _ k => [wr (.slot k)]
  | .add _ p => [awr (.count p)]
  | .done _ _ | .panicked => []

def footprint : Footprint BucketCounter Call Loc where
  V := Loc.V
  val := Loc.val
  live := Loc.live
  acc := accesses

/-- impl/default_bucket_counter.go:130-143, impl/bucket_queue.go:84-104: `GetBucketCountsSince` takes no lock and loads everything directly. -/
def readAccesses (b : BucketCounter) : ReadPC → List (Access Loc)
  | .clock => [rd .const]
  | .pos _ => [rd .position]
  | .again _ _ => [rd .position]
  | .startTs _ _ cur => [rd .const, rd (.slot cur), rd (.stamp (b.buckets.slot cur))]
  | .slots _ _ (i :: _) _ _ => [rd (.slot i)]
  | .slots _ _ [] (i :: _) _ => [rd (.slot i), rd (.stamp (b.buckets.slot i))]
  | .slots _ _ [] [] _ => []
  | .counts _ (p :: _) _ => [rd (.stamp p), rd (.count p)]
  | .counts _ [] _ | .done _ | .panicked => []

/-- impl/default_bucket_counter.go:70 `LastUpdateTime`; impl/counter_impl.go:42 `GetCount`. -/
def lastUpdateTimeAccess : Access Loc := rd .latest
def getCountAccess : Access Loc := rd .total
end BucketCounter

namespace MetricName
/-- metric_name.go:33-39; `done` and `mutex` are those of the `sync.Once`. -/
inductive Loc where
  | key
  | tags
  | hashKey
  | done
  | mutex
  deriving DecidableEq

/-- metric_name.go:48-61. `Once.Do` loads `done` atomically, then under its lock once more (here: directly), and stores it atomically. -/
def footprint : Footprint Shared PC Loc where
  V
    | .key => GoStr
    | .tags => GoMap GoStr GoStr
    | .hashKey => GoStr
    | .done => Bool
    | .mutex => Bool
  val
    | .key, s => s.key
    | .tags, s => s.tags
    | .hashKey, s => s.hashKey
    | .done, s => s.done
    | .mutex, s => s.locked
  live _ _ := True
  acc _
    | .fast => [ard .done]
    | .lock => [awr .mutex]
    | .recheck => [rd .done]
    | .writeKey => [rd .key, wr .hashKey]
    | .lenCheck => [rd .tags]
    | .writeSep => [wr .hashKey]
    | .range => [rd .tags]
    | .loop [] => [rd .tags]
    | .loop (_ :: _) => [rd .tags, wr .hashKey]
    | .setDone => [awr .done]
    | .unlock => [awr .mutex]
    | .ret => [rd .hashKey]
    | .setKey _ => [wr .key]
    | .setTags _ => [wr .tags]
    | .returned _ | .finished => []
end MetricName

namespace CompassConc
/-- impl/default_compass.go:50-68: `lastTick`, `uncounted`, the three averages (see `EWMA.footprint`); `const` is the bucket interval, which the model has as
a parameter. -/
inductive TickLoc where
  | lastTick
  | uncounted
  | m1
  | m5
  | m15
  deriving DecidableEq

/-- impl/default_compass.go:181, 190-211: `lastTick` is loaded directly (191) and swapped atomically (196), `uncounted` is only accessed atomically
(181, 201-203); a `TickN` is one step here, under the average's lock. The log of an average (`fed1` ...) stands for the average. -/
def tickFootprint : Footprint Shared PC TickLoc where
  V
    | .lastTick => Int
    | .uncounted => Int
    | .m1 => List Int
    | .m5 => List Int
    | .m15 => List Int
  val
    | .lastTick, s => s.lastTick
    | .uncounted, s => s.uncounted
    | .m1, s => s.fed1
    | .m5, s => s.fed5
    | .m15, s => s.fed15
  live _ _ := True
  acc _
    | .readOld _ => [rd .lastTick]
    | .readClock _ _ => []
    | .swap _ _ _ _ => [awr .lastTick]
    | .load _ _ => [ard .uncounted]
    | .take _ _ _ => [awr .uncounted]
    | .tick1 _ _ _ => [lwr .m1]
    | .tick5 _ _ _ => [lwr .m5]
    | .tick15 _ _ _ => [lwr .m15]
    | .add => [awr .uncounted]
    | .done _ => []

/-- impl/default_compass.go:38-82: the two bucket counters, the two label maps, their mutexes, and the bucket counters of the labels; `const` are the
limits, the interval and the number of buckets. -/
inductive MarkLoc where
  | total (l : BucketCounter.Loc)
  | success (l : BucketCounter.Loc)
  | mutex (w : Bool)
  | map (w : Bool)
  | counter (w : Bool) (label : String) (l : BucketCounter.Loc)
  | const
  deriving DecidableEq

/-- Contents of a location; of a map: its keys (the counters in it are locations of their own). -/
def MarkLoc.V : MarkLoc → Type
  | .total l => l.V
  | .success l => l.V
  | .mutex _ => Bool
  | .map _ => List String
  | .counter _ _ l => Option l.V
  | .const => Int × Int × Int × Nat

def MarkLoc.val : (l : MarkLoc) → Marks → l.V
  | .total l, s => l.val s.total
  | .success l, s => l.val s.success
  | .mutex w, s => (s.lab w).held
  | .map w, s => (s.lab w).counters.keys
  | .counter w k l, s => ((s.lab w).counters.get? k).map l.val
  | .const, s => ((s.lab false).limit, (s.lab true).limit, s.interval, s.buckets)

/-- A counter exists once it is in its map. -/
def MarkLoc.live (s : Marks) : MarkLoc → Prop
  | .total l => l.live s.total
  | .success l => l.live s.success
  | .counter w k l => ∃ b, (s.lab w).counters.get? k = some b ∧ l.live b
  | _ => True

/-- The same access to a part of a bigger object. -/
def Access.lift {Loc Loc' : Type} (f : Loc → Loc') (a : Access Loc) : Access Loc' := ⟨f a.loc, a.write, a.mode⟩

/-- impl/default_compass.go:148-182: the maps are read (171-172) and written (174) directly, between lock and unlock. -/
def markAccesses (s : Marks) (m : Mark) : List (Access MarkLoc) :=
  match m.pc with
  | .total c => (BucketCounter.accesses s.total c).map (Access.lift .total)
  | .success c => (BucketCounter.accesses s.success c).map (Access.lift .success)
  | .lock w => [awr (.mutex w)]
  | .find w => [rd (.map w), rd .const]
  | .make _ => [rd .const]
  | .insert w _ => [wr (.map w)]
  | .unlock w _ => [awr (.mutex w)]
  | .hit w c =>
    match (s.lab w).counters.get? (m.arg.label w) with
    | none => []
    | some b => (BucketCounter.accesses b c).map (Access.lift (.counter w (m.arg.label w)))
  | .done | .panicked _ | .crashed => []

def markFootprint : Footprint Marks Mark MarkLoc where
  V := MarkLoc.V
  val := MarkLoc.val
  live := MarkLoc.live
  acc := markAccesses

/-- impl/default_compass.go:112-126 `GetErrorCodeCounts` (false) and `GetAddonCounts` (true): the map is ranged over without the mutex. -/
def getLabelsAccess (w : Bool) : Access MarkLoc := rd (.map w)
end CompassConc

namespace EDRConc
/-- impl/exponentially_decaying_reservoir.go:57-66; `const` are `alpha` and `size`. -/
inductive Loc where
  | nextScaleTime
  | startTime
  | count
  | values
  | const
  deriving DecidableEq

/-- impl/exponentially_decaying_reservoir.go:68-201: `nextScaleTime` is loaded directly (133, 134) and swapped atomically (158); `startTime` is loaded directly
without the lock (81) and changed under the lock (163); `count` is loaded directly without the lock by `Size` (69, 70) and changed under the lock; the
samples are only touched under the lock. (The section at 89 also looks at `startTime` here, for the specification only.) -/
def footprint : Footprint Shared PC Loc where
  V
    | .nextScaleTime => Int
    | .startTime => Int
    | .count => Int
    | .values => SkipList
    | .const => F64 × Int
  val
    | .nextScaleTime, s => s.rsv.nextScaleTime
    | .startTime, s => s.rsv.startTime
    | .count, s => s.rsv.count
    | .values, s => s.rsv.values
    | .const, s => (s.rsv.alpha, s.rsv.size)
  live _ _ := True
  acc _
    | .tick _ => []
    | .check _ _ => [rd .nextScaleTime]
    | .reread _ _ _ => [rd .nextScaleTime]
    | .cas _ _ _ _ => [awr .nextScaleTime]
    | .lockScale _ => [rd .const, lwr .startTime, lwr .values, lwr .count]
    | .time _ => []
    | .weigh _ _ => [rd .const, rd .startTime]
    | .lockRecord _ _ _ _ _ _ => [rd .const, lrd .startTime, lwr .count, lwr .values]
    | .lockSnap => [lrd .values]
    | .size1 => [rd .const, rd .count]
    | .size2 => [rd .count]
    | .updated _ _ _ _ | .snapshot _ | .sized _ | .panicked _ => []
end EDRConc

namespace Registry
/-- impl/default_registry.go:30-37, impl/default_metric_manager.go:35-39: of each registry the map and the number of metrics; `const` are the limits. -/
inductive Loc where
  | enable
  | groups
  | map (rid : Nat)
  | count (rid : Nat)
  | alloc
  | const (rid : Nat)
  deriving DecidableEq

/-- impl/default_registry.go:114-142, impl/default_metric_manager.go:41-76: `enable` is read and written directly (42, 54, 58), the two `sync.Map`s through their
methods, `metricsCount` is read directly (128) and increased atomically (139). -/
def footprint : Footprint Mem PC Loc where
  V
    | .enable => Bool
    | .groups => GoMap GoStr Nat
    | .map _ => GoMap GoStr Entry
    | .count _ => Int
    | .alloc => Nat × Nat
    | .const _ => Int
  val
    | .enable, s => s.enable
    | .groups, s => s.groups
    | .map r, s => (s.regs r).metricsMap
    | .count r, s => (s.regs r).metricsCount
    | .alloc, s => (s.nextReg, s.fresh)
    | .const r, s => (s.regs r).maxMetricCount
  live s
    | .map r | .count r | .const r => r < s.nextReg
    | _ => True
  acc _
    | .readEnable _ _ => [rd .enable]
    | .loadGroup _ _ => [ard .groups]
    | .storeGroup _ _ => [awr .groups, awr .alloc]
    | .load _ r => [ard (.map r)]
    | .create _ _ => [awr .alloc]
    | .check _ r _ => [rd (.count r), rd (.const r)]
    | .store _ r _ => [awr (.map r)]
    | .incr _ r _ => [awr (.count r)]
    | .setEnable _ => [wr .enable]
    | .assert _ _ _ | .done _ _ _ | .panicked _ _ | .setDone _ => []
end Registry

namespace Counter
/-- What a goroutine does with a counter (impl/counter_impl.go:37-59): change it, or `GetCount`. -/
inductive Use where
  | op (o : Op)
  | get

/-- Before, or after (with what `GetCount` returned). -/
inductive UsePC where
  | before (u : Use)
  | after (v : Option Int)

/-- impl/counter_impl.go:37-59: each method is one step. -/
def usage : Machine Counter UsePC Use Unit where
  call := .before
  step c _
    | .before (.op o) => (c.step o, .after none)
    | .before .get => (c, .after (some c.getCount))
    | .after v => (c, .after v)

/-- impl/counter_impl.go:42, 46, 50, 54, 58: changes are atomic, `GetCount` is an ordinary load. There is one location. -/
def footprint : Footprint Counter UsePC Unit where
  V _ := Int
  val _ c := c.count
  live _ _ := True
  acc _
    | .before (.op _) => [awr ()]
    | .before .get => [rd ()]
    | .after _ => []
end Counter
end GoMetrics
