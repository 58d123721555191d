import Verif.Model.BucketReader
import Verif.Model.BucketReservoir
/-! # A compass with a bucket reservoir under concurrent use: the pair of counters (impl/default_compass.go:179-188, impl/bucket_reservoir.go:38-51)

`Update` counts in `totalCount` (line 182) and adds the duration to the reservoir's `valuePerBucket` (line 183); `GetSnapshot` reads the two counters one
after the other. Both counters are modelled with their single loads, stores and atomic operations. Not here: `tickIfNecessary` and `uncounted`
(lines 180-181) and the success and label counters (lines 150-167), which touch neither counter. Snapshots write nothing, so it is enough to follow
one of them beside any number of updates. Simplification: plain loads and stores are sequentially consistent. -/
namespace GoMetrics
namespace BucketPair
open BucketCounter (Call ReadPC)

/-- The two counters: `totalCount` of the compass, which is `countPerBucket` of its reservoir (impl/default_compass.go:223), and `valuePerBucket`
(impl/bucket_reservoir.go:27-32). -/
structure Shared where
  count : BucketCounter
  value : BucketCounter
  deriving DecidableEq

/-- A call of `Update(d)`: its two inner calls `totalCount.Update()` and `valuePerBucket.UpdateN(d)`. -/
structure Upd where
  count : Call
  value : Call
  deriving DecidableEq

/-- Has `totalCount.Update()` returned? -/
def counted (c : Call) : Bool :=
  match c.pc with
  | .done _ _ => true
  | _ => false

/-- One atomic step of `Update` (impl/default_compass.go:182-183, impl/bucket_reservoir.go:38-40): the second inner call begins when the first has
returned. A call that panicked in the first never begins the second. -/
def updStep (s : Shared) (t : Int) (u : Upd) : Shared × Upd :=
  if counted u.count then
    ({ s with value := (BucketCounter.callStep s.value t u.value).1 }, { u with value := (BucketCounter.callStep s.value t u.value).2 })
  else ({ s with count := (BucketCounter.callStep s.count t u.count).1 }, { u with count := (BucketCounter.callStep s.count t u.count).2 })

/-- The interleaving semantics of `Update`. -/
def conc : Machine Shared Upd Int Int where
  call d := ⟨⟨1, .start⟩, ⟨d, .start⟩⟩
  step := updStep

/-- Where a `GetSnapshot` is (impl/bucket_reservoir.go:42-51). -/
inductive SnapPC where
  /-- line 43: about to read the clock -/
  | align
  /-- line 44: inside `valuePerBucket.GetBucketCountsSince(start)`, or at line 45 when that is over -/
  | value (start : Int) (r : ReadPC)
  /-- line 47: inside `countPerBucket.GetBucketCountsSince(start)`, or at line 48 when that is over; `v` is `value` -/
  | count (start v : Int) (r : ReadPC)
  | done (b : BucketSnapshot)
  | panicked
  deriving DecidableEq

/-- One atomic step of `GetSnapshot`; `x.1` is the clock reading and `x.2` says which entry of a map comes first, for the steps that use them. -/
def snapStep (interval : Int) (s : Shared) (x : Int × Nat) : SnapPC → SnapPC
  | .align =>
    match BucketReservoir.alignToBucketStartTimeInMs interval x.1 with
    | none => .panicked
    | some start => .value start .clock
  | .value start (.done m) => .count start (BucketReservoir.fetchValueFromMap m x.2) .clock
  | .value _ .panicked => .panicked
  | .value start r => .value start (BucketCounter.readStep start s.value x.1 r)
  | .count _ v (.done m) => .done ⟨BucketReservoir.fetchValueFromMap m x.2, v⟩
  | .count _ _ .panicked => .panicked
  | .count start v r => .count start v (BucketCounter.readStep start s.count x.1 r)
  | .done b => .done b
  | .panicked => .panicked

/-- An event: of the updates (`inl`), or one step of the snapshot (`inr`). -/
abbrev Event := Ev Int Int ⊕ (Int × Nat)

/-- Effect of one event. -/
def eventStep (interval : Int) (st : Pool Shared Upd × SnapPC) : Event → Pool Shared Upd × SnapPC
  | .inl e => (conc.apply st.1 e, st.2)
  | .inr x => (st.1, snapStep interval st.1.shared x st.2)

/-- impl/default_compass.go:216, 223, impl/bucket_reservoir.go:72-79: two new counters with the same interval and number of buckets; `t1`, `t2` are the
clock readings of their constructors. -/
def Shared.new (interval : Int) (n : Nat) (t1 t2 : Int) : Shared := ⟨BucketCounter.new interval n t1 true, BucketCounter.new interval n t2 true⟩

/-- A fresh compass and a `GetSnapshot` that has not started, after the events `es`. -/
def after (interval : Int) (n : Nat) (t1 t2 : Int) (es : List Event) : Pool Shared Upd × SnapPC :=
  es.foldl (eventStep interval) (Machine.start (Shared.new interval n t1 t2), .align)

end BucketPair
end GoMetrics
