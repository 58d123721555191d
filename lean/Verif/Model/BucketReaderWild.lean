import Verif.Model.BucketReader
import Verif.Model.BucketCounterWild
/-! # `GetBucketCountsSince` beside `UpdateN` calls, whatever the plain loads of both return

Model/BucketReader.lean's query and Model/BucketCounterWild.lean's calls. The query loads everything with plain loads (impl/default_bucket_counter.go:137-139, impl/bucket_queue.go:87-97): the ring
may look like any ring of pointers to buckets, a timestamp may not be visible yet, and a count may be one that the bucket had before. -/
namespace GoMetrics
namespace BucketCounter

/-- What a step of the query finds. -/
structure Looked where
  /-- the clock -/
  clock : Int
  /-- the ring (impl/bucket_queue.go:87-97) -/
  view : Deque
  /-- timestamps appear as 0: stored with the bucket, but not visible yet -/
  blank : Bool
  /-- the second load of the timestamp (impl/default_bucket_counter.go:138) finds one that is not after `currentTs` -/
  pass : Bool
  /-- which of the earlier states of the buckets the load of a count (impl/default_bucket_counter.go:139) finds -/
  age : Nat

/-- The counter as it appears to a step of the query (impl/default_bucket_counter.go:130-143, impl/bucket_queue.go:84-104). Pointers out of range are brought into range: no such pointer was ever
stored. -/
def Looked.shown (x : Looked) (b : BucketCounter) : BucketCounter :=
  { b with
    heap := if x.blank then b.heap.map (fun k => { k with timestamp := 0 }) else b.heap
    buckets := ⟨x.view.queue.map (· % b.heap.length), x.view.current⟩ }

/-- One step of `GetBucketCountsSince(startTime)` (impl/default_bucket_counter.go:130-143); `past` are the states of the buckets so far. -/
def wildReadStep (startTime : Int) (b : BucketCounter) (past : List BHeap) (x : Looked) : ReadPC → ReadPC
  | .counts now (p :: todo) result =>
    let timestamp := ((x.shown b).heap.at p).timestamp
    .counts now todo (if secondToMsRate * timestamp ≥ startTime ∧ x.pass = true then
      result.set (secondToMsRate * timestamp) (((past[x.age]?).getD b.heap).at p).count else result)
  | c => readStep startTime (x.shown b) x.clock c

/-- The calls, the query, and the states of the buckets so far (impl/default_bucket_counter.go:102-143). -/
structure Watched where
  pool : Pool BucketCounter Call
  query : ReadPC
  past : List BHeap

/-- Effect of one event: of the `UpdateN` calls (impl/default_bucket_counter.go:102-124), or one step of the query (impl/default_bucket_counter.go:130-143). -/
def wildWatchStep (startTime : Int) (w : Watched) : Ev Int Seen ⊕ Looked → Watched
  | .inl e => ⟨wild.apply w.pool e, w.query, w.past ++ [(wild.apply w.pool e).shared.heap]⟩
  | .inr x => ⟨w.pool, wildReadStep startTime w.pool.shared w.past x w.query, w.past⟩

/-- A fresh counter (impl/default_bucket_counter.go:46-65) and a query `GetBucketCountsSince(startTime)` that has not started, after the events `es`. -/
def wildWatch (interval : Int) (N : Nat) (t0 : Int) (u : Bool) (startTime : Int) (es : List (Ev Int Seen ⊕ Looked)) : Watched :=
  es.foldl (wildWatchStep startTime) ⟨Machine.start (new interval N t0 u), .clock, [(new interval N t0 u).heap]⟩

/-- The events of the `UpdateN` calls. -/
def wildUpdates (es : List (Ev Int Seen ⊕ Looked)) : List (Ev Int Seen) := es.filterMap Sum.getLeft?

end BucketCounter
end GoMetrics
