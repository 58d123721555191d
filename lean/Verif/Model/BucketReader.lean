import Verif.Model.BucketCounterConc
/-! # `GetBucketCountsSince` running beside `UpdateN` calls (impl/default_bucket_counter.go:130-143, impl/bucket_queue.go:84-104)

The query takes no lock: it loads `current` twice, then one slot after the other, then one count after the other. Queries write nothing, so
it is enough to follow one of them beside any number of `UpdateN` calls. Simplification: plain loads and stores are sequentially consistent,
and a 64-bit load is never torn. -/
namespace GoMetrics
namespace BucketCounter

/-- Where a `GetBucketCountsSince` is; `now` is its `currentTs`. -/
inductive ReadPC where
  /-- default_bucket_counter.go:132: about to read the clock -/
  | clock
  /-- bucket_queue.go:87: about to load `bq.current` -/
  | pos (now : Int)
  /-- bucket_queue.go:89: about to load `bq.current` again -/
  | again (now : Int) (startPos : Nat)
  /-- bucket_queue.go:89: about to load the slot `cur` and its timestamp -/
  | startTs (now : Int) (startPos cur : Nat)
  /-- bucket_queue.go:91-101: about to load the slots `first`, then `second`; `acc` is `result` -/
  | slots (now startTs : Int) (first second : List Nat) (acc : List Nat)
  /-- default_bucket_counter.go:135-141: about to look at the buckets `todo`; `result` is `result` -/
  | counts (now : Int) (todo : List Nat) (result : GoMap Int Int)
  | done (result : GoMap Int Int)
  /-- division by zero at line 132 -/
  | panicked
  deriving DecidableEq

/-- One atomic step of `GetBucketCountsSince(startTime)`; `t` is the clock reading, used by the first step only. -/
def readStep (startTime : Int) (b : BucketCounter) (t : Int) : ReadPC → ReadPC
  | .clock =>
    match alignTimestamp b.interval t with
    | none => .panicked
    | some now => .pos now
  | .pos now => .again now b.buckets.current
  | .again now startPos => .startTs now startPos b.buckets.current
  | .startTs now startPos cur =>
    .slots now (b.heap.at (b.buckets.slot cur)).timestamp (Deque.loop1 startPos (b.buckets.queue.length - 1) startPos)
      (Deque.loop2 startPos (b.buckets.queue.length - 1)) []
  | .slots now startTs (i :: first) second acc => .slots now startTs first second (acc ++ [b.buckets.slot i])
  | .slots now startTs [] (i :: second) acc =>
    .slots now startTs [] second
      (if (b.heap.at (b.buckets.slot i)).timestamp ≤ startTs then acc ++ [b.buckets.slot i] else acc)
  | .slots now _ [] [] acc => .counts now acc []
  | .counts now (p :: todo) result => .counts now todo (collect b.heap startTime now result p)
  | .counts _ [] result => .done result
  | .done result => .done result
  | .panicked => .panicked

/-- An event: of the `UpdateN` calls (`inl`), or one step of the query with a clock reading (`inr`). -/
abbrev WatchEv := Ev Int Int ⊕ Int

/-- Effect of one event. -/
def watchStep (startTime : Int) (st : Pool BucketCounter Call × ReadPC) : WatchEv → Pool BucketCounter Call × ReadPC
  | .inl e => (conc.apply st.1 e, st.2)
  | .inr t => (st.1, readStep startTime st.1.shared t st.2)

/-- A fresh counter and a query `GetBucketCountsSince(startTime)` that has not started, after the events `es`. -/
def watch (interval : Int) (N : Nat) (t0 : Int) (u : Bool) (startTime : Int) (es : List WatchEv) : Pool BucketCounter Call × ReadPC :=
  es.foldl (watchStep startTime) (Machine.start (new interval N t0 u), .clock)

/-- The events of the `UpdateN` calls. -/
def updates (es : List WatchEv) : List (Ev Int Int) := es.filterMap Sum.getLeft?

end BucketCounter
end GoMetrics
