import Verif.Model.FastCompassReader
import Verif.Model.BucketReaderWild
/-! # A getter of a fast compass at one category, beside `Record` calls, whatever its loads return (impl/default_fast_compass.go:111-159)

`Record` loads and stores under the lock, so its loads return what was stored last; the getters take no lock. This is Model/FastCompassReader.lean with the query of Model/BucketReaderWild.lean. The
query gets hold of the category's counter as such: that a getter without the lock could see the map half changed is C18. -/
namespace GoMetrics
namespace FastCompassConc

/-- The `Record` calls, the query, and the states of the buckets of the category's counter so far (impl/default_fast_compass.go:83-105; 111-159). -/
structure WildWatched where
  pool : Pool (Guard FastCompass Arg Int Bool) (GuardPC Arg (Arg × RecPC) Int Bool Empty Empty Empty)
  query : BucketCounter.ReadPC
  past : List BHeap

/-- Effect of one event: of the `Record` calls (impl/default_fast_compass.go:83-105), or one step of the query (impl/default_fast_compass.go:113-115, impl/default_bucket_counter.go:130-143). -/
def wildWatchStep (start : Int) (cat : String) (w : WildWatched) : Ev (Arg ⊕ Empty) Int ⊕ BucketCounter.Looked → WildWatched
  | .inl e =>
    let pool := guarded.machine.apply w.pool e
    ⟨pool, w.query, match pool.shared.obj.subCategories.get? cat with
      | none => w.past
      | some b => w.past ++ [b.heap]⟩
  | .inr x =>
    match w.pool.shared.obj.subCategories.get? cat with
    | none => w
    | some b => ⟨w.pool, BucketCounter.wildReadStep start b w.past x w.query, w.past⟩

/-- A fresh compass (impl/default_fast_compass.go:165-174) and a query since `start` for category `cat` that has not started, after the events `es`. -/
def wildWatch (interval : Int) (N : Nat) (limit start : Int) (cat : String) (es : List (Ev (Arg ⊕ Empty) Int ⊕ BucketCounter.Looked)) : WildWatched :=
  es.foldl (wildWatchStep start cat) ⟨Guarded.init (FastCompass.new interval N limit), .clock, []⟩

end FastCompassConc
end GoMetrics
