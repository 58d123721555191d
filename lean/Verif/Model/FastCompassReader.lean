import Verif.Model.FastCompassConc
import Verif.Model.BucketReader
/-! # A getter of a fast compass at one category, beside `Record` calls (impl/default_fast_compass.go:111-159)

The getters range over the map without the lock and ask one counter after the other (lines 113-115, 131-133, 149-151), so what a getter does for one category is a `GetBucketCountsSince` of that
category's counter, load by load, beside the small steps of all `Record` calls, of which those for other categories concern other counters. Queries write nothing, so it is enough to follow one of
them. The ranging over the map itself is Model/FastCompass.lean's `SyncPC` (C18). -/
namespace GoMetrics
namespace FastCompassConc

/-- An event: of the `Record` calls (`inl`), or one step of the query with a clock reading (`inr`). -/
abbrev WatchEv := Ev (Arg ⊕ Empty) Int ⊕ Int

/-- Effect of one event (impl/default_fast_compass.go:83-105; 113-115). The query gets nowhere before the category is in the map: the range does not meet it. -/
def watchStep (start : Int) (cat : String) (st : Pool (Guard FastCompass Arg Int Bool) (GuardPC Arg (Arg × RecPC) Int Bool Empty Empty Empty) × BucketCounter.ReadPC) :
    WatchEv → Pool (Guard FastCompass Arg Int Bool) (GuardPC Arg (Arg × RecPC) Int Bool Empty Empty Empty) × BucketCounter.ReadPC
  | .inl e => (guarded.machine.apply st.1 e, st.2)
  | .inr t =>
    match st.1.shared.obj.subCategories.get? cat with
    | none => st
    | some b => (st.1, BucketCounter.readStep start b t st.2)

/-- A fresh compass (impl/default_fast_compass.go:165-174) and a query since `start` for category `cat` that has not started, after the events `es`. -/
def watch (interval : Int) (N : Nat) (limit start : Int) (cat : String) (es : List WatchEv) :
    Pool (Guard FastCompass Arg Int Bool) (GuardPC Arg (Arg × RecPC) Int Bool Empty Empty Empty) × BucketCounter.ReadPC :=
  es.foldl (watchStep start cat) (Guarded.init (FastCompass.new interval N limit), .clock)

/-- The arguments of the `Record` calls (impl/default_fast_compass.go:83) that were begun. -/
def begunRecords {T : Type} (es : List (Ev (Arg ⊕ Empty) Int ⊕ T)) : List Arg := es.filterMap fun e => match e with
  | .inl (.spawn (.inl a)) => some a
  | _ => none

end FastCompassConc
end GoMetrics
