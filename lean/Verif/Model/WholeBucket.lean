import Verif.Model.WholeCompass
import Verif.Model.BucketPair
import Verif.Model.CompassType
/-! # A whole compass with a bucket reservoir (impl/default_compass.go:223, impl/bucket_reservoir.go) in small steps

As Model/WholeCompass.lean. What is special: `GetSnapshot` of a bucket reservoir also reads the counter `totalCount` of the compass it belongs to. -/
namespace GoMetrics

/-- impl/bucket_reservoir.go:38-40 as a component of a compass; the environment is a clock reading -/
def BucketReservoir.impl : ReservoirImpl BucketReservoir Int := ⟨fun r t v => r.updateN t v⟩

namespace Whole

/-- What a step of a call of a bucket reservoir uses: a clock reading, which entry of a map comes first, and the counter that `countPerBucket` points to. -/
structure BucketIn where
  time : Int
  pick : Nat
  count : BucketCounter

/-- Where a call of a bucket reservoir is. -/
inductive BucketPC where
  /-- impl/bucket_reservoir.go:38-40: inside `valuePerBucket.UpdateN(value)` -/
  | upd (c : BucketCounter.Call)
  /-- impl/bucket_reservoir.go:42-51 -/
  | snap (pc : BucketPair.SnapPC)
  deriving DecidableEq

/-- The interleaving semantics of a bucket reservoir (impl/bucket_reservoir.go:38-70); the shared memory is `valuePerBucket`. `some d` is `UpdateN(d)`, `none` is
`GetSnapshot()`. -/
def bucketConc (interval : Int) : Machine BucketCounter BucketPC (Option Int) BucketIn where
  call
    | some d => .upd ⟨d, .start⟩
    | none => .snap .align
  step s x
    | .upd c => ((BucketCounter.callStep s x.time c).1, .upd (BucketCounter.callStep s x.time c).2)
    | .snap pc => (s, .snap (BucketPair.snapStep interval ⟨x.count, s⟩ (x.time, x.pick) pc))

/-- The bucket reservoir as a part of a compass. -/
def bucket (interval : Int) : Stepped BucketCounter BucketPC (Option Int) BucketIn where
  machine := bucketConc interval
  updateN := some
  snapshot := none
  over
    | .upd ⟨_, .done _ _⟩ => some false
    | .upd ⟨_, .panicked⟩ => some true
    | .snap (.done _) => some false
    | .snap .panicked => some true
    | _ => none

/-- impl/default_compass.go:223: `countPerBucket` of the reservoir is `totalCount` of the compass. -/
def atTotal {C : Type} (s : Parts BucketCounter C) (x : In (Int × Nat)) : In BucketIn :=
  ⟨x.tick, x.time, ⟨x.res.1, x.res.2, s.marks.shared.total⟩⟩

/-- The interleaving semantics of a compass with a bucket reservoir. -/
def bucketCompass (R : Rounding) (bi : Int) : Machine (Parts BucketCounter BucketPC) Call Use (In (Int × Nat)) where
  call u := ⟨u, .start⟩
  step s x c := callStep R (bucket bi) bi s (atTotal s x) c

/-- A new compass with a bucket reservoir (impl/default_compass.go:213-245 for `BucketReservoirType`) after the schedule `es`; `tv` is the reading of the constructor of
`valuePerBucket`. -/
def bucketUsed (R : Rounding) (bi : Int) (n : Nat) (maxErr maxAdd now t1 t2 tv : Int) (es : List (Ev Use (In (Int × Nat)))) :
    Pool (Parts BucketCounter BucketPC) Call :=
  (bucketCompass R bi).run (init (BucketCounter.new bi n tv true) bi n maxErr maxAdd now t1 t2) es

end Whole
end GoMetrics
