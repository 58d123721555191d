import Verif.Model.BucketReservoir
import Verif.Model.Config
import Verif.Model.EDR
import Verif.Model.Compass
/-! # Compasses with the reservoirs of this repository (impl/default_compass.go:186-188, 213-245) -/
namespace GoMetrics

/-- reservoir.go:21-28 `Reservoir`: the implementations in this repository. -/
inductive AnyReservoir where
  | edr (r : EDR)
  | bucket (r : BucketReservoir)
  | uniform (r : UniformReservoir)

namespace AnyReservoir

/-- What the environment supplies to one `UpdateN`, for whichever reservoir it is. -/
structure Env where
  edr : EDR.Env
  /-- the clock reading of a bucket reservoir -/
  bucket : Int
  /-- the random words of a uniform reservoir -/
  uniform : List Int

/-- reservoir.go:25 `UpdateN`, dispatched. -/
def updateN (A : EDR.Arith) : AnyReservoir → Env → Int → Res AnyReservoir
  | .edr r, x, v => (EDR.updateN A r x.edr v).lift .edr
  | .bucket r, x, v => (r.updateN x.bucket v).lift .bucket
  | .uniform r, x, v => (r.updateN x.uniform v).lift .uniform

/-- as a component of a compass -/
def impl (A : EDR.Arith) : ReservoirImpl AnyReservoir Env := ⟨updateN A⟩

end AnyReservoir

namespace Compass

/-- The clock readings while a reservoir is created. -/
structure ResEnv where
  /-- impl/exponentially_decaying_reservoir.go:213 -/
  time : Int
  /-- impl/exponentially_decaying_reservoir.go:214 -/
  tick : Int
  /-- impl/default_bucket_counter.go:167, for `valuePerBucket` -/
  tValue : Int

/-- impl/exponentially_decaying_reservoir.go:39: 0.015 as a float64 -/
def edrDefaultAlpha (A : EDR.Arith) : F64 := A.R.rnd (15 / 1000)

/-- impl/default_compass.go:219-228: the reservoir for a reservoir type; sizes from impl/exponentially_decaying_reservoir.go:38 and
impl/uniform_reservoir.go:33 -/
def reservoirFor (A : EDR.Arith) (reservoirType : Int) (numOfBucket : Nat) (bucketInterval : Int) (env : ResEnv) : AnyReservoir :=
  if reservoirType = exponentiallyDecayingReservoirType then .edr (EDR.new 1028 (edrDefaultAlpha A) env.time env.tick)
  else if reservoirType = bucketReservoirType then .bucket (BucketReservoir.new bucketInterval numOfBucket env.tValue)
  else if reservoirType = uniformReservoirType then .uniform (UniformReservoir.new 1024)
  else .edr (EDR.new 1028 (edrDefaultAlpha A) env.time env.tick)

/-- impl/default_compass.go:213-245 `NewCompassWithType` for `numOfBucket ≥ 0` -/
def newWithType (A : EDR.Arith) (reservoirType : Int) (numOfBucket : Nat) (bucketInterval maxErrorCodeCount maxAddonCount : Int)
    (env : NewEnv) (renv : ResEnv) : Compass AnyReservoir :=
  new (reservoirFor A reservoirType numOfBucket bucketInterval renv) numOfBucket bucketInterval maxErrorCodeCount maxAddonCount env

/-- snapshot.go:23-62 `Snapshot`: the implementations in this repository. -/
inductive AnySnapshot where
  | weighted (s : WeightedSnapshot)
  | bucket (s : BucketSnapshot)
  | uniform (s : UniformSnapshot)

/-- What the environment supplies to one `GetSnapshot`. -/
structure SnapEnv where
  /-- impl/exponentially_decaying_reservoir.go:132 and 163 -/
  tick : Int
  scaleTime : Int
  /-- the order in which the sort of impl/weighted_snapshot.go:189 leaves the samples -/
  sorted : List WeightedSample
  bucket : BucketReservoir.SnapEnv

/-- impl/default_compass.go:186-188 `GetSnapshot`: the snapshot, `none` for a panic. A bucket reservoir reads the counter of the
compass, which it shares (223). -/
def getSnapshot (A : EDR.Arith) (c : Compass AnyReservoir) (env : SnapEnv) : Option AnySnapshot :=
  match c.reservoir with
  | .edr r => some (.weighted (EDR.getSnapshot A r env.tick env.scaleTime env.sorted))
  | .bucket r => (r.getSnapshot c.totalCount env.bucket).map .bucket
  | .uniform r => some (.uniform r.getSnapshot)

/-- impl/default_compass.go:186-188 `GetSnapshot`: the state it leaves (a decaying reservoir may rescale). -/
def afterSnapshot (A : EDR.Arith) (c : Compass AnyReservoir) (env : SnapEnv) : Compass AnyReservoir :=
  match c.reservoir with
  | .edr r => { c with reservoir := .edr (EDR.afterSnapshot A r env.tick env.scaleTime) }
  | _ => c

/-- Calls of a compass whose reservoir is one of this repository: as in `Op`, and `GetSnapshot`. -/
inductive TCall where
  | call (env : Env AnyReservoir.Env) (op : Op)
  | snapshot (env : SnapEnv)

/-- One call. -/
def tstep (R : Rounding) (A : EDR.Arith) (c : Compass AnyReservoir) : TCall → Res (Compass AnyReservoir)
  | .call env op => step R (AnyReservoir.impl A) c env op
  | .snapshot env => match c.getSnapshot A env with
    | none => .panic c
    | some _ => .ok (c.afterSnapshot A env)

/-- A history of calls; a panicking call leaves its state behind. -/
def trun (R : Rounding) (A : EDR.Arith) (c : Compass AnyReservoir) (h : List TCall) : Compass AnyReservoir :=
  h.foldl (fun c e => (tstep R A c e).state) c

end Compass
end GoMetrics
