import Verif.Model.CompassType
import Verif.Spec.EDR
import Verif.Proofs.CompassReservoir
/-! # Specification: what the environment has to supply to the calls of a compass -/
namespace GoMetrics.Spec
open Compass

/-- What one recording call gets after `k` others: the random number of a decaying reservoir is in [0, 1), and among the (non-negative) random words
a uniform reservoir sees is one with which its search for a position below `k + 1` ends. -/
structure Supplied (k : Nat) (x : AnyReservoir.Env) : Prop where
  draw : EDR.IsDraw x.edr.u
  words : ∀ w ∈ x.uniform, 0 ≤ w
  ends : UniformReservoir.nextRandomPos (k + 1) x.uniform ≠ none

/-- The recording calls. -/
def recordings : List TCall → List (Env AnyReservoir.Env)
  | [] => []
  | .call env op :: h => if op.duration?.isSome then env :: recordings h else recordings h
  | .snapshot _ :: h => recordings h

/-- All recording calls of the history get what they need. -/
def AllSupplied (h : List TCall) : Prop := ∀ k env, (recordings h)[k]? = some env → Supplied k env.x

/-- The calls other than `GetSnapshot`, without what concerns the reservoir. -/
def plainCalls : List TCall → List (Env Unit × Op)
  | [] => []
  | .call env op :: h => (env.erase, op) :: plainCalls h
  | .snapshot _ :: h => plainCalls h

/-- A decaying reservoir on its own that gets the durations of the history's recording calls and gives the history's snapshots. -/
def decayingAlone (A : EDR.Arith) (r : EDR) (h : List TCall) : EDR :=
  h.foldl (fun r o => match o with
    | .call env op => (op.duration?.map fun d => (EDR.updateN A r env.x.edr d).state).getD r
    | .snapshot env => EDR.afterSnapshot A r env.tick env.scaleTime) r

/-- A uniform reservoir on its own that gets the durations of the history's recording calls. -/
def uniformAlone (r : UniformReservoir) (h : List TCall) : UniformReservoir :=
  h.foldl (fun r o => match o with
    | .call env op => (op.duration?.map fun d => (r.updateN env.x.uniform d).state).getD r
    | .snapshot _ => r) r

/-- A bucket reservoir on its own that gets the durations of the history's recording calls. -/
def bucketAlone (r : BucketReservoir) (h : List TCall) : BucketReservoir :=
  h.foldl (fun r o => match o with
    | .call env op => (op.duration?.map fun d => (r.updateN env.x.bucket d).state).getD r
    | .snapshot _ => r) r

end GoMetrics.Spec
