import Verif.Model.AppConc
import Verif.Model.WholeBucketWild
/-! # Registry, manager and metric objects together, when unsynchronised loads in the metrics may return anything they could ever return

Model/AppConc.lean with the compasses of Model/WholeWild.lean and Model/WholeBucketWild.lean. -/
namespace GoMetrics
namespace AppWild
open App (Kit NewEnvs)
open AppConc (Obj)

/-- What the environment supplies to one step of a call, whatever the metric is: as Model/AppConc.lean's `In`, and what plain loads return (impl/default_compass.go:191,
impl/default_bucket_counter.go:108, 109, 120, impl/bucket_queue.go:66, 67, ewma.go:97, and all loads of impl/bucket_reservoir.go:42-51). -/
structure In where
  tick : CompassConc.TickSeen
  time : BucketCounter.Seen
  rate : Option F64
  bucket : Whole.BucketSeen
  res : EDRConc.In
  word : Int

/-- What happens to a metric: Model/AppConc.lean's `Use` with such inputs. -/
inductive Use where
  /-- a goroutine calls `Update`, `UpdateWithError`, a rate getter or `GetSnapshot` (compass.go) -/
  | compass (u : Whole.Use)
  /-- a goroutine calls `Record` (fast_compass.go) -/
  | fast (a : FastCompassConc.Arg)
  /-- call `j` on this metric makes a step -/
  | step (j : Nat) (x : In)

/-- The event in a compass (impl/default_compass.go) of which a step of a call of the reservoir is made from `x` by `f`. -/
def Use.onCompass {I : Type} (f : In → I) : Use → Option (Ev Whole.Use (Whole.InBy CompassConc.TickSeen BucketCounter.Seen I))
  | .compass u => some (.spawn u)
  | .fast _ => none
  | .step j x => some (.step j ⟨x.tick, x.time, f x, x.rate⟩)

/-- The event in a fast compass (impl/default_fast_compass.go): it works under a lock, there are no other loads. -/
def Use.onFast : Use → Option (Ev (FastCompassConc.Arg ⊕ Empty) Int)
  | .compass _ => none
  | .fast a => some (.spawn (.inl a))
  | .step j x => some (.step j x.time.clock)

/-- One event at an object: Model/AppConc.lean's `Obj.use` (impl/default_compass.go, impl/default_fast_compass.go) with such loads. -/
def use (R : Rounding) (A : EDR.Arith) (o : Obj) (u : Use) : Obj :=
  match o with
  | .bucket bi p =>
    match u.onCompass In.bucket with
    | some e => .bucket bi ((Whole.wildBucketCompass R bi).apply p e)
    | none => o
  | .uniform bi p =>
    match u.onCompass In.word with
    | some e => .uniform bi ((Whole.wildMachine R Whole.uniform bi).apply p e)
    | none => o
  | .decaying bi p =>
    match u.onCompass In.res with
    | some e => .decaying bi ((Whole.wildMachine R (Whole.decaying A) bi).apply p e)
    | none => o
  | .fast p =>
    match u.onFast with
    | some e => .fast (FastCompassConc.guarded.machine.apply p e)
    | none => o

/-- The metrics of this repository, in small steps, with such loads; they are created as in Model/AppConc.lean (impl/default_compass.go:213-245, impl/default_fast_compass.go:165-174). -/
def wild (R : Rounding) (A : EDR.Arith) : Kit Obj Use NewEnvs where
  create := Obj.create A
  use := use R A

end AppWild
end GoMetrics
