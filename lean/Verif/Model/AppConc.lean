import Verif.Model.App
import Verif.Model.WholeBucket
import Verif.Model.FastCompassConc
/-! # Registry, manager and metric objects together, with overlapping uses

As Model/App.lean, but a use of a metric is not one event: a goroutine begins a call on the metric a lookup returned, and the calls on one metric
then make their steps in any order, between each other and between the steps of lookups. -/
namespace GoMetrics
namespace AppConc
open Registry App

/-- A real metric object with the calls that were made on it: a compass with one of the three reservoirs (impl/default_compass.go:219-228; the first
argument is the bucket interval), or a fast compass. -/
inductive Obj where
  | decaying (bi : Int) (p : Pool (Whole.Parts EDRConc.Shared EDRConc.PC) Whole.Call)
  | bucket (bi : Int) (p : Pool (Whole.Parts BucketCounter Whole.BucketPC) Whole.Call)
  | uniform (bi : Int) (p : Pool (Whole.Parts (Guard UniformReservoir Int Int Bool)
      (GuardPC Int UniformConc.WPC Int Bool UniformConc.Query UniformConc.RPC UniformConc.Answer)) Whole.Call)
  | fast (p : Pool (Guard FastCompass FastCompassConc.Arg Int Bool)
      (GuardPC FastCompassConc.Arg (FastCompassConc.Arg × FastCompassConc.RecPC) Int Bool Empty Empty Empty))

/-- What the environment supplies to one step of a call, whatever the metric is: readings of `GetTick()` and `GetTime()`, those of the reservoir
with a random number in [0, 1), a random word, and which entry of a map an iteration gives first. -/
structure In where
  tick : Int
  time : Int
  res : EDRConc.In
  word : Int
  pick : Nat

/-- What happens to a metric. -/
inductive Use where
  /-- a goroutine calls `Update`, `UpdateWithError`, a rate getter or `GetSnapshot` (compass.go) -/
  | compass (u : Whole.Use)
  /-- a goroutine calls `Record` (fast_compass.go) -/
  | fast (a : FastCompassConc.Arg)
  /-- call `j` on this metric makes a step -/
  | step (j : Nat) (x : In)

/-- The event in a compass of which a step of a call is made from `x` by `f`. -/
def Use.onCompass {I : Type} (f : In → I) : Use → Option (Ev Whole.Use (Whole.In I))
  | .compass u => some (.spawn u)
  | .fast _ => none
  | .step j x => some (.step j ⟨x.tick, x.time, f x⟩)

/-- The event in a fast compass. -/
def Use.onFast : Use → Option (Ev (FastCompassConc.Arg ⊕ Empty) Int)
  | .compass _ => none
  | .fast a => some (.spawn (.inl a))
  | .step j x => some (.step j x.time)

/-- impl/default_compass.go:213-245 or impl/default_fast_compass.go:165-174 with the parameters `p`, as `App.Obj.create`. -/
def Obj.create (A : EDR.Arith) (p : Params) (env : NewEnvs) : Obj :=
  match p with
  | .compass t n bi e a =>
    if t = bucketReservoirType then
      .bucket bi (Whole.init (BucketCounter.new bi n.toNat env.re.tValue true) bi n.toNat e a env.ne.now env.ne.tTotal env.ne.tSuccess)
    else if t = uniformReservoirType then
      .uniform bi (Whole.init { obj := UniformReservoir.new 1024 } bi n.toNat e a env.ne.now env.ne.tTotal env.ne.tSuccess)
    else
      .decaying bi (Whole.init ⟨EDR.new 1028 (Compass.edrDefaultAlpha A) env.re.time env.re.tick, []⟩ bi n.toNat e a env.ne.now env.ne.tTotal env.ne.tSuccess)
  | .fast i n m => .fast (Guarded.init (FastCompass.new i n m))

/-- One event at an object. A compass has no `Record` and a fast compass no `Update`: the compiler rejects the other combinations. -/
def Obj.use (R : Rounding) (A : EDR.Arith) (o : Obj) (u : Use) : Obj :=
  match o with
  | .bucket bi p =>
    match u.onCompass (fun x => (x.res.time, x.pick)) with
    | some e => .bucket bi ((Whole.bucketCompass R bi).apply p e)
    | none => o
  | .uniform bi p =>
    match u.onCompass In.word with
    | some e => .uniform bi ((Whole.machine R Whole.uniform bi).apply p e)
    | none => o
  | .decaying bi p =>
    match u.onCompass In.res with
    | some e => .decaying bi ((Whole.machine R (Whole.decaying A) bi).apply p e)
    | none => o
  | .fast p =>
    match u.onFast with
    | some e => .fast (FastCompassConc.guarded.machine.apply p e)
    | none => o

/-- The metrics of this repository, in small steps. -/
def small (R : Rounding) (A : EDR.Arith) : Kit Obj Use NewEnvs where
  create := Obj.create A
  use := Obj.use R A

end AppConc
end GoMetrics
