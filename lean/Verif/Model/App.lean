import Verif.Model.CompassType
import Verif.Model.FastCompass
import Verif.Model.Registry
/-! # Registry, manager and the metric objects together

Model/Registry.lean treats metrics as identities, Model/CompassType.lean and Model/FastCompass.lean treat single objects. Here both are put
together: a program looks metrics up (any interleaving of the steps of any number of lookups) and uses the metrics the lookups returned.
With the kit `whole` one use of a metric is one atomic event; Model/AppConc.lean has a kit in which uses of one metric overlap. -/
namespace GoMetrics
namespace App
open Registry

/-- A real metric object. -/
inductive Obj where
  | compass (c : Compass AnyReservoir)
  | fast (f : FastCompass)

/-- One call of a method that may change a metric. The other methods are functions of the object's state. -/
inductive Use where
  /-- compass.go: `Update`, `UpdateWithError`, the rate getters, `GetSnapshot` -/
  | compass (call : Compass.TCall)
  /-- fast_compass.go: `Record` -/
  | fast (r : FastCompass.Rec)

/-- The clock readings while a metric is created. -/
structure NewEnvs where
  ne : Compass.NewEnv
  re : Compass.ResEnv

/-- impl/default_compass.go:213-245 or impl/default_fast_compass.go:165-174 with the parameters `p`. The number of buckets from a registry
is never negative (`C47_wellformed`), for which `toNat` is the identity. -/
def Obj.create (A : EDR.Arith) (p : Params) (env : NewEnvs) : Obj :=
  match p with
  | .compass t n i e a => .compass (Compass.newWithType A t n.toNat i e a env.ne env.re)
  | .fast i n m => .fast (FastCompass.new i n m)

/-- One use of an object. A compass has no `Record` and a fast compass no `Update`: the compiler rejects the other combinations. -/
def Obj.use (R : Rounding) (A : EDR.Arith) : Obj → Use → Obj
  | .compass c, .compass call => .compass (Compass.tstep R A c call).state
  | .fast f, .fast r => .fast (f.record r).state
  | o, _ => o

/-- How metrics are made from their parameters, and used. `O` is the state of a metric object, `U` one use, `E` the environment of a constructor. -/
structure Kit (O U E : Type) where
  create : Params → E → O
  use : O → U → O

/-- Everything: registries, manager and lookups (Model/Registry.lean), and the objects made so far by identity. -/
structure State (O : Type) where
  pool : Pool Mem PC
  objs : Nat → Option O

/-- What can happen next: an event of Model/Registry.lean (`env`: the clock, should it create an object), or a use of the metric that the
`i`-th lookup returned. -/
inductive Event (U E : Type) where
  | reg (e : Ev Call Unit) (env : E)
  | use (i : Nat) (u : U)

variable {O U E : Type}

/-- The objects after a registry event: impl/default_registry.go:125 (`creator()`) makes one. -/
def created (K : Kit O U E) (s : State O) (e : Ev Call Unit) (env : E) : Nat → Option O :=
  match e with
  | .spawn _ => s.objs
  | .step i _ =>
    match s.pool.calls[i]? with
    | some (.create q _) =>
      match creator q.kind q.name.level s.pool.shared.fresh with
      | .real id p => fun j => if j = id then some (K.create p env) else s.objs j
      | .nop _ => s.objs
    | _ => s.objs

/-- The objects after a use: nothing happens without a result yet, and the no-op metrics ignore everything
(impl/nop_compass.go:70-74, impl/nop_fast_compass.go:34). -/
def used (K : Kit O U E) (s : State O) (i : Nat) (u : U) : Nat → Option O :=
  match s.pool.calls[i]? with
  | some (.done _ _ (.real id _)) => fun j => if j = id then (s.objs id).map (fun o => K.use o u) else s.objs j
  | _ => s.objs

/-- One event. -/
def apply (K : Kit O U E) (s : State O) : Event U E → State O
  | .reg e env => ⟨conc.apply s.pool e, created K s e env⟩
  | .use i u => ⟨s.pool, used K s i u⟩

/-- A program run. -/
def run (K : Kit O U E) (s : State O) (es : List (Event U E)) : State O := es.foldl (apply K) s

/-- Registries with these limits and a manager, all new. -/
def start (limits : List Int) : State O := ⟨Machine.start (initial limits), fun _ => none⟩

/-- The metrics of this repository, one use at a time. -/
def whole (R : Rounding) (A : EDR.Arith) : Kit Obj Use NewEnvs where
  create := Obj.create A
  use := Obj.use R A

end App
end GoMetrics
