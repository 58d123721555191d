import Verif.Model.App
/-! # Registry, manager and metric objects together, when the unsynchronised loads of registries and manager may return anything too

Model/App.lean, with registries and a manager whose two plain loads return what the schedule says. -/
namespace GoMetrics
namespace Registry

/-- What the plain loads of a step return, where they do not return what was stored last: of `metricsCount` (impl/default_registry.go:128) and of the manager's switch
(impl/default_metric_manager.go:42, 58). All else in a lookup is read through `sync.Map` or is never written again (`maxMetricCount`). -/
structure Loads where
  count : Option Int := none
  enable : Option Bool := none

/-- The memory as these loads show it (impl/default_registry.go:128, impl/default_metric_manager.go:42, 58). -/
def Loads.seen (x : Loads) (s : Mem) : Mem :=
  { s with
    enable := x.enable.getD s.enable
    regs := fun r => { s.regs r with metricsCount := x.count.getD (s.regs r).metricsCount } }

/-- One step of a call: the step of Model/Registry.lean, where the step that looks at the switch (impl/default_metric_manager.go:42, 58) and the one that looks at the count
(impl/default_registry.go:128) look at `x`. -/
def anyStep (s : Mem) (x : Loads) : PC → Mem × PC
  | .readEnable q g => (s, (callStep (x.seen s) (.readEnable q g)).2)
  | .check q r m => (s, (callStep (x.seen s) (.check q r m)).2)
  | c => callStep s c

/-- Interleaving semantics (impl/default_registry.go:114-142, impl/default_metric_manager.go:53-76). -/
def anyConc : Machine Mem PC Call Loads where
  call := begin
  step := anyStep

end Registry

namespace AppAny
open Registry
open App (Kit State)

/-- What can happen next: an event of the registries and the manager (`env`: the clock, should it create an object), or a use of the metric that the `i`-th lookup returned. -/
inductive Event (U E : Type) where
  | reg (e : Ev Call Loads) (env : E)
  | use (i : Nat) (u : U)

variable {O U E : Type}

/-- The objects after a registry event: impl/default_registry.go:125 (`creator()`) makes one. -/
def created (K : Kit O U E) (s : State O) (e : Ev Call Loads) (env : E) : Nat → Option O :=
  match e with
  | .spawn _ => s.objs
  | .step i _ =>
    match s.pool.calls[i]? with
    | some (.create q _) =>
      match creator q.kind q.name.level s.pool.shared.fresh with
      | .real id p => fun j => if j = id then some (K.create p env) else s.objs j
      | .nop _ => s.objs
    | _ => s.objs

/-- One event; what a use does is said in Model/App.lean. -/
def apply (K : Kit O U E) (s : State O) : Event U E → State O
  | .reg e env => ⟨anyConc.apply s.pool e, created K s e env⟩
  | .use i u => ⟨s.pool, App.used K s i u⟩

/-- A program run. -/
def run (K : Kit O U E) (s : State O) (es : List (Event U E)) : State O := es.foldl (apply K) s

end AppAny
end GoMetrics
