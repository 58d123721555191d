import Verif.Model.AppConc
import Verif.Spec.Fair
import Verif.Spec.Progress
import Verif.Props.Progress
import Verif.Props.WholeProgress
/-! # What it means that a whole program comes to rest -/
namespace GoMetrics
namespace AppConc
open Registry App

/-- Which of the calls that were made on a metric are over. -/
def Obj.over : Obj → List Bool
  | .decaying _ p => p.calls.map Whole.Call.ended
  | .bucket _ p => p.calls.map Whole.Call.ended
  | .uniform _ p => p.calls.map Whole.Call.ended
  | .fast p => p.calls.map Guarded.ended

/-- Nothing new starts: no lookup, no `SetEnable`, no call on a metric. -/
def Quiet : Event Use NewEnvs → Prop
  | .reg (.step _ _) _ => True
  | .use _ (.step _ _) => True
  | _ => False

/-- The program after `before` and the first `k` events of `g`. -/
def after (R : Rounding) (A : EDR.Arith) (limits : List Int) (before : List (Event Use NewEnvs)) (g : Nat → Event Use NewEnvs) (k : Nat) : State Obj :=
  run (small R A) (start limits) (before ++ (List.range k).map g)

/-- Event `e` is a step of the `j`-th call made on metric `id`. -/
def StepOf (s : State Obj) (id j : Nat) (e : Event Use NewEnvs) : Prop :=
  ∃ i x q r p, e = .use i (.step j x) ∧ s.pool.calls[i]? = some (.done q r (.real id p))

/-- The scheduler is fair: each lookup (or `SetEnable`) has turns again and again, and so has each call on each metric. -/
def FairTo (R : Rounding) (A : EDR.Arith) (limits : List Int) (before : List (Event Use NewEnvs)) (g : Nat → Event Use NewEnvs) : Prop :=
  (∀ i < (after R A limits before g 0).pool.calls.length, ∀ m, ∃ k, m ≤ k ∧ ∃ env, g k = .reg (.step i ()) env) ∧
  ∀ m id o, (after R A limits before g m).objs id = some o → ∀ j < o.over.length, ∃ k, m ≤ k ∧ StepOf (after R A limits before g k) id j (g k)

/-- All lookups are over, and so are all calls on all the metrics they returned. -/
def AtRest (s : State Obj) : Prop :=
  (∀ c ∈ s.pool.calls, c.ended = true) ∧ ∀ q r id p, .done q r (.real id p) ∈ s.pool.calls → ∃ o, s.objs id = some o ∧ ∀ b ∈ o.over, b = true

end AppConc
end GoMetrics
