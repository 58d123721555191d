import Verif.Model.AppAny
import Verif.Model.AppWild
import Verif.Spec.FairApp
/-! # What it means that a whole program, whatever any of its plain loads return, comes to rest -/
namespace GoMetrics
namespace AppAny
open Registry
open App (Kit State NewEnvs start)
open AppWild (Use In wild)
open AppConc (Obj)

/-- Nothing new starts: no lookup, no `SetEnable`, no call on a metric. -/
def Quiet : Event Use NewEnvs → Prop
  | .reg (.step _ _) _ => True
  | .use _ (.step _ _) => True
  | _ => False

/-- The program after `before` and the first `k` events of `g`. -/
def after (R : Rounding) (A : EDR.Arith) (limits : List Int) (before : List (Event Use NewEnvs)) (g : Nat → Event Use NewEnvs) (k : Nat) : State Obj :=
  run (wild R A) (start limits) (before ++ (List.range k).map g)

/-- Event `e` is a step of the `j`-th call made on metric `id`. -/
def StepOf (s : State Obj) (id j : Nat) (e : Event Use NewEnvs) : Prop :=
  ∃ i x q r p, e = .use i (.step j x) ∧ s.pool.calls[i]? = some (.done q r (.real id p))

/-- The scheduler is fair: each lookup (or `SetEnable`) has turns again and again, and so has each call on each metric. -/
def FairTo (R : Rounding) (A : EDR.Arith) (limits : List Int) (before : List (Event Use NewEnvs)) (g : Nat → Event Use NewEnvs) : Prop :=
  (∀ i < (after R A limits before g 0).pool.calls.length, ∀ m, ∃ k, m ≤ k ∧ ∃ x env, g k = .reg (.step i x) env) ∧
  ∀ m id o, (after R A limits before g m).objs id = some o → ∀ j < o.over.length, ∃ k, m ≤ k ∧ StepOf (after R A limits before g k) id j (g k)

/-- What a snapshot of a bucket reservoir finds in the two counters: rings of 11 slots (the compasses behind names have 10 buckets), and positions in them. -/
def Rings (e : Event Use NewEnvs) : Prop :=
  ∀ i j x, e = .use i (.step j x) → ∀ b, b = x.bucket.found.count ∨ b = x.bucket.found.value → b.buckets.queue.length = 11 ∧ b.buckets.current ≤ 10

end AppAny
end GoMetrics
