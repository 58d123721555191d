import Verif.Spec.EDR
import Mathlib.Analysis.SpecialFunctions.Exp
/-! # Specification: a rescale in rounded arithmetic -/
namespace GoMetrics
namespace EDR

/-- `l` without the samples that are followed by one with the same priority: of a run of samples with equal priorities only the last stays. -/
def collapse : List WeightedSample → List WeightedSample
  | [] => []
  | [s] => [s]
  | s :: e :: t => if s.key = e.key then collapse (e :: t) else s :: collapse (e :: t)

end EDR
end GoMetrics

namespace GoMetrics
namespace EDR

/-- What is assumed of `math.Exp`: for every number that is a `float64` and up to 650 in magnitude the result is finite and off by at most 1 ulp (`2⁻⁵²`, relatively). -/
def GoodExp (exp : F64 → F64) : Prop :=
  ∀ x : ℚ, Rounding.binary64.rnd x = .fin x → |x| ≤ 650 → ∃ y : ℚ, exp (.fin x) = .fin y ∧ |(y : ℝ) - Real.exp x| ≤ 2 ^ (-52 : Int) * Real.exp x

/-- What a sample of a reservoir with landmark second `L` and rate `a` should be after update `e`, and how far its weight may be off after `k` rescales:
`(k + 1) 2⁻⁴⁰` relatively, and `k` roundings of a subnormal number. -/
def Near (a : ℚ) (L : Int) (k : ℕ) (s : WeightedSample) (e : Rec) : Prop :=
  s.value = e.value ∧ ∃ w : ℚ, s.weight = .fin w ∧ 0 ≤ w ∧
    |(w : ℝ) - Real.exp (a * (e.ts - L))| ≤ (k + 1) * 2 ^ (-40 : Int) * Real.exp (a * (e.ts - L)) + k * 2 ^ (-1074 : Int)

/-- The readings of both clocks by the calls of a history: tick and time in milliseconds. -/
def stamps : List Op → List (Int × Int)
  | [] => []
  | .updateN env _ :: h => (env.tick, env.scaleTime) :: (env.tick, env.time) :: stamps h
  | .getSnapshot tick t :: h => (tick, t) :: stamps h

/-- The two clocks agree to a second since `tick` and `time`. -/
def Agree (tick time : Int) (h : List Op) : Prop := ∀ p ∈ stamps h, |(p.1 - tick) - (p.2 - time) * 1000000| ≤ 1000000000

/-- The total weight of updates if an update of second `ts` counts `exp(a ts)`. -/
noncomputable def decayedTotal (a : ℚ) (l : List Rec) : ℝ := (l.map fun e => Real.exp (a * e.ts)).sum

/-- The average of their values with these weights. -/
noncomputable def decayedMean (a : ℚ) (l : List Rec) : ℝ := (l.map fun e => (e.value : ℝ) * Real.exp (a * e.ts)).sum / decayedTotal a l

/-- The variance of their values with these weights. -/
noncomputable def decayedVariance (a : ℚ) (l : List Rec) : ℝ :=
  (l.map fun e => ((e.value : ℝ) - decayedMean a l) ^ 2 * Real.exp (a * e.ts)).sum / decayedTotal a l

end EDR
end GoMetrics
