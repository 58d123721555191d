import Verif.Spec.EDRDecay
/-! # Specification for C115: the samples of a history with one landmark, in float64 arithmetic -/
namespace GoMetrics.EDR

/-- The sample that an update at second `ts` with draw `u` makes, with the landmark at second `L`: the weight `exp(alpha (ts - L))` and the priority `weight / u`, with the rounding and
the `math.Exp` of the program. -/
def sampleOf (A : Arith) (alpha : F64) (L ts : Int) (u : F64) (value : Int) : WeightedSample :=
  let w := A.exp (F64.mul A.R alpha (F64.ofInt A.R (ts - L)))
  ⟨F64.div A.R w u, value, w⟩

/-- The samples of all updates of a history, oldest first. -/
def samples (A : Arith) (alpha : F64) (L : Int) : List Op → List WeightedSample
  | [] => []
  | .updateN env v :: h => sampleOf A alpha L (env.time.tdiv 1000) env.u v :: samples A alpha L h
  | .getSnapshot _ _ :: h => samples A alpha L h

/-- No two have the same priority. -/
def Distinct (all : List WeightedSample) : Prop := all.Pairwise fun s t => s.key.lt t.key ∨ t.key.lt s.key

/-- `kept` are the `k` of `all` with the highest priorities (all if there are fewer), lowest priority first. -/
structure Highest (k : Int) (all kept : List WeightedSample) : Prop where
  ascending : kept.Pairwise fun s t => s.key.lt t.key
  size : (kept.length : Int) = min (all.length : Int) k
  rest : ∃ dropped, (kept ++ dropped).Perm all ∧ ∀ d ∈ dropped, ∀ s ∈ kept, d.key.lt s.key

end GoMetrics.EDR
