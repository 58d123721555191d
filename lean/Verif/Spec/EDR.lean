import Verif.Model.EDR
import Verif.Proofs.EWMAFloat
/-! # Specification of exponentially decaying sampling

An update at second `ts` with random number `u` has weight `b ^ ts` and priority `b ^ ts / u`; `b = exp alpha` is how much more an update
counts than one a second older. -/
namespace GoMetrics

/-- `x` is a number that is not below zero, `+Inf` or NaN. -/
def F64.NonNeg (x : F64) : Prop := ¬ x.lt (.fin 0)

namespace EDR

/-- What is known about `math.Exp` and the rounding: results are not negative, NaN only for NaN, at most 1 up to 0 and
at least 1 from 0 on; int64 values convert to finite numbers. -/
structure Arith.Lawful (A : Arith) : Prop where
  rnd : A.R.Lawful
  ints : ∀ n : Int, InI64 n → ∃ q, F64.ofInt A.R n = .fin q
  nonneg : ∀ x, (A.exp x).NonNeg
  not_nan : ∀ x, x ≠ .nan → A.exp x ≠ .nan
  le_one : ∀ x, F64.le x (.fin 0) → F64.le (A.exp x) (.fin 1)
  one_le : ∀ x, F64.le (.fin 0) x → F64.le (.fin 1) (A.exp x)

/-- Exact arithmetic with an exponential: `exp (alpha * t) = b ^ t` for all whole seconds `t`. -/
structure Arith.Exact (A : Arith) (alpha b : ℚ) : Prop where
  rnd : A.R = .exact
  base : 1 ≤ b
  exp : ∀ t : Int, A.exp (.fin (alpha * t)) = .fin (b ^ t)

/-- A random number as `Float64()` returns it. -/
def IsDraw (u : F64) : Prop := ∃ q : ℚ, u = .fin q ∧ 0 ≤ q ∧ q < 1

/-- The readings of the clock for a possible rescale, in the order of the history. -/
def scaleTimes : List Op → List Int
  | [] => []
  | .updateN env _ :: h => env.scaleTime :: scaleTimes h
  | .getSnapshot _ t :: h => t :: scaleTimes h

/-- All readings of the clock's time in milliseconds, in the order of the history. -/
def readings : List Op → List Int
  | [] => []
  | .updateN env _ :: h => env.scaleTime :: env.time :: readings h
  | .getSnapshot _ t :: h => t :: readings h

/-- The readings of the clock's tick, in the order of the history. -/
def ticks : List Op → List Int
  | [] => []
  | .updateN env _ :: h => env.tick :: ticks h
  | .getSnapshot tick _ :: h => tick :: ticks h

/-- The values recorded by a history. -/
def recorded : List Op → List Int
  | [] => []
  | .updateN _ v :: h => v :: recorded h
  | .getSnapshot _ _ :: h => recorded h

/-- The draws of a history. -/
def draws : List Op → List F64
  | [] => []
  | .updateN env _ :: h => env.u :: draws h
  | .getSnapshot _ _ :: h => draws h

/-- An update as the specification sees it. -/
structure Rec where
  ts : Int
  u : ℚ
  value : Int
  deriving DecidableEq

/-- Its weight. -/
def Rec.weight (b : ℚ) (e : Rec) : ℚ := b ^ e.ts
/-- Its priority. -/
def Rec.prio (b : ℚ) (e : Rec) : ℚ := b ^ e.ts / e.u

/-- The rational in a finite float64. -/
def rat : F64 → ℚ
  | .fin q => q
  | _ => 0

/-- The updates of a history, oldest first: second, draw and value. -/
def recs : List Op → List Rec
  | [] => []
  | .updateN env v :: h => ⟨env.time.tdiv 1000, rat env.u, v⟩ :: recs h
  | .getSnapshot _ _ :: h => recs h

end EDR
end GoMetrics

namespace GoMetrics.EDR

/-- The sample an update leaves in a reservoir whose landmark is second `L`. -/
def relative (b : ℚ) (L : Int) (e : Rec) : WeightedSample :=
  ⟨.fin (b ^ (e.ts - L) / e.u), e.value, .fin (b ^ (e.ts - L))⟩

/-- `kept` are the `k` updates among `all` with the highest priorities (all of them if there are fewer), lowest priority first. -/
structure TopK (b : ℚ) (k : Int) (all kept : List Rec) : Prop where
  ascending : kept.Pairwise fun e e' => e.prio b < e'.prio b
  size : (kept.length : Int) = min (all.length : Int) k
  rest : ∃ dropped, (kept ++ dropped).Perm all ∧ ∀ d ∈ dropped, ∀ e ∈ kept, d.prio b < e.prio b

end GoMetrics.EDR
