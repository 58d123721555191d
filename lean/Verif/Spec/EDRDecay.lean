import Verif.Spec.EDRFair
import Mathlib.Data.Fintype.Pi
/-! # Specification for C114: chances, when every draw is any of `N` numbers with the same chance -/
namespace GoMetrics.EDR

/-- `rand.Float64` returns one of the numbers `k / N`, `k = 0, …, N - 1` (with `N = 2^53`); these are the draws `us`. -/
def gridDraws {n N : Nat} (us : Fin n → Fin N) : List ℚ := List.ofFn fun m => ((us m : Nat) : ℚ) / N

/-- The chance of `P`, if `n` draws are independent and each is any of the `N` numbers with the same chance. -/
def chance (n N : Nat) (P : (Fin n → Fin N) → Prop) [DecidablePred P] : ℚ := ((Finset.univ.filter P).card : ℚ) / N ^ n

end GoMetrics.EDR
