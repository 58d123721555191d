import Verif.Model.UniformConc
import Verif.Spec.Words
/-! # Specification for C119: schedules, and the random words supplied to them -/
namespace GoMetrics.UniformConc

/-- A schedule without the random words: which calls start, and whose turn it is. -/
abbrev Schedule := List (Ev (Int ⊕ Query) Unit)

/-- The number of turns. -/
def turns : Schedule → Nat
  | [] => 0
  | .spawn _ :: es => turns es
  | .step _ _ :: es => turns es + 1

/-- The schedule with a random word for each turn (used if the turn draws one, and ignored otherwise). -/
def supplied : Schedule → List Nat → List (Ev (Int ⊕ Query) Int)
  | [], _ => []
  | .spawn a :: es, ws => .spawn a :: supplied es ws
  | .step i _ :: es, ws => .step i (ws.headD 0 : Nat) :: supplied es ws.tail

/-- The values of the `UpdateN` calls, in the order in which the calls start. -/
def updates : Schedule → List Int
  | [] => []
  | .spawn (.inl v) :: es => v :: updates es
  | .spawn (.inr _) :: es => updates es
  | .step _ _ :: es => updates es

end GoMetrics.UniformConc
