import Verif.Model.EDR
import Verif.Model.EWMA
/-! # What the statements about 32-bit platforms talk about -/
namespace GoMetrics.Spec

/-- The reading of the tick clock with which a call on a decaying reservoir begins. -/
def reading : EDR.Op → Int
  | .updateN env _ => env.tick
  | .getSnapshot tick _ => tick

/-- The calls on a moving average that hand it a count. -/
def isTickN : EWMA.Op → Bool
  | .tickN _ => true
  | _ => false

end GoMetrics.Spec
