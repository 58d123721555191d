import Verif.Model.FastCompass
import Verif.Spec.Buckets
/-! # Specification of FastCompass: a list of `Record` calls, nothing else -/
namespace GoMetrics.Spec
open GoMetrics

/-- A `Record` call that is not ignored out of hand: non-negative duration, non-empty category. -/
def validRec (r : FastCompass.Rec) : Bool := decide (0 ≤ r.duration) && decide (r.subCategory ≠ "")

/-- Categories admitted by a history, in order of admission: a category is admitted at a valid `Record` if fewer than
`limit` were admitted before. -/
def admitted (limit : Int) (h : List FastCompass.Rec) : List String :=
  h.foldl (fun adm r =>
    if validRec r = true ∧ r.subCategory ∉ adm ∧ (adm.length : Int) < limit then adm ++ [r.subCategory] else adm) []

/-- The valid calls for one category: clock reading (ms) and duration in whole ms. -/
def recordsOf (cat : String) (h : List FastCompass.Rec) : List (Int × Int) :=
  (h.filter (fun r => validRec r && decide (r.subCategory = cat))).map (fun r => (r.t, r.duration / 1000000))

/-- How many of the events were credited to interval `ts`. -/
def number (l : List (Int × Int)) (ts : Int) : Int := (l.filter (fun e => e.1 = ts)).length

end GoMetrics.Spec
