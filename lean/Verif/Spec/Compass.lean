import Verif.Model.Compass
/-! # Specification of Compass: histories of calls, nothing else -/
namespace GoMetrics.Spec
open GoMetrics Compass

variable {X : Type}

/-- The calls that record an event. -/
def records : List (Env X × Op) → List (Env X × Op) := List.filter fun e =>
  match e.2 with
  | .readRate => false
  | _ => true

/-- The number of `UpdateWithError` calls with `isSuccess`. -/
def successes (h : List (Env X × Op)) : Nat := h.countP fun e =>
  match e.2 with
  | .updateWithError _ s _ _ => s
  | _ => false

/-- The error code and addon of each `UpdateWithError` call. -/
def labels (h : List (Env X × Op)) : List (String × String) := h.filterMap fun e =>
  match e.2 with
  | .updateWithError _ _ code addon => some (code, addon)
  | _ => none

/-- The first `limit` distinct non-empty names of a list, in order. -/
def firstNames (limit : Int) (l : List String) : List String :=
  l.foldl (fun adm s => if s ≠ "" ∧ s ∉ adm ∧ (adm.length : Int) < limit then adm ++ [s] else adm) []

/-- The error codes a history admits: the first `maxErr` distinct ones. -/
def admittedCodes (maxErr : Int) (h : List (Env X × Op)) : List String := firstNames maxErr ((labels h).map Prod.fst)

/-- The addons of the calls that get past their error code: those without one, or with an admitted one. -/
def reachingAddons (maxErr : Int) (h : List (Env X × Op)) : List String :=
  ((labels h).filter fun l => l.1 = "" ∨ l.1 ∈ admittedCodes maxErr h).map Prod.snd

/-- The addons a history admits. -/
def admittedAddons (maxErr maxAddon : Int) (h : List (Env X × Op)) : List String :=
  firstNames maxAddon (reachingAddons maxErr h)

end GoMetrics.Spec
