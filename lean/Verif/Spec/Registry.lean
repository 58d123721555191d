import Verif.Model.Registry
/-! # Registry: specification of sequential histories -/
namespace GoMetrics
namespace Registry

/-- Is the manager enabled after the calls `h`, if it was (`en`) before? -/
def enabledAfter (en : Bool) : List Call → Bool
  | [] => en
  | .setEnable b :: h => enabledAfter b h
  | .lookup _ :: h => enabledAfter en h

/-- Decidability of the condition below. -/
instance (t : Target) : Decidable (∃ r, t = .direct r) :=
  match t with
  | .direct r => isTrue ⟨r, rfl⟩
  | .group _ => isFalse (by simp)

/-- The lookups among `h` that reach the registry of `t`: all that name it, but through the manager only while it is enabled. -/
def asked (t : Target) (en : Bool) : List Call → List Req
  | [] => []
  | .setEnable b :: h => asked t b h
  | .lookup q :: h =>
    if q.target = t ∧ (en = true ∨ ∃ r, t = .direct r) then q :: asked t en h else asked t en h

/-- Of several lookups, the first for each hash key, in order. -/
def firsts (l : List Req) : List Req :=
  l.foldl (fun acc q => if acc.any (fun p => p.name.hash == q.name.hash) then acc else acc ++ [q]) []

/-- The limit of the registry of `t`: the manager's registries have 5000. -/
def limitOf (limits : List Int) : Target → Int
  | .direct r => limits[r]?.getD 0
  | .group _ => 5000

/-- Is there a registry for `t` (the user's own are those in `limits`, a group may not have been used yet), and which? -/
def registryOf (n0 : Nat) (s : Mem) : Target → Option Nat
  | .direct r => if r < n0 then some r else none
  | .group g => s.groups.get? g

end Registry
end GoMetrics
