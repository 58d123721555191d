import Verif.Model.Pool
/-! # What it means that calls come to their end -/
namespace GoMetrics
namespace Machine
variable {S C A I : Type}

/-- How often a schedule lets call `i` make a step. -/
def turns (i : Nat) : List (Ev A I) → Nat
  | [] => 0
  | .spawn _ :: es => turns i es
  | .step j _ :: es => (if j = i then 1 else 0) + turns i es

/-- No new call starts. -/
def NoSpawn (es : List (Ev A I)) : Prop := ∀ a, Ev.spawn a ∉ es

/-- Wait-free: whatever the others do, a call under way is over after at most `k` steps of its own. -/
def WaitFree (M : Machine S C A I) (s0 : S) (over : C → Bool) (k : Nat) : Prop :=
  ∀ (before after : List (Ev A I)) (i : Nat), i < (M.run (start s0) before).calls.length → k ≤ turns i after →
    ∃ c, (M.run (start s0) (before ++ after)).calls[i]? = some c ∧ over c = true

/-- Free of deadlock: whatever has happened, all calls under way can be brought to their end, without any new call. -/
def NeverStuck (M : Machine S C A I) (s0 : S) (over : C → Bool) : Prop :=
  ∀ before : List (Ev A I), ∃ after, NoSpawn after ∧ ∀ c ∈ (M.run (start s0) (before ++ after)).calls, over c = true

end Machine
end GoMetrics
