import Verif.Spec.Progress
/-! # What it means that calls end under a fair scheduler -/
namespace GoMetrics
namespace Machine
variable {S C A I : Type}

/-- A scheduler gives turn `k` to the call `(f k).1` and supplies `(f k).2` to its step. These are its first `m` turns. -/
def firstTurns (f : Nat → Nat × I) (m : Nat) : List (Ev A I) := (List.range m).map fun k => .step (f k).1 (f k).2

/-- A scheduler is fair to `n` calls: each gets turns again and again, with something `good` for its step. -/
def Fair (good : I → Prop) (n : Nat) (f : Nat → Nat × I) : Prop := ∀ i < n, ∀ m, ∃ k, m ≤ k ∧ (f k).1 = i ∧ good (f k).2

/-- Whatever has happened: if no new calls start and the scheduler is fair, the time comes when all calls are over, and over they remain. -/
def FairlyEnds (M : Machine S C A I) (s0 : S) (over : C → Bool) (good : I → Prop) : Prop :=
  ∀ (before : List (Ev A I)) (f : Nat → Nat × I), Fair good (M.run (start s0) before).calls.length f →
    ∃ m, ∀ k, m ≤ k → ∀ c ∈ (M.run (start s0) (before ++ firstTurns f k)).calls, over c = true

end Machine
end GoMetrics
