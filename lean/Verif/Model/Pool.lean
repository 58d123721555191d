import Mathlib.Data.List.Basic
import Mathlib.Data.List.Induction
import Mathlib.Algebra.BigOperators.Group.List.Basic
import Mathlib.Tactic.Linarith
import Mathlib.Tactic.Ring
/-!
# Interleaving semantics

Not modelled from a file of the repository: this is the meaning of "any number of goroutines call this method
concurrently". A pool holds the shared memory and the local state of every call made so far. A schedule is an
arbitrary list of events: a new call starts, or some call performs its next atomic step. `x : I` is whatever the
environment supplies to that step (a clock reading, a random number); a step that needs nothing ignores it.
Every event list is a schedule, so quantifying over event lists quantifies over every number of goroutines and
every interleaving. Memory is sequentially consistent at the granularity of the steps.
-/
namespace GoMetrics

/-- The atomic steps of a method: `call a` is the local state of a call with arguments `a` before its first step. -/
structure Machine (S C A I : Type) where
  call : A → C
  step : S → I → C → S × C

/-- Shared memory and all calls started so far. -/
structure Pool (S C : Type) where
  shared : S
  calls : List C

/-- One scheduling event. -/
inductive Ev (A I : Type) where
  | spawn (a : A)
  | step (i : Nat) (x : I)

namespace Machine
variable {S C A I : Type} (M : Machine S C A I)

/-- Effect of one event; stepping a call that does not exist does nothing. -/
def apply (p : Pool S C) : Ev A I → Pool S C
  | .spawn a => ⟨p.shared, p.calls ++ [M.call a]⟩
  | .step i x =>
    match p.calls[i]? with
    | none => p
    | some c => ⟨(M.step p.shared x c).1, p.calls.set i (M.step p.shared x c).2⟩

/-- Effect of a schedule. -/
def run (p : Pool S C) (es : List (Ev A I)) : Pool S C := es.foldl M.apply p

/-- Nobody is running. -/
def start (s : S) : Pool S C := ⟨s, []⟩

theorem run_nil (p : Pool S C) : M.run p [] = p := rfl
theorem run_cons (p : Pool S C) (e : Ev A I) (es) : M.run p (e :: es) = M.run (M.apply p e) es := rfl
theorem run_append (p : Pool S C) (es es' : List (Ev A I)) :
    M.run p (es ++ es') = M.run (M.run p es) es' := by simp [run]
theorem run_snoc (p : Pool S C) (es : List (Ev A I)) (e) :
    M.run p (es ++ [e]) = M.apply (M.run p es) e := by simp [run]

theorem apply_step_eq {p : Pool S C} {i : Nat} {x : I} {c : C} (h : p.calls[i]? = some c) :
    ∃ pre post, p.calls = pre ++ c :: post ∧ pre.length = i ∧
      M.apply p (.step i x) = ⟨(M.step p.shared x c).1, pre ++ (M.step p.shared x c).2 :: post⟩ := by
  obtain ⟨hi, hc⟩ := List.getElem?_eq_some_iff.1 h
  refine ⟨p.calls.take i, p.calls.drop (i + 1), ?_, ?_, ?_⟩
  · rw [← hc, List.getElem_cons_drop, List.take_append_drop]
  · simp; omega
  · simp only [apply, h]
    congr 1
    rw [List.set_eq_take_append_cons_drop, if_pos hi]

/-- To show that `Inv` holds after every schedule, show it for the start, for a new call, and for one step of any
call among any others. -/
theorem inv_run (Inv : Pool S C → Prop)
    (hspawn : ∀ s cs a, Inv ⟨s, cs⟩ → Inv ⟨s, cs ++ [M.call a]⟩)
    (hstep : ∀ s pre c post x, Inv ⟨s, pre ++ c :: post⟩ →
      Inv ⟨(M.step s x c).1, pre ++ (M.step s x c).2 :: post⟩)
    (p : Pool S C) (h0 : Inv p) (es : List (Ev A I)) : Inv (M.run p es) := by
  induction es generalizing p with
  | nil => exact h0
  | cons e es ih =>
    apply ih
    cases e with
    | spawn a => exact hspawn _ _ _ h0
    | step i x =>
      cases h : p.calls[i]? with
      | none => simpa [apply, h] using h0
      | some c =>
        obtain ⟨pre, post, h1, _, h2⟩ := M.apply_step_eq (x := x) h
        rw [h2]
        apply hstep
        rw [← h1]; exact h0

end Machine

theorem sum_map_replace {α : Type} (f : α → Int) (pre post : List α) (c c' : α) :
    ((pre ++ c' :: post).map f).sum = ((pre ++ c :: post).map f).sum + (f c' - f c) := by
  simp only [List.map_append, List.map_cons, List.sum_append, List.sum_cons]
  ring

end GoMetrics
