import Verif.Model.Pool
/-! # What a data race is

The definition of the Go memory model for programs that use `sync/atomic` and locks, in the form it takes on sequentially consistent executions: two
goroutines are about to access the same location, at least one of them writes, and the two accesses are not both atomic. Since the steps of two
goroutines that are both about to be made can follow each other immediately in either order, no synchronisation orders them. -/
namespace GoMetrics

/-- How a location is accessed: with an ordinary load or store, through `sync/atomic` (also: by operations on a lock, a `sync.Once` or a `sync.Map`), or
with an ordinary load or store in a critical section that the model runs as one step. Two such sections belong to the same lock, so they exclude each
other. -/
inductive Mode where
  | plain
  | atomic
  | locked
  deriving DecidableEq

/-- One access to shared memory. -/
structure Access (Loc : Type) where
  loc : Loc
  write : Bool
  mode : Mode
  deriving DecidableEq

/-- Two accesses that must not happen at the same time. -/
def Access.Conflict {Loc : Type} (a b : Access Loc) : Prop :=
  a.loc = b.loc ∧ (a.write = true ∨ b.write = true) ∧ ¬ (a.mode = .atomic ∧ b.mode = .atomic) ∧ ¬ (a.mode = .locked ∧ b.mode = .locked)

/-- What the locations of an object are: their contents, which of them exist, and which are accessed by the next step of a call. -/
structure Footprint (S C Loc : Type) where
  V : Loc → Type
  val : (l : Loc) → S → V l
  live : S → Loc → Prop
  acc : S → C → List (Access Loc)

namespace Footprint
variable {S C A I Loc : Type} (F : Footprint S C Loc)

/-- The accesses are those the steps of the model really make: a step changes no existing location but those it writes to, and what it does (to the
call, and to the locations it accesses) depends on nothing but the contents of the locations it accesses. `possible` are the combinations of memory and
call this is claimed for. -/
structure Honest (M : Machine S C A I) (possible : S → C → Prop) : Prop where
  frame : ∀ s x c l, possible s c → F.live s l → (∀ a ∈ F.acc s c, a.loc = l → a.write = false) → F.val l (M.step s x c).1 = F.val l s
  depends : ∀ s s' x c, possible s c → possible s' c → (∀ l, F.live s l ↔ F.live s' l) → (∀ a ∈ F.acc s c, F.val a.loc s = F.val a.loc s') →
    (M.step s x c).2 = (M.step s' x c).2 ∧ ∀ a ∈ F.acc s c, F.val a.loc (M.step s x c).1 = F.val a.loc (M.step s' x c).1

/-- Two different calls are about to make conflicting accesses to `l`. -/
def RaceAt (p : Pool S C) (l : Loc) : Prop :=
  ∃ (i j : Nat) (c d : C) (a b : Access Loc), i ≠ j ∧ p.calls[i]? = some c ∧ p.calls[j]? = some d ∧ a ∈ F.acc p.shared c ∧ b ∈ F.acc p.shared d ∧ a.loc = l ∧ a.Conflict b

/-- If goroutines make only calls allowed by `ok`, some schedule leads to a race on `l`. -/
def Races (M : Machine S C A I) (s0 : S) (ok : A → Prop) (l : Loc) : Prop :=
  ∃ es : List (Ev A I), (∀ a, Ev.spawn a ∈ es → ok a) ∧ F.RaceAt (M.run (Machine.start s0) es) l

/-- If goroutines make only calls allowed by `ok`, no schedule leads to a race. -/
def RaceFree (M : Machine S C A I) (s0 : S) (ok : A → Prop) : Prop := ∀ l, ¬ F.Races M s0 ok l

/-- A goroutine that makes the access `a` without any synchronisation (a getter) can race with the calls of the machine. -/
def RacesWith (M : Machine S C A I) (s0 : S) (ok : A → Prop) (a : Access Loc) : Prop :=
  ∃ es : List (Ev A I), (∀ x, Ev.spawn x ∈ es → ok x) ∧
    ∃ (c : C) (b : Access Loc), c ∈ (M.run (Machine.start s0) es).calls ∧ b ∈ F.acc (M.run (Machine.start s0) es).shared c ∧ a.Conflict b

end Footprint
end GoMetrics
