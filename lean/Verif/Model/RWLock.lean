import Verif.Model.Pool
/-!
# Objects guarded by a mutex or a read-write mutex

The common shape of `UniformReservoir` (impl/uniform_reservoir.go:46-47, 56-57, 87-88) and of the writing side of `FastCompassImpl`
(impl/default_fast_compass.go:88-89): every writing method takes the lock, performs any number of small steps on the object, and releases
the lock with `defer` (so also after a panic, which is just one of the possible results); every reading method does the same with the read
lock. `sync.Mutex` and `sync.RWMutex` are modelled by their contract: at most one writer and no reader beside it. Schedules in which a
reader overtakes a waiting writer are allowed too (the real lock excludes some of them), so theorems cover more schedules than can happen.
-/
namespace GoMetrics

/-- The code between lock and unlock: `A` the arguments of a writing method, `L` its local state, `I` what the environment supplies to one
step, `R` its result; `Q`, `K`, `V` the same for a reading method. -/
structure Guarded (S A L I R Q K V : Type) where
  enter : A → L
  wstep : S → I → L → S × (L ⊕ R)
  look : Q → K
  rstep : S → K → K ⊕ V

/-- The object, the lock, and the completed critical sections in order (the log is not in the program). -/
structure Guard (S A I R : Type) where
  writer : Bool := false
  readers : Nat := 0
  obj : S
  log : List (A × List I × R) := []

/-- Where a call is. -/
inductive GuardPC (A L I R Q K V : Type) where
  /-- waiting for `Lock()` -/
  | wWait (a : A)
  /-- inside, having consumed the inputs `ins` -/
  | wIn (a : A) (ins : List I) (l : L)
  /-- deferred `Unlock()` -/
  | wOut (a : A) (r : R)
  | wDone (a : A) (r : R)
  /-- waiting for `RLock()` -/
  | rWait (q : Q)
  | rIn (q : Q) (k : K)
  /-- deferred `RUnlock()` -/
  | rOut (q : Q) (v : V)
  | rDone (q : Q) (v : V)
  deriving DecidableEq

namespace Guarded
variable {S A L I R Q K V : Type} (G : Guarded S A L I R Q K V)

/-- One atomic step of a call. -/
def callStep (s : Guard S A I R) (x : I) : GuardPC A L I R Q K V → Guard S A I R × GuardPC A L I R Q K V
  | .wWait a =>
    if s.writer = true ∨ 0 < s.readers then (s, .wWait a) else ({ s with writer := true }, .wIn a [] (G.enter a))
  | .wIn a ins l =>
    match G.wstep s.obj x l with
    | (o, .inl l') => ({ s with obj := o }, .wIn a (ins ++ [x]) l')
    | (o, .inr r) => ({ s with obj := o, log := s.log ++ [(a, ins ++ [x], r)] }, .wOut a r)
  | .wOut a r => ({ s with writer := false }, .wDone a r)
  | .wDone a r => (s, .wDone a r)
  | .rWait q => if s.writer = true then (s, .rWait q) else ({ s with readers := s.readers + 1 }, .rIn q (G.look q))
  | .rIn q k =>
    match G.rstep s.obj k with
    | .inl k' => (s, .rIn q k')
    | .inr v => (s, .rOut q v)
  | .rOut q v => ({ s with readers := s.readers - 1 }, .rDone q v)
  | .rDone q v => (s, .rDone q v)

/-- The interleaving semantics: a call is a writing method (`inl`) or a reading one (`inr`). -/
def machine : Machine (Guard S A I R) (GuardPC A L I R Q K V) (A ⊕ Q) I where
  call
    | .inl a => .wWait a
    | .inr q => .rWait q
  step := G.callStep

/-- A fresh object, nobody running. -/
def init (s : S) : Pool (Guard S A I R) (GuardPC A L I R Q K V) := Machine.start { obj := s }

/-- A writing method that nobody interrupts, from local state `l`, with exactly the inputs it consumes. -/
inductive Alone : S → L → List I → S → R → Prop
  | last {s x l s' r} : G.wstep s x l = (s', .inr r) → Alone s l [x] s' r
  | more {s x l s' l' xs s'' r} : G.wstep s x l = (s', .inl l') → Alone s' l' xs s'' r → Alone s l (x :: xs) s'' r

/-- One writing method after the other: `log` is a sequential history from `s` to `s'`. -/
inductive Sequential : S → List (A × List I × R) → S → Prop
  | nil {s} : Sequential s [] s
  | snoc {s h s' a ins r s''} : Sequential s h s' → G.Alone s' (G.enter a) ins s'' r → Sequential s (h ++ [(a, ins, r)]) s''

/-- A reading method that nobody interrupts, on the object `s`. -/
inductive Sees (s : S) : K → V → Prop
  | last {k v} : G.rstep s k = .inr v → Sees s k v
  | more {k k' v} : G.rstep s k = .inl k' → Sees s k' v → Sees s k v

end Guarded
end GoMetrics
