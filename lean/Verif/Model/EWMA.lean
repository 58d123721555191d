import Verif.Model.Float
import Verif.Model.GoBasics
import Verif.Model.Pool
/-! # EWMA (ewma.go)

Every floating-point operation is rounded by a parameter `R` (see Model/Float.lean). -/
namespace GoMetrics

/-- ewma.go:52-60 `EWMA`; the mutex appears in the concurrent model below. -/
structure EWMA where
  initialized : Bool
  rate : F64
  uncounted : Int
  alpha : F64
  interval : Int
  deriving DecidableEq

namespace EWMA

/-- ewma.go:112-118 `newEWMA`; the duration is in nanoseconds. -/
def new (alpha : F64) (interval : Int) : EWMA := ⟨false, .fin 0, 0, alpha, interval⟩

/-- The zero value `EWMA{}` of ewma.go:52-60 (what a struct that embeds an `EWMA` and does not set it holds). -/
def zeroValue : EWMA := ⟨false, .fin 0, 0, .fin 0, 0⟩

/-- ewma.go:62-64 `Update`. -/
def update (e : EWMA) (n : Int) : EWMA := { e with uncounted := i64 (e.uncounted + n) }

/-- ewma.go:67 `float64(count) / float64(ewma.interval)`. -/
def instantRate (R : Rounding) (e : EWMA) (count : Int) : F64 :=
  F64.div R (F64.ofInt R count) (F64.ofInt R e.interval)

/-- ewma.go:71-79: the new rate, given the instant rate. -/
def newRate (R : Rounding) (initialized : Bool) (alpha rate instant : F64) : F64 :=
  if initialized then F64.add R rate (F64.mul R alpha (F64.sub R instant rate)) else instant

/-- ewma.go:66-80 `TickN`. -/
def tickN (R : Rounding) (e : EWMA) (count : Int) : EWMA :=
  { e with rate := newRate R e.initialized e.alpha e.rate (e.instantRate R count), initialized := true }

/-- ewma.go:82-90 `Tick`, undisturbed: the first CAS succeeds. -/
def tick (R : Rounding) (e : EWMA) : EWMA := ({ e with uncounted := 0 } : EWMA).tickN R e.uncounted

/-- ewma.go:96-98 `GetRate`; `unit` is the time unit in nanoseconds. -/
def getRate (R : Rounding) (e : EWMA) (unit : Int) : F64 := F64.mul R e.rate (F64.ofInt R unit)

/-- The mutating API calls. -/
inductive Op where
  | update (n : Int)
  | tick
  | tickN (count : Int)
  deriving DecidableEq, Repr

/-- One API call. -/
def step (R : Rounding) (e : EWMA) : Op → EWMA
  | .update n => e.update n
  | .tick => e.tick R
  | .tickN c => e.tickN R c

/-- A history of API calls. -/
def run (R : Rounding) (e : EWMA) (h : List Op) : EWMA := h.foldl (step R) e

/-! ## Concurrent calls -/

/-- Program counter of a call, with its live local variables. -/
inductive PC where
  /-- ewma.go:63, about to add `n` to `uncounted` -/
  | update (n : Int)
  /-- `Update(n)` returned -/
  | updated (n : Int)
  /-- ewma.go:83 and :86, about to load `uncounted` -/
  | load
  /-- ewma.go:85 and :87, about to CAS `uncounted` from `old` to 0 -/
  | cas (old : Int)
  /-- ewma.go:67-68, about to compute the instant rate and lock; `own` tells whether the count was taken by `Tick` -/
  | enter (own : Bool) (c : Int)
  /-- ewma.go:71-72, holding the lock, about to read `initialized` and `rate` -/
  | read (own : Bool) (c : Int) (instant : F64)
  /-- ewma.go:73 or :78, about to store the new rate -/
  | store (own : Bool) (c : Int) (ini : Bool) (new : F64)
  /-- ewma.go:79, about to set `initialized` -/
  | setInit (own : Bool) (c : Int)
  /-- ewma.go:69, the deferred unlock -/
  | unlock (own : Bool) (c : Int)
  /-- `Tick` or `TickN` returned -/
  | done (own : Bool) (c : Int)
  deriving DecidableEq

/-- Shared memory: the EWMA and whether its mutex is held. -/
structure Shared where
  e : EWMA
  held : Bool

/-- One atomic step. ewma.go:72 and :73 read `rate` twice under the lock; one read is modelled. The instant rate is
computed from locals and the immutable `interval` in the step that acquires the lock. -/
def callStep (R : Rounding) (s : Shared) (_ : Unit) : PC → Shared × PC
  | .update n => ({ s with e := s.e.update n }, .updated n)
  | .updated n => (s, .updated n)
  | .load => (s, .cas s.e.uncounted)
  | .cas old =>
    if s.e.uncounted = old then ({ s with e := { s.e with uncounted := 0 } }, .enter true old) else (s, .load)
  | .enter own c =>
    if s.held then (s, .enter own c) else ({ s with held := true }, .read own c (s.e.instantRate R c))
  | .read own c i => (s, .store own c s.e.initialized (newRate R s.e.initialized s.e.alpha s.e.rate i))
  | .store own c ini new =>
    ({ s with e := { s.e with rate := new } }, if ini then .unlock own c else .setInit own c)
  | .setInit own c => ({ s with e := { s.e with initialized := true } }, .unlock own c)
  | .unlock own c => ({ s with held := false }, .done own c)
  | .done own c => (s, .done own c)

/-- The interleaving semantics of `Update`, `Tick` and `TickN`. -/
def conc (R : Rounding) : Machine Shared PC Op Unit where
  call
    | .update n => .update n
    | .tick => .load
    | .tickN c => .enter false c
  step := callStep R

end EWMA
end GoMetrics
