import Verif.Model.Compass
import Verif.Model.Pool
/-! # Compass (impl/default_compass.go): interleaved `Update` calls and rate reads

Modelled: `tickIfNecessary` (190-211) and the increment of `uncounted` (181). What comes after the increment in `Update` touches
neither field. Each `TickN` is one step here that appends its count to a log: Props/EWMA.lean (`C22_serialisable`) shows that
concurrent `TickN` calls on an average are equivalent to some serial order. -/
namespace GoMetrics
namespace CompassConc

/-- Shared memory: the two fields, and logs (not in the program): the successful swaps of `lastTick` as (old, new, ticks granted),
the counts swapped out of `uncounted`, and the arguments of the `TickN` calls on the three averages. -/
structure Shared where
  lastTick : Int
  uncounted : Int
  wins : List (Int × Int × Nat) := []
  taken : List Int := []
  fed1 : List Int := []
  fed5 : List Int := []
  fed15 : List Int := []
  deriving DecidableEq

/-- Program counter of a call; `upd` tells an `Update` from a rate read. -/
inductive PC where
  /-- line 191, about to read `lastTick` -/
  | readOld (upd : Bool)
  /-- line 192, about to read the clock -/
  | readClock (upd : Bool) (old : Int)
  /-- line 196, about to swap `lastTick`; `ticks` is line 197's `requiredTicks` -/
  | swap (upd : Bool) (old new : Int) (ticks : Nat)
  /-- lines 198, 201 and 203, `left` iterations to go, about to load `uncounted` -/
  | load (upd : Bool) (left : Nat)
  /-- line 202, about to swap `uncounted` -/
  | take (upd : Bool) (left : Nat) (count : Int)
  /-- lines 205, 206, 207 -/
  | tick1 (upd : Bool) (left : Nat) (count : Int)
  | tick5 (upd : Bool) (left : Nat) (count : Int)
  | tick15 (upd : Bool) (left : Nat) (count : Int)
  /-- line 181, about to increment `uncounted` -/
  | add
  /-- past these lines -/
  | done (upd : Bool)
  deriving DecidableEq

/-- What follows `tickIfNecessary`: `Update` goes on, a rate read is over (line 180-181; 85-86, 90-91, 104-105). -/
def after : Bool → PC
  | true => .add
  | false => .done false

/-- The loop head, line 198. -/
def loop (upd : Bool) : Nat → PC
  | 0 => after upd
  | left + 1 => .load upd left

/-- One atomic step; `clock` is the reading of `GetTick()`; `I` the (non-zero) bucket interval. -/
def callStep (I : Int) (s : Shared) (clock : Int) : PC → Shared × PC
  | .readOld upd => (s, .readClock upd s.lastTick)
  | .readClock upd old =>
    let age := i64 (clock - old)
    (s, if age > Compass.tickInterval then
        .swap upd old (i64 (clock - age.tmod I)) (age.tdiv Compass.tickInterval).toNat
      else after upd)
  | .swap upd old new ticks =>
    if s.lastTick = old then ({ s with lastTick := new, wins := s.wins ++ [(old, new, ticks)] }, loop upd ticks)
    else (s, after upd)
  | .load upd left => (s, .take upd left s.uncounted)
  | .take upd left count =>
    if s.uncounted = count then ({ s with uncounted := 0, taken := s.taken ++ [count] }, .tick1 upd left count)
    else (s, .load upd left)
  | .tick1 upd left count => ({ s with fed1 := s.fed1 ++ [count] }, .tick5 upd left count)
  | .tick5 upd left count => ({ s with fed5 := s.fed5 ++ [count] }, .tick15 upd left count)
  | .tick15 upd left count => ({ s with fed15 := s.fed15 ++ [count] }, loop upd left)
  | .add => ({ s with uncounted := i64 (s.uncounted + 1) }, .done true)
  | .done upd => (s, .done upd)

/-- The interleaving semantics; the argument of a call tells `Update` (true) from a rate read (false). -/
def conc (I : Int) : Machine Shared PC Bool Int where
  call := .readOld
  step := callStep I

end CompassConc
end GoMetrics
