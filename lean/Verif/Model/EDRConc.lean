import Verif.Model.EDR
import Verif.Model.Pool
/-! # ExponentiallyDecayingReservoir (impl/exponentially_decaying_reservoir.go): interleaved calls

The sections under `rwMutex` (162-180, 89-124, 200) are one step each: what they write and others read without the lock - `startTime` (81)
and `count` (69-70) - is written once in the section, and whoever read it in the middle cannot get at the samples before its end.
Reading the clock in line 163 happens inside the section. -/
namespace GoMetrics
namespace EDRConc
open EDR

/-- Shared memory: the reservoir, and a log (not in the program) of the swaps of `nextScaleTime` that succeeded, newest first: the tick
`now` of the call and the deadline `due` it had compared it with. -/
structure Shared where
  rsv : EDR
  log : List (Int × Int) := []
  deriving DecidableEq

/-- What is called. -/
inductive Act where
  | updateN (value : Int)
  | getSnapshot
  | size
  deriving DecidableEq

/-- Program counter of a call. -/
inductive PC where
  /-- line 132, about to read the tick -/
  | tick (act : Act)
  /-- line 133, about to read `nextScaleTime` and compare -/
  | check (act : Act) (now : Int)
  /-- line 134, about to read `nextScaleTime` again; `due` is what it was compared with -/
  | reread (act : Act) (now due : Int)
  /-- line 158, about to swap -/
  | cas (act : Act) (now due next : Int)
  /-- line 160, about to rescale -/
  | lockScale (act : Act)
  /-- line 79, about to read the clock -/
  | time (value : Int)
  /-- line 81, about to read `startTime`; then 82-84 -/
  | weigh (value ts : Int)
  /-- line 86, about to record; the timestamp `ts`, the draw `u` and the landmark `l` read in line 81 stay for the specification only -/
  | lockRecord (value : Int) (prio w : F64) (ts : Int) (u : F64) (l : Int)
  /-- line 198, about to copy the samples -/
  | lockSnap
  /-- line 69, about to read `count` -/
  | size1
  /-- line 70, about to read `count` again -/
  | size2
  /-- returned; for the specification only: by how much the landmark had moved (`slip`) since it was read -/
  | updated (value ts : Int) (u : F64) (slip : Int)
  | snapshot (samples : List WeightedSample)
  | sized (n : Int)
  /-- panicked in line 99 -/
  | panicked (value : Int)
  deriving DecidableEq

/-- What the environment supplies to a step: the clock's tick and time, a random number. -/
structure In where
  tick : Int := 0
  time : Int := 0
  u : F64 := .fin (1 / 2)

/-- What follows `rescaleIfNeeded` (79; 198). -/
def after : Act → PC
  | .updateN v => .time v
  | .getSnapshot => .lockSnap
  | .size => .size1

/-- One atomic step. -/
def callStep (A : Arith) (s : Shared) (x : In) : PC → Shared × PC
  | .tick act => (s, .check act x.tick)
  | .check act now => (s, if s.rsv.nextScaleTime ≤ now then .reread act now s.rsv.nextScaleTime else after act)
  | .reread act now due => (s, .cas act now due s.rsv.nextScaleTime)
  | .cas act now due next =>
    if s.rsv.nextScaleTime = next then
      (⟨{ s.rsv with nextScaleTime := i64 (now + rescaleThreshold) }, (now, due) :: s.log⟩, .lockScale act)
    else (s, after act)
  | .lockScale act => ({ s with rsv := rescaleLocked A s.rsv x.time }, after act)
  | .time v => (s, .weigh v (currentTimeInSecond x.time))
  | .weigh v ts =>
    let w := weight A s.rsv.alpha (i64 (ts - s.rsv.startTime))
    (s, .lockRecord v (priority A w x.u) w ts x.u s.rsv.startTime)
  | .lockRecord v prio w ts u l =>
    match record s.rsv prio v w with
    | .ok r => ({ s with rsv := r }, .updated v ts u (s.rsv.startTime - l))
    | .panic r => ({ s with rsv := r }, .panicked v)
  | .lockSnap => (s, .snapshot s.rsv.getValues)
  | .size1 => (s, if s.rsv.size > s.rsv.count then .size2 else .sized s.rsv.size)
  | .size2 => (s, .sized s.rsv.count)
  | c => (s, c)

/-- `UpdateN` (75) and `GetSnapshot` (196) begin with `rescaleIfNeeded`, `Size` (68) does not. -/
def start : Act → PC
  | .size => .size1
  | act => .tick act

/-- Any number of goroutines calling any of the methods of one reservoir. -/
def machine (A : Arith) : Machine Shared PC Act In where
  call := start
  step := callStep A

/-- The pool right after the reservoir was created. -/
def init (size : Int) (alpha : F64) (time tick : Int) : Pool Shared PC := Machine.start ⟨EDR.new size alpha time tick, []⟩

end EDRConc
end GoMetrics
