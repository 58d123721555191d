import Verif.Model.CompassConc
import Verif.Model.CompassUpdateConc
import Verif.Model.UniformConc
import Verif.Model.EDRConc
/-! # A whole compass (impl/default_compass.go) in small steps, used by any number of goroutines

The parts of a compass - the tick clock with `uncounted`, the three averages, the counters with the label maps, the reservoir - have been
modelled one by one (Model/CompassConc.lean, EWMA.lean, CompassUpdateConc.lean, UniformConc.lean, EDRConc.lean). Here they are put together: a call of
`Update`, `UpdateWithError`, a rate getter or `GetSnapshot` runs through its parts in program order, and every step it makes in a part is one step of
a call of that part's machine. The local variables of a call while it is inside a part are kept in the pool of that part, under an index that the
call remembers. When a call enters or leaves a part it makes a step that touches no shared memory. -/
namespace GoMetrics
namespace Whole
open CompassConc (MarkArg Mark Marks)

/-- A reservoir in small steps; `over` tells whether a call of it is over, and then whether it panicked. -/
structure Stepped (S C A I : Type) where
  machine : Machine S C A I
  updateN : Int → A
  snapshot : A
  over : C → Option Bool

/-- Which average: `m1Rate`, `m5Rate`, `m15Rate` (impl/default_compass.go:50-55). -/
inductive Which where
  | m1
  | m5
  | m15
  deriving DecidableEq

/-- The method a goroutine calls. `Update(d)` (impl/default_compass.go:179-184) is `update d ⟨false, "", ""⟩`, which does nothing after line 149. -/
inductive Use where
  /-- impl/default_compass.go:148-168 `UpdateWithError` -/
  | update (d : Int) (a : MarkArg)
  /-- impl/default_compass.go:84-92, 103-106 -/
  | rate (w : Which)
  /-- impl/default_compass.go:186-188 -/
  | snapshot
  deriving DecidableEq

/-- The shared memory, part by part (impl/default_compass.go:32-82). -/
structure Parts (S C : Type) where
  ticks : Pool CompassConc.Shared CompassConc.PC
  avg : Which → Pool EWMA.Shared EWMA.PC
  marks : Pool Marks Mark
  res : Pool S C

/-- Where a call is; the numbers are its indices in the pools of the parts. -/
inductive PC where
  /-- before the first line -/
  | start
  /-- lines 180-181, 85, 90, 104: inside `tickIfNecessary`, and the increment of `uncounted` -/
  | tick (i : Nat)
  /-- lines 205-207: inside `TickN` of an average -/
  | avg (i : Nat) (w : Which) (j : Nat)
  /-- line 182: inside `totalCount.Update()` -/
  | total (i m : Nat)
  /-- line 183: inside `reservoir.UpdateN` -/
  | res (i m r : Nat)
  /-- lines 150-167 -/
  | rest (i m r : Nat)
  /-- lines 86, 91, 105: about to read the rate -/
  | rate (i : Nat)
  /-- line 187: inside `reservoir.GetSnapshot()` -/
  | snap (r : Nat)
  /-- `UpdateWithError` is over (returned, or panicked for a label) -/
  | done (i m r : Nat)
  /-- the reservoir panicked -/
  | resPanicked (i m r : Nat)
  /-- division by zero in `totalCount.Update()` -/
  | crashed (i m : Nat)
  /-- a rate getter returned -/
  | got (i : Nat) (v : F64)
  /-- `GetSnapshot` is over -/
  | snapped (r : Nat)
  deriving DecidableEq

/-- A call. -/
structure Call where
  use : Use
  pc : PC

/-- What the environment supplies to a step: a reading of `GetTick()`, one of `GetTime()`, and what a reservoir needs. -/
structure In (I : Type) where
  tick : Int
  time : Int
  res : I

/-- Does the call record an event (lines 180-181) or only read a rate? -/
def Use.records : Use → Bool
  | .update _ _ => true
  | _ => false

/-- Is an `UpdateWithError` past line 182? -/
def pastTotal (m : Mark) : Bool :=
  match m.pc with
  | .total _ => false
  | _ => true

/-- Is an `UpdateWithError` over? -/
def markOver (m : Mark) : Bool :=
  match m.pc with
  | .done | .panicked _ | .crashed => true
  | _ => false

variable {S C A I : Type}

/-- Replace one average. -/
def Parts.setAvg (s : Parts S C) (w : Which) (p : Pool EWMA.Shared EWMA.PC) : Parts S C := { s with avg := Function.update s.avg w p }

/-- The average the next step of this call in the tick part feeds, and with what (lines 205-207). -/
def feeds : CompassConc.PC → Option (Which × Int)
  | .tick1 _ _ c => some (.m1, c)
  | .tick5 _ _ c => some (.m5, c)
  | .tick15 _ _ c => some (.m15, c)
  | _ => none

/-- Is the call done with the tick part? -/
def tickOver : CompassConc.PC → Bool
  | .done _ => true
  | _ => false

/-- Has `TickN` returned? -/
def avgOver : EWMA.PC → Bool
  | .done _ _ => true
  | _ => false

/-- One step of a call of a compass with bucket interval `bi` and reservoir `T` (impl/default_compass.go:84-106, 148-211). -/
def callStep (R : Rounding) (T : Stepped S C A I) (bi : Int) (s : Parts S C) (x : In I) (c : Call) : Parts S C × Call :=
  match c.pc with
  | .start =>
    match c.use with
    | .snapshot => ({ s with res := T.machine.apply s.res (.spawn T.snapshot) }, { c with pc := .snap s.res.calls.length })
    | _ => ({ s with ticks := (CompassConc.conc bi).apply s.ticks (.spawn c.use.records) }, { c with pc := .tick s.ticks.calls.length })
  | .tick i =>
    match s.ticks.calls[i]? with
    | none => (s, c)
    | some t =>
      if tickOver t then
        match c.use with
        | .update _ a => ({ s with marks := CompassConc.marking.apply s.marks (.spawn a) }, { c with pc := .total i s.marks.calls.length })
        | _ => (s, { c with pc := .rate i })
      else
        let s' := { s with ticks := (CompassConc.conc bi).apply s.ticks (.step i x.tick) }
        match feeds t with
        | none => (s', c)
        | some (w, n) => (s'.setAvg w ((EWMA.conc R).apply (s.avg w) (.spawn (.tickN n))), { c with pc := .avg i w (s.avg w).calls.length })
  | .avg i w j =>
    match (s.avg w).calls[j]? with
    | none => (s, c)
    | some e => if avgOver e then (s, { c with pc := .tick i }) else (s.setAvg w ((EWMA.conc R).apply (s.avg w) (.step j ())), c)
  | .total i m =>
    match s.marks.calls[m]? with
    | none => (s, c)
    | some k =>
      if pastTotal k then
        if k.pc = .crashed then (s, { c with pc := .crashed i m })
        else match c.use with
          | .update d _ => ({ s with res := T.machine.apply s.res (.spawn (T.updateN d)) }, { c with pc := .res i m s.res.calls.length })
          | _ => (s, c)
      else ({ s with marks := CompassConc.marking.apply s.marks (.step m x.time) }, c)
  | .res i m r =>
    match s.res.calls[r]? with
    | none => (s, c)
    | some q =>
      match T.over q with
      | some true => (s, { c with pc := .resPanicked i m r })
      | some false => (s, { c with pc := .rest i m r })
      | none => ({ s with res := T.machine.apply s.res (.step r x.res) }, c)
  | .rest i m r =>
    match s.marks.calls[m]? with
    | none => (s, c)
    | some k =>
      if markOver k then (s, { c with pc := .done i m r })
      else ({ s with marks := CompassConc.marking.apply s.marks (.step m x.time) }, c)
  | .rate i =>
    match c.use with
    | .rate w => (s, { c with pc := .got i (EWMA.getRate R (s.avg w).shared.e 1000000000) })
    | _ => (s, c)
  | .snap r =>
    match s.res.calls[r]? with
    | none => (s, c)
    | some q => if (T.over q).isSome then (s, { c with pc := .snapped r }) else ({ s with res := T.machine.apply s.res (.step r x.res) }, c)
  | .done _ _ _ | .resPanicked _ _ _ | .crashed _ _ | .got _ _ | .snapped _ => (s, c)

/-- The interleaving semantics of a compass. -/
def machine (R : Rounding) (T : Stepped S C A I) (bi : Int) : Machine (Parts S C) Call Use (In I) where
  call u := ⟨u, .start⟩
  step := callStep R T bi

/-- A new compass (impl/default_compass.go:213-266): `now` is the reading of line 217/250, `t1`, `t2` those of the two bucket counters; the averages are
the zero value of their type; `s0` is the new reservoir. -/
def init (s0 : S) (bi : Int) (n : Nat) (maxErr maxAdd now t1 t2 : Int) : Pool (Parts S C) Call :=
  Machine.start {
    ticks := Machine.start { lastTick := now, uncounted := 0 }
    avg := fun _ => Machine.start ⟨EWMA.zeroValue, false⟩
    marks := Machine.start (Marks.new bi n maxErr maxAdd t1 t2)
    res := Machine.start s0 }

/-- The uniform reservoir, whose critical sections run under its RW mutex. -/
def uniform : Stepped (Guard UniformReservoir Int Int Bool)
    (GuardPC Int UniformConc.WPC Int Bool UniformConc.Query UniformConc.RPC UniformConc.Answer) (Int ⊕ UniformConc.Query) Int where
  machine := UniformConc.guarded.machine
  updateN := .inl
  snapshot := .inr .snapshot
  over
    | .wDone _ r => some r
    | .rDone _ _ => some false
    | _ => none

/-- The exponentially decaying reservoir. -/
def decaying (A : EDR.Arith) : Stepped EDRConc.Shared EDRConc.PC EDRConc.Act EDRConc.In where
  machine := EDRConc.machine A
  updateN := .updateN
  snapshot := .getSnapshot
  over
    | .updated _ _ _ _ => some false
    | .snapshot _ => some false
    | .sized _ => some false
    | .panicked _ => some true
    | _ => none

end Whole
end GoMetrics
