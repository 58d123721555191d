import Verif.Model.WholeCompass
import Verif.Model.CompassWild
/-! # A whole compass whose unsynchronised loads may return anything they could ever return

impl/default_compass.go as in Model/WholeCompass.lean, with the loads of Model/CompassWild.lean: of `lastTick` (line 191), and in the bucket counters (impl/default_bucket_counter.go:
108, 109, 120, impl/bucket_queue.go:66, 67); and the plain load of a rate (ewma.go:97) returns any number. -/
namespace GoMetrics
namespace Whole
open CompassConc (MarkArg Mark Marks TickSeen)
open BucketCounter (Seen)

/-- What the environment supplies to a step: what the tick part, the counters and the reservoir need, and what a plain load of a rate returns. -/
structure InBy (X Y I : Type) where
  tick : X
  time : Y
  res : I
  rate : Option F64

variable {S C A I X Y : Type}

/-- One step of a call of a compass with reservoir `T` (impl/default_compass.go:84-106, 148-211): Model/WholeCompass.lean's `callStep`, with the machines of the tick part and
of the counters, and what a plain load of the rate (ewma.go:97) returns, as parameters. -/
def callStepBy (R : Rounding) (T : Stepped S C A I) (TK : Machine CompassConc.Shared CompassConc.PC Bool X) (MK : Machine Marks Mark MarkArg Y)
    (seen : Option F64 → F64 → F64) (s : Parts S C) (x : InBy X Y I) (c : Call) : Parts S C × Call :=
  match c.pc with
  | .start =>
    match c.use with
    | .snapshot => ({ s with res := T.machine.apply s.res (.spawn T.snapshot) }, { c with pc := .snap s.res.calls.length })
    | _ => ({ s with ticks := TK.apply s.ticks (.spawn c.use.records) }, { c with pc := .tick s.ticks.calls.length })
  | .tick i =>
    match s.ticks.calls[i]? with
    | none => (s, c)
    | some t =>
      if tickOver t then
        match c.use with
        | .update _ a => ({ s with marks := MK.apply s.marks (.spawn a) }, { c with pc := .total i s.marks.calls.length })
        | _ => (s, { c with pc := .rate i })
      else
        let s' := { s with ticks := TK.apply s.ticks (.step i x.tick) }
        match feeds t with
        | none => (s', c)
        | some (w, n) => (s'.setAvg w ((EWMA.conc R).apply (s.avg w) (.spawn (.tickN n))), { c with pc := .avg i w (s.avg w).calls.length })
  | .avg i w j =>
    match (s.avg w).calls[j]? with
    | none => (s, c)
    | some e => if avgOver e then (s, { c with pc := .tick i }) else (s.setAvg w ((EWMA.conc R).apply (s.avg w) (.step j ())), c)
  | .total i m =>
    match s.marks.calls[m]? with
    | none => (s, c)
    | some k =>
      if pastTotal k then
        if k.pc = .crashed then (s, { c with pc := .crashed i m })
        else match c.use with
          | .update d _ => ({ s with res := T.machine.apply s.res (.spawn (T.updateN d)) }, { c with pc := .res i m s.res.calls.length })
          | _ => (s, c)
      else ({ s with marks := MK.apply s.marks (.step m x.time) }, c)
  | .res i m r =>
    match s.res.calls[r]? with
    | none => (s, c)
    | some q =>
      match T.over q with
      | some true => (s, { c with pc := .resPanicked i m r })
      | some false => (s, { c with pc := .rest i m r })
      | none => ({ s with res := T.machine.apply s.res (.step r x.res) }, c)
  | .rest i m r =>
    match s.marks.calls[m]? with
    | none => (s, c)
    | some k =>
      if markOver k then (s, { c with pc := .done i m r })
      else ({ s with marks := MK.apply s.marks (.step m x.time) }, c)
  | .rate i =>
    match c.use with
    | .rate w => (s, { c with pc := .got i (seen x.rate (EWMA.getRate R (s.avg w).shared.e 1000000000)) })
    | _ => (s, c)
  | .snap r =>
    match s.res.calls[r]? with
    | none => (s, c)
    | some q => if (T.over q).isSome then (s, { c with pc := .snapped r }) else ({ s with res := T.machine.apply s.res (.step r x.res) }, c)
  | .done _ _ _ | .resPanicked _ _ _ | .crashed _ _ | .got _ _ | .snapped _ => (s, c)

/-- A compass (impl/default_compass.go:84-106, 148-211) with such loads. -/
def wildMachine (R : Rounding) (T : Stepped S C A I) (bi : Int) : Machine (Parts S C) Call Use (InBy TickSeen Seen I) where
  call u := ⟨u, .start⟩
  step := callStepBy R T (CompassConc.wildConc bi) CompassConc.wildMarking (fun any r => any.getD r)

end Whole
end GoMetrics
