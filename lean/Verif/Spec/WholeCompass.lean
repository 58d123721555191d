import Verif.Model.WholeCompass
/-! # What the calls of a compass were -/
namespace GoMetrics
namespace Whole

/-- The arguments of an `Update` or `UpdateWithError`. -/
def Call.recorded? (c : Call) : Option (Int × CompassConc.MarkArg) :=
  match c.use with
  | .update d a => some (d, a)
  | _ => none

/-- The call is over: it returned, or it panicked because of a label it is not allowed to add. -/
def Call.over (c : Call) : Bool :=
  match c.pc with
  | .done _ _ _ | .got _ _ | .snapped _ => true
  | _ => false

variable {S C A I : Type}

/-- What the theorems need to know about a reservoir: which call a call is, and that it stays over when it is. -/
structure Stepped.Ok (T : Stepped S C A I) (arg : C → Option Int) : Prop where
  arg_update : ∀ d, arg (T.machine.call (T.updateN d)) = some d
  arg_snapshot : arg (T.machine.call T.snapshot) = none
  arg_step : ∀ s x c, arg (T.machine.step s x c).2 = arg c
  over_step : ∀ s x c b, T.over c = some b → T.over (T.machine.step s x c).2 = some b

/-- What was recorded: durations with their `isSuccess`, error code and addon. -/
def recorded (p : Pool (Parts S C) Call) : List (Int × CompassConc.MarkArg) := p.calls.filterMap Call.recorded?

/-- What was recorded by calls that are over. -/
def finished (p : Pool (Parts S C) Call) : List (Int × CompassConc.MarkArg) := (p.calls.filter Call.over).filterMap Call.recorded?

/-- A compass after the schedule `es` of calls. -/
def used (R : Rounding) (T : Stepped S C A I) (s0 : S) (bi : Int) (n : Nat) (maxErr maxAdd now t1 t2 : Int) (es : List (Ev Use (In I))) :
    Pool (Parts S C) Call := (machine R T bi).run (init s0 bi n maxErr maxAdd now t1 t2) es

/-- The clock readings (`GetTime`) a schedule supplies to the reservoir. -/
def resTimes : List (Ev Use (In EDRConc.In)) → List Int
  | [] => []
  | .spawn _ :: es => resTimes es
  | .step _ x :: es => x.res.time :: resTimes es

end Whole
end GoMetrics
