import Verif.Model.WholeCompass
/-! # Calls that do not overlap -/
namespace GoMetrics

/-- A schedule in which calls do not overlap: one call after the other is started and then performs all its steps, with the given inputs. `k` calls
have been started before. -/
def Machine.serial {A I : Type} : Nat → List (A × List I) → List (Ev A I)
  | _, [] => []
  | k, (a, xs) :: h => .spawn a :: xs.map (Ev.step k) ++ Machine.serial (k + 1) h

/-! The memory of a compass in small steps, seen as the compass of the sequential model. -/
namespace Whole
variable {S C σ : Type}

/-- `rsv` picks the reservoir out of the reservoir part, `startTime` never changes. -/
def Parts.seen (rsv : S → σ) (startTime : Int) (s : Parts S C) : Compass σ where
  totalCount := s.marks.shared.total
  successCount := s.marks.shared.success
  errorCodes := (s.marks.shared.lab false).counters
  addons := (s.marks.shared.lab true).counters
  m1Rate := (s.avg .m1).shared.e
  m5Rate := (s.avg .m5).shared.e
  m15Rate := (s.avg .m15).shared.e
  startTime := startTime
  lastTick := s.ticks.shared.lastTick
  uncounted := s.ticks.shared.uncounted
  maxErrorCodeCount := (s.marks.shared.lab false).limit
  maxAddonCount := (s.marks.shared.lab true).limit
  bucketInterval := s.marks.shared.interval
  numberOfBucket := s.marks.shared.buckets
  reservoir := rsv s.res.shared

end Whole
end GoMetrics

namespace GoMetrics
namespace Whole
variable {S C I X σ : Type}

/-- Everything the environment tells a sequential call was told to the call in small steps at some step that satisfies `P`; `From` says the same
of the reservoir. -/
structure Told (P : In I → Prop) (From : (I → Prop) → X → Prop) (env : Compass.Env X) : Prop where
  tick : ∃ x, P x ∧ x.tick = env.tick
  tTotal : ∃ x, P x ∧ x.time = env.tTotal
  res : From (fun i => ∃ x, P x ∧ x.res = i) env.x
  tSuccess : ∃ x, P x ∧ x.time = env.tSuccess
  tErrNew : ∃ x, P x ∧ x.time = env.tErrNew
  tErr : ∃ x, P x ∧ x.time = env.tErr
  tAddonNew : ∃ x, P x ∧ x.time = env.tAddonNew
  tAddon : ∃ x, P x ∧ x.time = env.tAddon

/-- The call `UpdateWithError` came to its end without a panic. -/
def Call.returned (s : Parts S C) (c : Call) : Prop := ∃ i m r k, c.pc = .done i m r ∧ s.marks.calls[m]? = some k ∧ k.pc = .done

/-- All random words of the sequential call were drawn in the call. -/
def uniformTold (P : Int → Prop) (words : List Int) : Prop := ∀ w ∈ words, P w

/-- All readings and the draw of the sequential call were supplied to the call. -/
def decayingTold (P : EDRConc.In → Prop) (env : EDR.Env) : Prop :=
  (∃ x, P x ∧ x.tick = env.tick) ∧ (∃ x, P x ∧ x.time = env.scaleTime) ∧ (∃ x, P x ∧ x.time = env.time) ∧ (∃ x, P x ∧ x.u = env.u)

/-- The getter of an average, in the sequential model. -/
def rateOf (R : Rounding) (c : Compass σ) (tick : Int) : Which → F64
  | .m1 => c.getOneMinuteRate R tick
  | .m5 => c.getFiveMinuteRate R tick
  | .m15 => c.getFifteenMinuteRate R tick

/-- The API call of the sequential model. -/
def Use.op : Use → Compass.Op
  | .update d a => .updateWithError d a.isSuccess a.errorCode a.addon
  | _ => .readRate

end Whole
end GoMetrics
