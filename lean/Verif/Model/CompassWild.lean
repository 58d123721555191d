import Verif.Model.CompassUpdateConc
import Verif.Model.CompassConc
import Verif.Model.BucketCounterWild
/-! # A compass whose unsynchronised loads may return anything they could ever return

impl/default_compass.go:148-211, as in Model/CompassUpdateConc.lean and Model/CompassConc.lean, but nothing is assumed of what a load that is not synchronised returns:
in the bucket counters as in Model/BucketCounterWild.lean, and `lastTick` (line 191) may appear to hold any number. The label maps are only touched under their
mutexes, `uncounted` only atomically. -/
namespace GoMetrics
namespace CompassConc
open BucketCounter (Seen Call)

/-- One atomic step of `UpdateWithError` (impl/default_compass.go:148-184), where a step of `Update()` of a bucket counter is `step`, and `clock` is
the clock reading of an input. -/
def markStepBy {X : Type} (step : BucketCounter → X → Call → BucketCounter × Call) (clock : X → Int) (s : Marks) (x : X) (m : Mark) : Marks × Mark :=
  match m.pc with
  | .total c =>
    let r := step s.total x c
    ({ s with total := r.1 }, { m with pc := follow r.2 .total (atSuccess m.arg) })
  | .success c =>
    let r := step s.success x c
    ({ s with success := r.1 }, { m with pc := follow r.2 .success (atError m.arg) })
  | .lock w =>
    if (s.lab w).held then (s, m) else (s.setLab w { s.lab w with held := true }, { m with pc := .find w })
  | .find w =>
    match (s.lab w).counters.get? (m.arg.label w) with
    | some _ => (s, { m with pc := .unlock w true })
    | none =>
      if ((s.lab w).counters.length : Int) < (s.lab w).limit then (s, { m with pc := .make w })
      else (s, { m with pc := .unlock w false })
  | .make w => (s, { m with pc := .insert w (BucketCounter.new s.interval s.buckets (clock x) true) })
  | .insert w b =>
    (s.setLab w { s.lab w with counters := (s.lab w).counters.set (m.arg.label w) b }, { m with pc := .unlock w true })
  | .unlock w found =>
    (s.setLab w { s.lab w with held := false }, { m with pc := if found then .hit w ⟨1, .start⟩ else .panicked w })
  | .hit w c =>
    match (s.lab w).counters.get? (m.arg.label w) with
    | none => (s, { m with pc := .crashed })
    | some b =>
      let r := step b x c
      (s.setLab w { s.lab w with counters := (s.lab w).counters.set (m.arg.label w) r.1 },
        { m with pc := follow r.2 (.hit w) (afterHit m.arg w) })
  | .done => (s, m)
  | .panicked _ => (s, m)
  | .crashed => (s, m)

/-- `UpdateWithError` (impl/default_compass.go:148-184) when the plain loads of the bucket counters may return anything. -/
def wildMarking : Machine Marks Mark MarkArg Seen where
  call a := ⟨a, .total ⟨1, .start⟩⟩
  step := markStepBy BucketCounter.wildStep Seen.clock

/-- What the environment supplies to a step of `tickIfNecessary`: the reading of `GetTick()`, and what `lastTick` appears to be to a plain load. -/
structure TickSeen where
  clock : Int
  last : Int
  deriving DecidableEq, Repr

/-- One step of `tickIfNecessary` and of the increment of `uncounted` (impl/default_compass.go:190-211, 181); line 191 loads anything. -/
def wildTickStep (I : Int) (s : Shared) (e : TickSeen) : PC → Shared × PC
  | .readOld upd => (s, .readClock upd e.last)
  | c => callStep I s e.clock c

/-- Any number of concurrent calls of `tickIfNecessary` (impl/default_compass.go:180-181, 190-211) with such loads. -/
def wildConc (I : Int) : Machine Shared PC Bool TickSeen where
  call := .readOld
  step := wildTickStep I

end CompassConc
end GoMetrics
