import Verif.Model.Compass
import Verif.Model.BucketCounterConc
/-! # Concurrent `DefaultCompass.UpdateWithError` (impl/default_compass.go:148-184) in small steps

Modelled: the total, the success counter, and the two label maps (error codes and addons) with their mutexes. Not here: `tickIfNecessary`
and `uncounted` (Model/CompassConc.lean) and the reservoir (Model/EDRConc.lean, Model/UniformConc.lean), which touch none of this memory.
Simplification: plain loads and stores are sequentially consistent. -/
namespace GoMetrics
namespace CompassConc

/-- One of the two label maps of a compass (impl/default_compass.go:38-48 and 65-68), with its limit and whether its mutex is held. -/
structure Labels where
  limit : Int
  held : Bool
  counters : GoMap String BucketCounter

/-- The part of `DefaultCompass` that is modelled here; `lab false` is `errorCodes`, `lab true` is `addons`. -/
structure Marks where
  total : BucketCounter
  success : BucketCounter
  lab : Bool → Labels
  interval : Int
  buckets : Nat

/-- The arguments of `UpdateWithError` that matter here. -/
structure MarkArg where
  isSuccess : Bool
  errorCode : String
  addon : String
  deriving DecidableEq

/-- The label given for map `w`. -/
def MarkArg.label (a : MarkArg) : Bool → String
  | false => a.errorCode
  | true => a.addon

/-- Where an `UpdateWithError` is. -/
inductive MarkPC where
  /-- line 182, called from 149: inside `totalCount.Update()` -/
  | total (c : BucketCounter.Call)
  /-- line 151: inside `successCount.Update()` -/
  | success (c : BucketCounter.Call)
  /-- lines 156 / 163: about to take the mutex -/
  | lock (w : Bool)
  /-- lines 171-172: about to look the label up and compare the number of labels with the limit -/
  | find (w : Bool)
  /-- line 173: about to make a bucket counter, which reads the clock -/
  | make (w : Bool)
  /-- line 174: about to insert the new counter -/
  | insert (w : Bool) (b : BucketCounter)
  /-- lines 158 / 165: about to release the mutex; `found` is whether a counter (not nil) was returned -/
  | unlock (w : Bool) (found : Bool)
  /-- lines 159 / 166: inside `Update()` of the label's counter -/
  | hit (w : Bool) (c : BucketCounter.Call)
  | done
  /-- `Update()` was called on a nil counter, after the mutex was released -/
  | panicked (w : Bool)
  /-- division by zero inside some `Update()` -/
  | crashed
  deriving DecidableEq

/-- A call of `UpdateWithError`. -/
structure Mark where
  arg : MarkArg
  pc : MarkPC
  deriving DecidableEq

/-- Where a call continues at line 162 (`len(addon) > 0`). -/
def atAddon (a : MarkArg) : MarkPC := if 0 < a.addon.length then .lock true else .done
/-- Where a call continues at line 154 (`len(errorCode) > 0`). -/
def atError (a : MarkArg) : MarkPC := if 0 < a.errorCode.length then .lock false else atAddon a
/-- Where a call continues at line 150 (`isSuccess`). -/
def atSuccess (a : MarkArg) : MarkPC := if a.isSuccess then .success ⟨1, .start⟩ else atError a
/-- Where a call continues after the counter of map `w` was updated (line 160 or 167). -/
def afterHit (a : MarkArg) : Bool → MarkPC
  | false => atAddon a
  | true => .done

/-- What follows a step of `Update()`: `go` if it is still running, `next` if it returned. -/
def follow (c : BucketCounter.Call) (go : BucketCounter.Call → MarkPC) (next : MarkPC) : MarkPC :=
  match c.pc with
  | .done _ _ => next
  | .panicked => .crashed
  | _ => go c

/-- Replace map `w`. -/
def Marks.setLab (s : Marks) (w : Bool) (l : Labels) : Marks := { s with lab := Function.update s.lab w l }

/-- One atomic step of `UpdateWithError`; `t` is the clock reading, if the step reads the clock. The counter that `findOrNewCounter`
returned is the one in the map: entries are never replaced. Blocked on a held mutex, a call does nothing. -/
def markStep (s : Marks) (t : Int) (m : Mark) : Marks × Mark :=
  match m.pc with
  | .total c =>
    let r := BucketCounter.callStep s.total t c
    ({ s with total := r.1 }, { m with pc := follow r.2 .total (atSuccess m.arg) })
  | .success c =>
    let r := BucketCounter.callStep s.success t c
    ({ s with success := r.1 }, { m with pc := follow r.2 .success (atError m.arg) })
  | .lock w =>
    if (s.lab w).held then (s, m) else (s.setLab w { s.lab w with held := true }, { m with pc := .find w })
  | .find w =>
    match (s.lab w).counters.get? (m.arg.label w) with
    | some _ => (s, { m with pc := .unlock w true })
    | none =>
      if ((s.lab w).counters.length : Int) < (s.lab w).limit then (s, { m with pc := .make w })
      else (s, { m with pc := .unlock w false })
  | .make w => (s, { m with pc := .insert w (BucketCounter.new s.interval s.buckets t true) })
  | .insert w b =>
    (s.setLab w { s.lab w with counters := (s.lab w).counters.set (m.arg.label w) b }, { m with pc := .unlock w true })
  | .unlock w found =>
    (s.setLab w { s.lab w with held := false }, { m with pc := if found then .hit w ⟨1, .start⟩ else .panicked w })
  | .hit w c =>
    match (s.lab w).counters.get? (m.arg.label w) with
    | none => (s, { m with pc := .crashed })
    | some b =>
      let r := BucketCounter.callStep b t c
      (s.setLab w { s.lab w with counters := (s.lab w).counters.set (m.arg.label w) r.1 },
        { m with pc := follow r.2 (.hit w) (afterHit m.arg w) })
  | .done => (s, m)
  | .panicked _ => (s, m)
  | .crashed => (s, m)

/-- The interleaving semantics of `UpdateWithError`. -/
def marking : Machine Marks Mark MarkArg Int where
  call a := ⟨a, .total ⟨1, .start⟩⟩
  step := markStep

/-- impl/default_compass.go:213-266: the modelled part of a new compass; `tTotal`, `tSuccess` are clock readings. -/
def Marks.new (interval : Int) (n : Nat) (maxErr maxAdd tTotal tSuccess : Int) : Marks where
  total := BucketCounter.new interval n tTotal true
  success := BucketCounter.new interval n tSuccess true
  lab w := ⟨if w then maxAdd else maxErr, false, []⟩
  interval := interval
  buckets := n

end CompassConc
end GoMetrics
