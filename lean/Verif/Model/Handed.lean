import Verif.Model.Registry
import Verif.Model.Compass
/-! # What callers hold: results that refer to the inside of an object

`GetMetrics`, `GetCompasses` and `GetFastCompasses` return new maps whose values are the registry's own entries (pointers). `GetErrorCodeCounts` and
`GetAddonCounts` return new maps with the compass's own counters, `GetBucketSuccessCount` returns such a counter. `GetEnableMetrics` returns a slice that is
the package variable `allMetrics`, the slice of the configuration itself, or a new empty one. Here callers write through what they were given.
One goroutine. -/
namespace GoMetrics
namespace Handed

/-! ## Entries of a registry -/
open Registry

/-- Memory: all `MetricNameToMetricEntry` objects (metric_registry.go; a pointer is a position), the fields of one registry (impl/default_registry.go:30-37),
the number of metrics made, and the maps callers were given. -/
structure World where
  entries : List Entry
  metricsMap : GoMap GoStr Nat := []
  metricsCount : Int := 0
  maxMetricCount : Int
  fresh : Nat := 0
  results : List (GoMap GoStr Nat) := []

/-- impl/default_registry.go:144-149 `NewMetricRegistry` -/
def newRegistry (maxMetricCount : Int) : World := { entries := [], maxMetricCount := maxMetricCount }

/-- The entry a pointer refers to. Pointers are valid (Proofs in Props/Handed.lean); the default is never used. -/
def World.entry (w : World) (p : Nat) : Entry := (w.entries[p]?).getD ⟨⟨0, [], 0⟩, .nop .compass⟩

/-- impl/default_registry.go:114-142 `getMetric` with the assertion of 101 or 111: the metric, `none` if the assertion panics. -/
def lookup (w : World) (k : Kind) (name : Name) : World × Option Metric :=
  match w.metricsMap.get? name.hash with
  | some p => (w, if (w.entry p).metric.kind = k then some (w.entry p).metric else none)
  | none =>
    let m := if w.metricsCount ≥ w.maxMetricCount then .nop k else creator k name.level w.fresh
    ({ w with
      entries := w.entries ++ [⟨name, m⟩]
      metricsMap := w.metricsMap.set name.hash w.entries.length
      metricsCount := i32 (w.metricsCount + 1)
      fresh := w.fresh + 1 }, some m)

/-- impl/default_registry.go:39-74: a new map with the entries (pointers) that satisfy `matchType`, visited in the order of the list. -/
def enumerate (w : World) (matchType : Entry → Bool) : World :=
  { w with results := w.results ++
      [w.metricsMap.foldl (fun res e => if matchType (w.entry e.2) then GoMap.set res e.1 e.2 else res) ([] : GoMap GoStr Nat)] }

/-- What a program does. -/
inductive Act where
  /-- `GetCompass(name)`, `GetFastCompass(name)` -/
  | lookup (k : Kind) (name : Name)
  /-- `GetMetrics()` (`none`), `GetCompasses()`, `GetFastCompasses()` -/
  | enumerate (k : Option Kind)
  /-- `result[key] = &MetricNameToMetricEntry{name, metric}` -/
  | put (result : Nat) (key : GoStr) (name : Name) (metric : Metric)
  /-- `delete(result, key)` -/
  | remove (result : Nat) (key : GoStr)
  /-- `result[key].Metric = metric` -/
  | assign (result : Nat) (key : GoStr) (metric : Metric)

/-- The filters of impl/default_registry.go:40-43, 47-50; `GetMetrics` has none. -/
def filterOf : Option Kind → Entry → Bool
  | none, _ => true
  | some k, e => e.metric.kind == k

/-- `result[key]` -/
def World.at (w : World) (result : Nat) (key : GoStr) : Option Nat := (w.results[result]?).bind fun m => m.get? key

/-- One action. Writing to a map that does not exist, or through a key that is not there (in Go: a nil pointer), changes nothing. -/
def act (w : World) : Act → World
  | .lookup k name => (lookup w k name).1
  | .enumerate k => enumerate w (filterOf k)
  | .put r key name m =>
    { w with entries := w.entries ++ [⟨name, m⟩], results := w.results.modify r fun res => GoMap.set res key w.entries.length }
  | .remove r key => { w with results := w.results.modify r fun res => res.filter fun e => e.1 ≠ key }
  | .assign r key m =>
    match w.at r key with
    | none => w
    | some p => { w with entries := w.entries.modify p fun e => { e with metric := m } }

/-- A history. -/
def run (w : World) (h : List Act) : World := h.foldl act w

/-! ## Counters of a compass -/

/-- A call on the compass, or an update of a counter obtained from it at clock reading `t`: from `GetBucketSuccessCount()`, `GetErrorCodeCounts()[code]`,
`GetAddonCounts()[addon]`. (All updating methods of a counter are `UpdateN`, impl/default_bucket_counter.go:82-100.) -/
inductive Use (X : Type) where
  | call (env : Compass.Env X) (op : Compass.Op)
  | success (t n : Int)
  | errorCode (code : String) (t n : Int)
  | addon (addon : String) (t n : Int)

/-- `UpdateN(n)` on the counter under `key`, if there is one (otherwise nobody can hold it). -/
def bumpAt (m : GoMap String BucketCounter) (key : String) (t n : Int) : GoMap String BucketCounter :=
  match m.get? key with
  | none => m
  | some b => m.set key (b.updateN t n).state

/-- impl/default_compass.go:108-126 hands out the counters themselves, so an update of one is an update of the compass's counter. -/
def use {σ X : Type} (R : Rounding) (S : ReservoirImpl σ X) (c : Compass σ) : Use X → Compass σ
  | .call env op => (Compass.step R S c env op).state
  | .success t n => { c with successCount := (c.successCount.updateN t n).state }
  | .errorCode code t n => { c with errorCodes := bumpAt c.errorCodes code t n }
  | .addon a t n => { c with addons := bumpAt c.addons a t n }

/-- A history. -/
def uses {σ X : Type} (R : Rounding) (S : ReservoirImpl σ X) (c : Compass σ) (g : List (Use X)) : Compass σ := g.foldl (use R S) c

/-! ## The slice of `GetEnableMetrics` -/

/-- Memory: arrays of strings, and the slices callers were given (positions of arrays; all slices cover their array). Array 0 is `allMetrics`
(config/metric_config.go:39-42). -/
structure Slices where
  arrays : List (List GoStr)
  held : List Nat := []

/-- config/metric_config.go:39-42: at program start -/
def startSlices : Slices := { arrays := [MetricConfig.allMetrics] }

/-- Content of an array. -/
def Slices.read (s : Slices) (a : Nat) : List GoStr := (s.arrays[a]?).getD []

/-- config/metric_config.go:118-129 `GetEnableMetrics` of a configuration whose `Enables` is the array `enables`: the array it returns. A new empty slice
(120) is modelled as a new array. -/
def getEnableMetrics (s : Slices) (enables : Nat) : Slices × Nat :=
  if (s.read enables).length = 0 then ({ s with arrays := s.arrays ++ [[]] }, s.arrays.length)
  else if (s.read enables).any MetricConfig.equalFoldAll then (s, 0)
  else (s, enables)

/-- What a program does. -/
inductive SliceAct where
  /-- `make` and fill: a new slice, held by the caller -/
  | make (content : List GoStr)
  /-- `GetEnableMetrics()` of a configuration with `Enables` the slice `held[i]` -/
  | getEnableMetrics (i : Nat)
  /-- `held[i][j] = v` -/
  | write (i j : Nat) (v : GoStr)

/-- One action; what is not there cannot be used. -/
def sliceAct (s : Slices) : SliceAct → Slices
  | .make content => { arrays := s.arrays ++ [content], held := s.held ++ [s.arrays.length] }
  | .getEnableMetrics i =>
    match s.held[i]? with
    | none => s
    | some a => { (getEnableMetrics s a).1 with held := s.held ++ [(getEnableMetrics s a).2] }
  | .write i j v =>
    match s.held[i]? with
    | none => s
    | some a => { s with arrays := s.arrays.modify a fun l => l.set j v }

/-- A history. -/
def runSlices (h : List SliceAct) : Slices := h.foldl sliceAct startSlices

end Handed
end GoMetrics
