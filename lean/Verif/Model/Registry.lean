import Verif.Model.Config
import Verif.Model.Pool
/-! # Registry (impl/default_registry.go) and manager (impl/default_metric_manager.go)

One model of both, step by step: `callStep` performs one atomic action of a `GetCompass`/`GetFastCompass` call (on a registry, or on the
manager which then goes to the registry of the group) or of `SetEnable`. A sequential call (`lookup`) is a call whose steps nobody
interrupts. `sync.Map` is a map whose `Load` and `LoadOrStore` are atomic. Metrics are identities with the parameters they were created
with; what a metric does is modelled in Model/Compass.lean and Model/FastCompass.lean. -/
namespace GoMetrics
namespace Registry

/-- The two kinds of metric a registry can be asked for. The interfaces `metrics.Compass` and `metrics.FastCompass` have no common
implementation, so an object has exactly one kind. -/
inductive Kind where
  | compass
  | fast
  deriving DecidableEq, Repr

/-- Parameters of `NewCompassWithType` (impl/default_compass.go:213-215) or `newFastCompass` (impl/default_fast_compass.go:165). -/
inductive Params where
  | compass (reservoirType bucketCount interval maxErrorCodeCount maxAddonCount : Int)
  | fast (interval bucketCount maxSubCategoryCount : Int)
  deriving DecidableEq, Repr

/-- A metric object: one of the two shared no-ops (impl/nop_compass.go:92, impl/nop_fast_compass.go:66), or an object of its own with
identity `id`. -/
inductive Metric where
  | nop (k : Kind)
  | real (id : Nat) (p : Params)
  deriving DecidableEq, Repr

/-- Which interface it implements. -/
def Metric.kind : Metric → Kind
  | .nop k => k
  | .real _ (.compass ..) => .compass
  | .real _ (.fast ..) => .fast

/-- Is it a real (not no-op) metric? -/
def Metric.isReal : Metric → Bool
  | .nop _ => false
  | .real .. => true

/-- The identity, if real. -/
def Metric.id? : Metric → Option Nat
  | .nop _ => none
  | .real i _ => some i

/-- A `*MetricName` (metric_name.go:33-39) as the registry sees it: the pointer, the value of `HashKey()` (always the same,
Props/MetricName.lean C39) and the level. -/
structure Name where
  ref : Nat := 0
  hash : GoStr
  level : Int := 2
  deriving DecidableEq, Repr

/-- metric_registry.go `MetricNameToMetricEntry` -/
structure Entry where
  name : Name
  metric : Metric
  deriving DecidableEq, Repr

/-- impl/default_registry.go:30-37 -/
structure Reg where
  metricsMap : GoMap GoStr Entry := []
  metricsCount : Int := 0
  maxMetricCount : Int
  deriving DecidableEq, Repr

/-- impl/default_registry.go:92-100 and 108-110: the creator, `id` being the new object's identity. `MaxCompassAddonCount` is passed twice
(98, 99); the sub-category limit of a fast compass is read at impl/default_fast_compass.go:167. -/
def creator (k : Kind) (level : Int) (id : Nat) : Metric :=
  let mc := MetricConfig.getMetricConfig
  match k with
  | .compass => .real id (.compass mc.getReservoirType mc.getBucketCount (mc.getLevelInterval level)
      mc.getMaxCompassAddonCount mc.getMaxCompassAddonCount)
  | .fast => .real id (.fast (mc.getLevelInterval level) mc.getBucketCount mc.getMaxSubCategoryCount)

/-- The heap: all registries (index = identity; those of index `nextReg` and above do not exist yet), the number of metric objects made
so far, and the fields of one manager (impl/default_metric_manager.go:35-39). -/
structure Mem where
  regs : Nat → Reg
  nextReg : Nat
  fresh : Nat
  enable : Bool
  groups : GoMap GoStr Nat

/-- Which registry a lookup goes to: a given one (a registry the user made with `NewMetricRegistry`), or the manager's for a group. -/
inductive Target where
  | direct (rid : Nat)
  | group (g : GoStr)
  deriving DecidableEq, Repr

/-- A lookup: `GetCompass(name)`/`GetFastCompass(name)` on a registry, or with a group name on the manager. -/
structure Req where
  target : Target
  kind : Kind
  name : Name
  deriving DecidableEq, Repr

/-- A call. -/
inductive Call where
  | lookup (q : Req)
  | setEnable (b : Bool)
  deriving DecidableEq, Repr

/-- Program counter. File D is impl/default_metric_manager.go, file R is impl/default_registry.go. -/
inductive PC where
  /-- D:42, 58: about to read `enable` -/
  | readEnable (q : Req) (g : GoStr)
  /-- D:67 -/
  | loadGroup (q : Req) (g : GoStr)
  /-- D:73 -/
  | storeGroup (q : Req) (g : GoStr)
  /-- R:118 -/
  | load (q : Req) (rid : Nat)
  /-- R:125 -/
  | create (q : Req) (rid : Nat)
  /-- R:128 -/
  | check (q : Req) (rid : Nat) (m : Metric)
  /-- R:133 -/
  | store (q : Req) (rid : Nat) (m : Metric)
  /-- R:139; `m` is the result -/
  | incr (q : Req) (rid : Nat) (m : Metric)
  /-- the type assertion at R:101 or R:111 -/
  | assert (q : Req) (rid : Nat) (m : Metric)
  /-- returned `m`; `rid` is the registry it came from, `none` if the manager was disabled -/
  | done (q : Req) (rid : Option Nat) (m : Metric)
  /-- the type assertion failed -/
  | panicked (q : Req) (rid : Nat)
  /-- D:54 -/
  | setEnable (b : Bool)
  | setDone (b : Bool)
  deriving DecidableEq, Repr

/-- Write to one registry. -/
def Mem.setReg (s : Mem) (rid : Nat) (r : Reg) : Mem := { s with regs := fun j => if j = rid then r else s.regs j }

/-- One atomic step. -/
def callStep (s : Mem) : PC → Mem × PC
  | .readEnable q g => (s, if s.enable then .loadGroup q g else .done q none (.nop q.kind))
  | .loadGroup q g =>
    match s.groups.get? g with
    | some rid => (s, .load q rid)
    | none => (s, .storeGroup q g)
  | .storeGroup q g =>
    -- `NewMetricRegistry(5000)` makes a new object whether or not it ends up in the map
    let s1 := { s.setReg s.nextReg { maxMetricCount := 5000 } with nextReg := s.nextReg + 1 }
    match s.groups.get? g with
    | some rid => (s1, .load q rid)
    | none => ({ s1 with groups := s.groups.set g s.nextReg }, .load q s.nextReg)
  | .load q rid =>
    match (s.regs rid).metricsMap.get? q.name.hash with
    | some e => (s, .assert q rid e.metric)
    | none => (s, .create q rid)
  | .create q rid => ({ s with fresh := s.fresh + 1 }, .check q rid (creator q.kind q.name.level s.fresh))
  | .check q rid m =>
    (s, .store q rid (if (s.regs rid).metricsCount ≥ (s.regs rid).maxMetricCount then .nop q.kind else m))
  | .store q rid m =>
    match (s.regs rid).metricsMap.get? q.name.hash with
    | some e => (s, .assert q rid e.metric)
    | none =>
      (s.setReg rid { s.regs rid with metricsMap := (s.regs rid).metricsMap.set q.name.hash ⟨q.name, m⟩ }, .incr q rid m)
  | .incr q rid m =>
    (s.setReg rid { s.regs rid with metricsCount := i32 ((s.regs rid).metricsCount + 1) }, .assert q rid m)
  | .assert q rid m => (s, if m.kind = q.kind then .done q (some rid) m else .panicked q rid)
  | .setEnable b => ({ s with enable := b }, .setDone b)
  | .done q rid m => (s, .done q rid m)
  | .panicked q rid => (s, .panicked q rid)
  | .setDone b => (s, .setDone b)

/-- A call before its first step. -/
def begin : Call → PC
  | .lookup q =>
    match q.target with
    | .direct rid => .load q rid
    | .group g => .readEnable q g
  | .setEnable b => .setEnable b

/-- Interleaving semantics. -/
def conc : Machine Mem PC Call Unit where
  call := begin
  step := fun s _ c => callStep s c

/-- Several registries with the given limits and a fresh manager (impl/default_registry.go:144-149,
impl/default_metric_manager.go:78-82). -/
def initial (limits : List Int) : Mem where
  regs := fun i => { maxMetricCount := limits[i]?.getD 0 }
  nextReg := limits.length
  fresh := 0
  enable := true
  groups := []

/-- A call that nobody interrupts: at most nine steps. -/
def solo : Nat → Mem × PC → Mem × PC
  | 0, x => x
  | n + 1, (s, c) => solo n (callStep s c)

/-- A sequential call. -/
def exec (s : Mem) (c : Call) : Mem × PC := solo 9 (s, begin c)

/-- A sequential history of calls. -/
def runSeq (s : Mem) (h : List Call) : Mem := h.foldl (fun s c => (exec s c).1) s

/-- impl/default_registry.go:88-142 as it runs without interference: `GetCompass`/`GetFastCompass` on registry `rid`.
`Proofs/RegistrySeq.lean` (`exec_direct`) proves that this is what the steps above amount to. -/
def getOn (s : Mem) (q : Req) (rid : Nat) : Mem × PC :=
  match (s.regs rid).metricsMap.get? q.name.hash with
  | some e => (s, if e.metric.kind = q.kind then .done q (some rid) e.metric else .panicked q rid)
  | none =>
    let m := if (s.regs rid).metricsCount ≥ (s.regs rid).maxMetricCount then .nop q.kind
      else creator q.kind q.name.level s.fresh
    ({ s with fresh := s.fresh + 1 }.setReg rid
      { s.regs rid with
        metricsMap := (s.regs rid).metricsMap.set q.name.hash ⟨q.name, m⟩
        metricsCount := i32 ((s.regs rid).metricsCount + 1) },
      .done q (some rid) m)

/-- impl/default_metric_manager.go:41-47, 57-63, 65-76 without interference. -/
def getManaged (s : Mem) (q : Req) (g : GoStr) : Mem × PC :=
  if s.enable then
    match s.groups.get? g with
    | some rid => getOn s q rid
    | none =>
      getOn { s.setReg s.nextReg { maxMetricCount := 5000 } with
        nextReg := s.nextReg + 1, groups := s.groups.set g s.nextReg } q s.nextReg
  else (s, .done q none (.nop q.kind))

/-- What a finished call returned. -/
def PC.result : PC → Option Metric
  | .done _ _ m => some m
  | _ => none

/-- The lookup this call is for. -/
def PC.req? : PC → Option Req
  | .readEnable q _ | .loadGroup q _ | .storeGroup q _ | .load q _ | .create q _ | .check q _ _ | .store q _ _ | .incr q _ _
  | .assert q _ _ | .done q _ _ | .panicked q _ => some q
  | .setEnable _ | .setDone _ => none

/-- Is the call over? -/
def PC.over : PC → Bool
  | .done .. | .panicked .. | .setDone _ => true
  | _ => false

/-! ## Enumerations -/

/-- `result[k] = v` for the entries in the order `Range` visits them (impl/default_registry.go:53-65). -/
def collect (matchType : Entry → Bool) (entries : GoMap GoStr Entry) : GoMap GoStr Entry :=
  entries.foldl (fun res e => if matchType e.2 then res.set e.1 e.2 else res) []

/-- impl/default_registry.go:39-44; `range` is the order in which `Range` visits the entries -/
def getCompasses (range : GoMap GoStr Entry) : GoMap GoStr Entry := collect (fun e => e.metric.kind == .compass) range
/-- impl/default_registry.go:46-51 -/
def getFastCompasses (range : GoMap GoStr Entry) : GoMap GoStr Entry := collect (fun e => e.metric.kind == .fast) range
/-- impl/default_registry.go:67-74 -/
def getMetrics (range : GoMap GoStr Entry) : GoMap GoStr Entry := range.foldl (fun res e => res.set e.1 e.2) []

/-- impl/default_registry.go:76-86: `first e`, `second e` are what the two calls of `entry.Metric.LastUpdateTime()` return (80, 81). -/
def lastUpdateTime (first second : Metric → Int) (range : GoMap GoStr Entry) : Int :=
  range.foldl (fun result e => if result < first e.2.metric then second e.2.metric else result) 0

end Registry

/-! ## No-op manager -/
namespace NopManager
open Registry
/-- impl/nop_metric_manager.go:28-30, 39-41 (the state of this manager, made by 43-45, is empty, and 36-37 `SetEnable` does nothing) -/
def get (k : Kind) (_group : GoStr) (_name : Name) : Metric := .nop k
/-- impl/nop_metric_manager.go:32-34 -/
def isEnable : Bool := false
end NopManager
end GoMetrics
