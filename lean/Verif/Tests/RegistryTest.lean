import Verif.Model.Registry
import Verif.Model.MetricName
/-! # The tests of names, registries and the manager, replayed on the model

metric_name_test.go, impl/default_registry_test.go, impl/default_metric_manager_test.go. These are tests, not proofs of properties. -/
namespace GoMetrics.GoTests
open Registry

/-- The bytes of an ASCII string. -/
def bytes (s : String) : GoStr := s.toList.map fun c => c.toNat.toUInt8

/-- metric_name_test.go `TestMetricName_HashKey` -/
example : MetricName.compute (bytes "Test") (MetricName.newTags none) = bytes "Test" ∧
    MetricName.compute (bytes "Test") (MetricName.newTags (some [(bytes "A", bytes "B")])) = bytes "Test-A:B" := by decide +kernel

/-- The same through the steps of `HashKey`. -/
example : ((MetricName.conc.run (Machine.start { key := bytes "Test", tags := [(bytes "A", bytes "B")] })
    (.spawn .hashKey :: List.replicate 12 (.step 0 []))).calls) = [.returned (bytes "Test-A:B")] := by decide +kernel

/-- `GetFastCompass`/`GetCompass` on registry 0 -/
def get (k : Kind) (s : String) : Registry.Call := .lookup ⟨.direct 0, k, { hash := bytes s, level := 1 }⟩

/-- What a sequence of calls returns, one after the other. -/
def results : Mem → List Registry.Call → List (Option Metric)
  | _, [] => []
  | s, c :: cs => (exec s c).2.result :: results (exec s c).1 cs

/-- impl/default_registry_test.go `TestMetricRegistryImpl_GetFastCompass`: the same object twice, then another, then over the limit the no-op -/
example : let m := creator .fast 1
    results (initial [2]) [get .fast "Test", get .fast "Test", get .fast "Test1", get .fast "Test2"] =
      [some (m 0), some (m 0), some (m 1), some (.nop .fast)] ∧
    getMetrics ((runSeq (initial [2]) [get .fast "Test", get .fast "Test"]).regs 0).metricsMap = [(bytes "Test", ⟨{ hash := bytes "Test", level := 1 }, m 0⟩)] ∧
    getMetrics ((initial [2]).regs 0).metricsMap = [] ∧ lastUpdateTime (fun _ => 7) (fun _ => 7) ((initial [2]).regs 0).metricsMap = 0 := by decide +kernel

/-- impl/default_registry_test.go `TestMetricRegistryImpl_GetCompass` -/
example : results (initial [2]) [get .compass "Test1"] = [some (creator .compass 1 0)] := by decide +kernel

/-- impl/default_registry_test.go `TestDefaultMetricRegistry_GetCompasses` -/
example : let r := ((runSeq (initial [2]) [get .compass "Test1", get .fast "Test2"]).regs 0).metricsMap
    (getCompasses r).map (fun e => (e.1, e.2.metric)) = [(bytes "Test1", creator .compass 1 0)] ∧
    (getFastCompasses r).map (fun e => (e.1, e.2.metric)) = [(bytes "Test2", creator .fast 1 1)] := by decide +kernel

/-- impl/default_metric_manager_test.go `TestDefaultMetricManager_GetFastCompass` -/
example : let g : Registry.Call := .lookup ⟨.group (bytes "TestGroup"), .fast, { hash := bytes "Test", level := 1 }⟩
    (initial []).enable = true ∧ (runSeq (initial []) [.setEnable false]).enable = false ∧
    results (initial []) [.setEnable false, g, .setEnable true, g, g] =
      [none, some (.nop .fast), none, some (creator .fast 1 0), some (creator .fast 1 0)] := by decide +kernel

end GoMetrics.GoTests
