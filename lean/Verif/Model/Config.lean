import Verif.Model.GoBasics
/-! # Configuration (config/metric_config.go), intervals (interval.go), levels (metric_level.go) -/
namespace GoMetrics

/-- A Go string: a sequence of bytes (Go spec, "String types"). -/
abbrev GoStr := List UInt8

/-- `time.Second`, in nanoseconds. -/
def goSecond : Int := 1000000000

/-- interval.go:34-40: the five constants, each with the number of seconds its name says and its value in nanoseconds. -/
def intervalConstants : List (Int × Int) :=
  [(1, 1 * goSecond), (5, 5 * goSecond), (10, 5 * goSecond), (30, 5 * goSecond), (60, 5 * goSecond)]

/-- reservoir.go:30-36 `ReservoirType` is an `int`; these are its three named values. -/
def bucketReservoirType : Int := 0
def uniformReservoirType : Int := 1
def exponentiallyDecayingReservoirType : Int := 2

/-- config/metric_config.go:54-102. Durations are nanoseconds; `none` for a nil map. -/
structure MetricConfig where
  manager : GoStr := []
  enables : List GoStr := []
  maxSubCategoryCount : Int := 0
  globalInterval : Int := 0
  levelInterval : Option (GoMap Int Int) := none
  maxMetricCountPerRegistry : Int := 0
  maxCompassErrorCodeCount : Int := 0
  maxCompassAddonCount : Int := 0
  reservoirType : Int := 0
  bucketCount : Int := 0

namespace MetricConfig

/-- config/metric_config.go:45-51 `defaultLevelInterval` (a package variable that is never nil nor written); the levels are those
of metric_level.go:25-35. -/
def defaultLevelInterval : GoMap Int Int :=
  [(0, 1 * goSecond), (1, 1 * goSecond), (2, 1 * goSecond), (3, 60 * goSecond), (4, 60 * goSecond)]

/-- config/metric_config.go:104-109 (default of line 34). -/
def getBucketCount (mc : MetricConfig) : Int := if mc.bucketCount ≤ 0 then 10 else mc.bucketCount

/-- config/metric_config.go:111-116 (default of line 33). -/
def getReservoirType (mc : MetricConfig) : Int :=
  if mc.reservoirType < 0 then exponentiallyDecayingReservoirType else mc.reservoirType

/-- `strings.EqualFold("all", v)` of the Go library, as used at config/metric_config.go:124. The letters `a` and `l` have no case
variants but their ASCII capitals. -/
def equalFoldAll (v : GoStr) : Bool :=
  v.map (fun c => if 65 ≤ c ∧ c ≤ 90 then c + 32 else c) == [97, 108, 108]

/-- "compass" and "fastCompass", config/metric_config.go:39-42 -/
def allMetrics : List GoStr :=
  [[99, 111, 109, 112, 97, 115, 115], [102, 97, 115, 116, 67, 111, 109, 112, 97, 115, 115]]

/-- config/metric_config.go:118-129 -/
def getEnableMetrics (mc : MetricConfig) : List GoStr :=
  if mc.enables.length = 0 then [] else if mc.enables.any equalFoldAll then allMetrics else mc.enables

/-- config/metric_config.go:131-136 (default of line 31) -/
def getMaxCompassAddonCount (mc : MetricConfig) : Int :=
  if mc.maxCompassAddonCount ≤ 0 then 20 else mc.maxCompassAddonCount

/-- config/metric_config.go:138-143 (default of line 30) -/
def getMaxCompassErrorCodeCount (mc : MetricConfig) : Int :=
  if mc.maxCompassErrorCodeCount ≤ 0 then 100 else mc.maxCompassErrorCodeCount

/-- config/metric_config.go:145-150 (default of line 29) -/
def getMaxMetricCountPerRegistry (mc : MetricConfig) : Int :=
  if mc.maxMetricCountPerRegistry ≤ 0 then 5000 else mc.maxMetricCountPerRegistry

/-- config/metric_config.go:172-177 (default of line 28) -/
def getGlobalInterval (mc : MetricConfig) : Int :=
  if mc.globalInterval ≤ goSecond then 60 * goSecond else mc.globalInterval

/-- config/metric_config.go:153-170. `defaultLevelInterval` is not nil, so the test of line 154 fails and line 160 is taken. -/
def getLevelInterval (mc : MetricConfig) (metricLevel : Int) : Int :=
  match defaultLevelInterval.get? metricLevel with
  | some result => if result ≥ goSecond then result else mc.getGlobalInterval
  | none => mc.getGlobalInterval

/-- config/metric_config.go:179-184: `"default"` if empty -/
def getMetricManagerName (mc : MetricConfig) : GoStr :=
  if mc.manager.length = 0 then [100, 101, 102, 97, 117, 108, 116] else mc.manager

/-- config/metric_config.go:186-191 (default of line 27) -/
def getMaxSubCategoryCount (mc : MetricConfig) : Int :=
  if mc.maxSubCategoryCount ≤ 0 then 20 else mc.maxSubCategoryCount

/-- config/metric_config.go:198-200 `GetMetricConfig` -/
def getMetricConfig : MetricConfig := {}

end MetricConfig
end GoMetrics
