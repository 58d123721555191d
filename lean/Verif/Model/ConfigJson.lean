import Verif.Model.Config
import Mathlib.Data.List.Sort
import Mathlib.Data.Nat.Digits.Defs
/-! # The configuration as a JSON document (config/metric_config.go:54-102, the `json` tags)

The struct `MetricConfig` is written and read with `encoding/json`; its tags say under which keys. Modelled is what `json.Marshal` and `json.Unmarshal` do
with these tags, on documents that are already parsed (`Json` is a tree; duplicate keys are possible). Not modelled: the text of documents, strings that are
not valid UTF-8 (which `Marshal` changes). -/
namespace GoMetrics
namespace ConfigJson

/-- A JSON document. Numbers are either integers written without fraction and exponent (`num`) or others (`real`). -/
inductive Json where
  | null
  | bool (b : Bool)
  | num (n : Int)
  | real
  | str (s : GoStr)
  | arr (l : List Json)
  | obj (l : List (GoStr × Json))

/-- The fields of the struct, in order. -/
inductive Slot where
  | manager | enables | maxSubCategoryCount | globalInterval | levelInterval | maxMetricCountPerRegistry
  | maxCompassErrorCodeCount | maxCompassAddonCount | reservoirType | bucketCount
  deriving DecidableEq

/-- ASCII characters as bytes. -/
def key (l : List Char) : GoStr := l.map fun c => UInt8.ofNat c.toNat

/-- config/metric_config.go:58-101: the names in the `json` tags, field by field. (All ten have `omitempty`.) -/
def tags : List (GoStr × Slot) :=
  [(key ['m','a','n','a','g','e','r'], .manager),
   (key ['e','n','a','b','l','e','s'], .enables),
   (key ['m','a','x','_','s','u','b','c','a','t','e','g','o','r','y','_','c','o','u','n','t'], .maxSubCategoryCount),
   (key ['g','l','o','b','a','l','_','i','n','t','e','r','v','a','l'], .globalInterval),
   (key ['l','e','v','e','l','_','i','n','t','e','r','v','a','l'], .levelInterval),
   (key ['m','a','x','_','m','e','t','r','i','c','_','c','o','u','n','t','_','p','e','r','_','r','e','g','i','s','t','r','y'], .maxMetricCountPerRegistry),
   (key ['m','a','x','_','c','o','m','p','a','s','s','_','e','r','r','o','r','_','c','o','d','e','_','c','o','u','n','t'], .maxCompassErrorCodeCount),
   (key ['m','a','x','_','m','e','t','r','i','c','_','c','o','u','n','t','_','p','e','r','_','r','e','g','i','s','t','r','y'], .maxCompassAddonCount),
   (key ['r','e','s','e','r','v','o','i','r','_','t','y','p','e'], .reservoirType),
   (key ['b','u','c','k','e','t','_','c','o','u','n','t'], .bucketCount)]

/-- `typeFields` of `encoding/json` with `dominantField`: of several fields of one struct whose tags give the same name none is used, neither for writing nor
for reading, and there is no error. -/
def visible : List (GoStr × Slot) := tags.filter fun f => (tags.filter fun g => g.1 = f.1).length = 1

/-- Unicode simple case folding, as far as it can lead to an ASCII character: the capitals, the Kelvin sign U+212A and the long s U+017F. -/
def fold : GoStr → GoStr
  | 0xE2 :: 0x84 :: 0xAA :: t => 107 :: fold t
  | 0xC5 :: 0xBF :: t => 115 :: fold t
  | c :: t => (if 65 ≤ c ∧ c ≤ 90 then c + 32 else c) :: fold t
  | [] => []

/-- `decodeState.object` of `encoding/json`: the field with exactly this name, otherwise the first whose name is the same up to case. -/
def find (k : GoStr) : Option Slot :=
  match visible.find? fun f => f.1 = k with
  | some f => some f.2
  | none => (visible.find? fun f => fold f.1 = fold k).map Prod.snd

/-- Reading into an `int` or `time.Duration` (an `int64` without methods for JSON): an error leaves the value. The second component says whether there was one. -/
def readInt (old : Int) : Json → Int × Bool
  | .num n => if -9223372036854775808 ≤ n ∧ n < 9223372036854775808 then (n, false) else (old, true)
  | .null => (old, false)
  | _ => (old, true)

/-- Reading into a `string`. -/
def readStr (old : GoStr) : Json → GoStr × Bool
  | .str s => (s, false)
  | .null => (old, false)
  | _ => (old, true)

/-- Reading into a `[]string`. Simplified: an element that is `null` or no string becomes the empty string; in Go it keeps what the array of the slice held
at that place, if the slice was not nil. -/
def readStrs (old : List GoStr) : Json → List GoStr × Bool
  | .arr l => (l.map fun j => (readStr [] j).1, l.any fun j => (readStr [] j).2)
  | .null => ([], false)
  | _ => (old, true)

/-- `strconv.ParseUint(s, 10, 64)` without the bound (checked by `parseInt`). -/
def parseDigits (s : GoStr) : Option Nat :=
  if s = [] then none
  else if s.all fun c => 48 ≤ c && c ≤ 57 then some (s.foldl (fun a c => a * 10 + (c.toNat - 48)) 0)
  else none

/-- `strconv.ParseInt(s, 10, 64)` of the Go library; `none` for an error. -/
def parseInt (s : GoStr) : Option Int :=
  (match s with
    | 45 :: t => Option.map (fun n : Nat => - (n : Int)) (parseDigits t)
    | 43 :: t => Option.map (fun n : Nat => (n : Int)) (parseDigits t)
    | t => Option.map (fun n : Nat => (n : Int)) (parseDigits t)).filter fun n => -9223372036854775808 ≤ n ∧ n < 9223372036854775808

/-- `strconv.FormatInt(n, 10)`. -/
def formatInt (n : Int) : GoStr :=
  let digits (m : Nat) : GoStr := if m = 0 then [48] else (Nat.digits 10 m).reverse.map fun d => UInt8.ofNat (48 + d)
  if n < 0 then 45 :: digits n.natAbs else digits n.natAbs

/-- Reading into a `map[int]time.Duration`: entries are added to the map; a key that is no number is an error and skipped, a value that is none is an error and
stored as 0 (`null` without an error). -/
def readMap (old : Option (GoMap Int Int)) : Json → Option (GoMap Int Int) × Bool
  | .obj l => l.foldl (fun (r : Option (GoMap Int Int) × Bool) e => match parseInt e.1 with
      | some k => (some (GoMap.set (r.1.getD []) k (readInt 0 e.2).1), r.2 || (readInt 0 e.2).2)
      | none => (r.1, true)) (some (old.getD []), false)
  | .null => (none, false)
  | _ => (old, true)

/-- Reading a value into one field. -/
def readSlot (c : MetricConfig) (v : Json) : Slot → MetricConfig × Bool
  | .manager => ({ c with manager := (readStr c.manager v).1 }, (readStr c.manager v).2)
  | .enables => ({ c with enables := (readStrs c.enables v).1 }, (readStrs c.enables v).2)
  | .maxSubCategoryCount => ({ c with maxSubCategoryCount := (readInt c.maxSubCategoryCount v).1 }, (readInt c.maxSubCategoryCount v).2)
  | .globalInterval => ({ c with globalInterval := (readInt c.globalInterval v).1 }, (readInt c.globalInterval v).2)
  | .levelInterval => ({ c with levelInterval := (readMap c.levelInterval v).1 }, (readMap c.levelInterval v).2)
  | .maxMetricCountPerRegistry =>
    ({ c with maxMetricCountPerRegistry := (readInt c.maxMetricCountPerRegistry v).1 }, (readInt c.maxMetricCountPerRegistry v).2)
  | .maxCompassErrorCodeCount =>
    ({ c with maxCompassErrorCodeCount := (readInt c.maxCompassErrorCodeCount v).1 }, (readInt c.maxCompassErrorCodeCount v).2)
  | .maxCompassAddonCount => ({ c with maxCompassAddonCount := (readInt c.maxCompassAddonCount v).1 }, (readInt c.maxCompassAddonCount v).2)
  | .reservoirType => ({ c with reservoirType := (readInt c.reservoirType v).1 }, (readInt c.reservoirType v).2)
  | .bucketCount => ({ c with bucketCount := (readInt c.bucketCount v).1 }, (readInt c.bucketCount v).2)

/-- One key of the document: keys that belong to no field are ignored; errors are remembered and reading goes on. -/
def readKey (r : MetricConfig × Bool) (e : GoStr × Json) : MetricConfig × Bool :=
  match find e.1 with
  | none => r
  | some s => ((readSlot r.1 e.2 s).1, r.2 || (readSlot r.1 e.2 s).2)

/-- `json.Unmarshal(doc, &c)`: the configuration afterwards and whether an error is returned. -/
def unmarshal (c : MetricConfig) : Json → MetricConfig × Bool
  | .obj l => l.foldl readKey (c, false)
  | .null => (c, false)
  | _ => (c, true)

/-- The value written for a field, `none` if it is empty (`omitempty`). Keys of maps are sorted. -/
def writeSlot (c : MetricConfig) : Slot → Option Json
  | .manager => if c.manager = [] then none else some (.str c.manager)
  | .enables => if c.enables = [] then none else some (.arr (c.enables.map .str))
  | .maxSubCategoryCount => if c.maxSubCategoryCount = 0 then none else some (.num c.maxSubCategoryCount)
  | .globalInterval => if c.globalInterval = 0 then none else some (.num c.globalInterval)
  | .levelInterval =>
    if (c.levelInterval.getD []).length = 0 then none
    else some (.obj (((c.levelInterval.getD []).map fun e => (formatInt e.1, Json.num e.2)).insertionSort fun a b => a.1 ≤ b.1))
  | .maxMetricCountPerRegistry => if c.maxMetricCountPerRegistry = 0 then none else some (.num c.maxMetricCountPerRegistry)
  | .maxCompassErrorCodeCount => if c.maxCompassErrorCodeCount = 0 then none else some (.num c.maxCompassErrorCodeCount)
  | .maxCompassAddonCount => if c.maxCompassAddonCount = 0 then none else some (.num c.maxCompassAddonCount)
  | .reservoirType => if c.reservoirType = 0 then none else some (.num c.reservoirType)
  | .bucketCount => if c.bucketCount = 0 then none else some (.num c.bucketCount)

/-- `json.Marshal(c)`. -/
def marshal (c : MetricConfig) : Json := .obj (visible.filterMap fun f => (writeSlot c f.2).map fun v => (f.1, v))

end ConfigJson
end GoMetrics
