import Verif.Model.MetricName
/-! # MetricNames and the maps they point to (metric_name.go)

`NewMetricName` keeps a reference to the caller's map, or to the package variable `emptyTags`. Here the maps live in a heap and names refer to them by address (a number).
One goroutine. -/
namespace GoMetrics
namespace NameHeap

/-- metric_name.go:33-39: `Tags` is a reference. `hash` is `hashKey` once the `sync.Once` has run. -/
structure Name where
  key : GoStr
  tags : Nat
  hash : Option GoStr := none
  deriving DecidableEq

/-- The maps and the names of a program. -/
structure World where
  maps : List (GoMap GoStr GoStr)
  names : List Name
  deriving DecidableEq

/-- metric_name.go:29-31: the address of `emptyTags` -/
def emptyTags : Nat := 0

/-- metric_name.go:29-31: at program start there is only the map `emptyTags`. -/
def start : World := ⟨[[]], []⟩

/-- What a program does with maps and names. -/
inductive Op where
  /-- `make(map[string]string)`, filled with `t` -/
  | newMap (t : GoMap GoStr GoStr)
  /-- `NewMetricName(key, tags, level)`; `none` is nil. The level plays no part. -/
  | newName (key : GoStr) (tags : Option Nat)
  /-- `m[k] = v` on a map the program has a reference to -/
  | put (m : Nat) (k v : GoStr)
  /-- `name.Tags[k] = v` -/
  | putVia (name : Nat) (k v : GoStr)
  /-- `name.HashKey()`; the range visits the map in the order `order` if this is an order of the map -/
  | hashKey (name : Nat) (order : List (GoStr × GoStr))

/-- `m[k] = v` -/
def World.write (w : World) (m : Nat) (k v : GoStr) : World := { w with maps := w.maps.modify m fun t => t.set k v }

/-- The contents of a map. -/
def World.map (w : World) (m : Nat) : GoMap GoStr GoStr := (w.maps[m]?).getD []

/-- metric_name.go:48-61 `HashKey`: the value, and the name with the value remembered. -/
def hashKey (w : World) (order : List (GoStr × GoStr)) (n : Name) : GoStr × Name :=
  match n.hash with
  | some h => (h, n)
  | none =>
    let h := MetricName.compute n.key (if order.isPerm (w.map n.tags) then order else w.map n.tags)
    (h, { n with hash := some h })

/-- metric_name.go:66-75 `NewMetricName` -/
def newName (key : GoStr) (tags : Option Nat) : Name := ⟨key, tags.getD emptyTags, none⟩

/-- One operation. (A Go program has no reference to a map that does not exist: such a `newName` is ignored.) -/
def step (w : World) : Op → World
  | .newMap t => { w with maps := w.maps ++ [t] }
  | .newName key tags => if (newName key tags).tags < w.maps.length then { w with names := w.names ++ [newName key tags] } else w
  | .put m k v => w.write m k v
  | .putVia i k v => match w.names[i]? with
    | none => w
    | some n => w.write n.tags k v
  | .hashKey i order => { w with names := w.names.modify i fun n => (hashKey w order n).2 }

/-- A history. -/
def run (w : World) (h : List Op) : World := h.foldl step w

end NameHeap
end GoMetrics
