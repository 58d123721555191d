import Verif.Model.Config
import Verif.Model.Pool
/-! # MetricName (metric_name.go)

`HashKey` runs its closure through `sync.Once`; `Once.Do` of the Go library is modelled by its own steps (fast-path load of `done`, lock,
second check, closure, store of `done`, unlock). Maps are association lists with different keys. -/
namespace GoMetrics
namespace MetricName

/-- metric_name.go:24-27: `-` and `:` -/
def keyTagsSeparator : GoStr := [45]
def keyValueSeparator : GoStr := [58]

/-- metric_name.go:57: what one iteration of the loop appends -/
def tagPiece (t : GoStr × GoStr) : GoStr := t.1 ++ keyValueSeparator ++ t.2

/-- metric_name.go:50-58: the string the closure computes when the loop visits the tags in the order `order` (and nobody interferes). -/
def compute (key : GoStr) (order : List (GoStr × GoStr)) : GoStr :=
  if order.length ≤ 0 then key else key ++ keyTagsSeparator ++ (order.map tagPiece).flatten

/-- metric_name.go:66-75 `NewMetricName`: `none` is a nil map. The level is kept, see the registry model. -/
def newTags : Option (GoMap GoStr GoStr) → GoMap GoStr GoStr
  | none => []
  | some t => t

/-- metric_name.go:33-39, and the two fields of the `sync.Once`. -/
structure Shared where
  key : GoStr
  tags : GoMap GoStr GoStr
  hashKey : GoStr := []
  done : Bool := false
  locked : Bool := false
  deriving DecidableEq

/-- A call of `HashKey`, or an assignment to one of the exported fields by a user. -/
inductive Call where
  | hashKey
  | setKey (k : GoStr)
  | setTags (t : GoMap GoStr GoStr)

/-- Program counter. -/
inductive PC where
  /-- `Once.Do`: fast path -/
  | fast
  /-- `Once.doSlow`: about to lock -/
  | lock
  /-- has the lock, about to check `done` again -/
  | recheck
  /-- line 50 -/
  | writeKey
  /-- line 51 -/
  | lenCheck
  /-- line 55 -/
  | writeSep
  /-- line 56: about to start ranging over the tags -/
  | range
  /-- line 57: pieces still to append -/
  | loop (rest : List (GoStr × GoStr))
  /-- deferred: store `done` -/
  | setDone
  /-- deferred: unlock -/
  | unlock
  /-- line 60: read and return -/
  | ret
  | returned (h : GoStr)
  | setKey (k : GoStr)
  | setTags (t : GoMap GoStr GoStr)
  | finished
  deriving DecidableEq

/-- One atomic step. The input is the order in which a `range` starting in this step visits the map (any permutation of it; anything else is
replaced by the list order). -/
def callStep (s : Shared) (order : List (GoStr × GoStr)) : PC → Shared × PC
  | .fast => (s, if s.done then .ret else .lock)
  | .lock => if s.locked then (s, .lock) else ({ s with locked := true }, .recheck)
  | .recheck => (s, if s.done then .unlock else .writeKey)
  | .writeKey => ({ s with hashKey := s.key }, .lenCheck)
  | .lenCheck => (s, if s.tags.length ≤ 0 then .setDone else .writeSep)
  | .writeSep => ({ s with hashKey := s.hashKey ++ keyTagsSeparator }, .range)
  | .range => (s, .loop (if order.isPerm s.tags then order else s.tags))
  | .loop [] => (s, .setDone)
  | .loop (t :: rest) => ({ s with hashKey := s.hashKey ++ tagPiece t }, .loop rest)
  | .setDone => ({ s with done := true }, .unlock)
  | .unlock => ({ s with locked := false }, .ret)
  | .ret => (s, .returned s.hashKey)
  | .returned h => (s, .returned h)
  | .setKey k => ({ s with key := k }, .finished)
  | .setTags t => ({ s with tags := t }, .finished)
  | .finished => (s, .finished)

/-- Start of a call. -/
def begin : Call → PC
  | .hashKey => .fast
  | .setKey k => .setKey k
  | .setTags t => .setTags t

/-- Interleaving semantics. -/
def conc : Machine Shared PC Call (List (GoStr × GoStr)) where
  call := begin
  step := callStep

end MetricName
end GoMetrics
