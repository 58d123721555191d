import Verif.Model.UniformSnapshot
/-! # Uniform reservoir and snapshots with slices as references

A slice of the Go program is a reference to an array; here the arrays are in a heap and slices are addresses (all slices of these two files
cover their array completely). A user can write to the slices `GetValues` has given him, and to nothing else. -/
namespace GoMetrics
namespace UniformHeap

/-- The memory and who refers to what. -/
structure State where
  heap : List (List Int)
  /-- impl/uniform_reservoir.go:40 -/
  count : Int
  /-- impl/uniform_reservoir.go:41: the array of the reservoir -/
  values : Nat
  /-- impl/uniform_snapshot.go:32: the arrays of the snapshots taken, in order -/
  snapshots : List Nat
  /-- the slices returned by `GetValues`, in order -/
  handed : List Nat

namespace State

/-- Content of a slice. -/
def read (s : State) (a : Nat) : List Int := (s.heap[a]?).getD []

/-- Overwrite the content of a slice. -/
def write (s : State) (a : Nat) (l : List Int) : State := { s with heap := s.heap.set a l }

/-- `make`: a new array. -/
def alloc (s : State) (l : List Int) : State × Nat := ({ s with heap := s.heap ++ [l] }, s.heap.length)

/-- The reservoir as a value. -/
def reservoir (s : State) : UniformReservoir := ⟨s.count, s.read s.values⟩

/-- The k-th snapshot as a value, if there is one. -/
def snapshot (s : State) (k : Nat) : Option UniformSnapshot := (s.snapshots[k]?).map fun a => ⟨s.read a⟩

end State

/-- impl/uniform_reservoir.go:92-96 `NewUniformReservoir` -/
def new (size : Nat) : State := ⟨[List.replicate size 0], 0, 0, [], []⟩

/-- What can happen. -/
inductive Op where
  | update (value : Int) (words : List Int)
  | getSnapshot
  | getValues (snapshot : Nat)
  | userWrite (slice : Nat) (content : List Int)

/-- impl/uniform_reservoir.go:55-69 `UpdateN`: writes one element of the reservoir's array. -/
def updateN (s : State) (value : Int) (words : List Int) : State :=
  let r := (s.reservoir.updateN words value).state
  { s with count := r.count }.write s.values r.values

/-- impl/uniform_snapshot.go:152-160 `NewUniformSnapshot` called by impl/uniform_reservoir.go:86-90 `GetSnapshot`: new array (154), copy (155),
sort in place (156). -/
def getSnapshot (s : State) : State :=
  let content := s.read s.values
  let (s, copied) := s.alloc (List.replicate content.length 0)
  let s := s.write copied content
  let s := s.write copied ((s.read copied).insertionSort (· ≤ ·))
  { s with snapshots := s.snapshots ++ [copied] }

/-- impl/uniform_snapshot.go:62-67 `GetValues`: new array, copy. -/
def getValues (s : State) (a : Nat) : State :=
  let content := s.read a
  let (s, result) := s.alloc (List.replicate content.length 0)
  let s := s.write result content
  { s with handed := s.handed ++ [result] }

/-- One operation; asking for a snapshot or a slice that does not exist does nothing. -/
def step (s : State) : Op → State
  | .update v w => updateN s v w
  | .getSnapshot => getSnapshot s
  | .getValues k => match s.snapshots[k]? with | none => s | some a => getValues s a
  | .userWrite k l => match s.handed[k]? with | none => s | some a => s.write a l

/-- A history. -/
def run (s : State) (ops : List Op) : State := ops.foldl step s

end UniformHeap
end GoMetrics
