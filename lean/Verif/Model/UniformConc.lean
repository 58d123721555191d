import Verif.Model.UniformSnapshot
import Verif.Model.RWLock
/-! # Concurrent `UniformReservoir` (impl/uniform_reservoir.go): the bodies of its methods in small steps, between lock and unlock -/
namespace GoMetrics
namespace UniformConc

/-- Where `UpdateN(v)` is, impl/uniform_reservoir.go:59-68. -/
inductive WPC where
  /-- line 59: about to increment `count` (a load and a store: nobody else may do so) -/
  | inc (v : Int)
  /-- lines 60-61: about to compare `count` with the number of slots -/
  | cmp (v : Int)
  /-- line 62: about to store into slot `count - 1` -/
  | fill (v : Int)
  /-- lines 76-80: about to draw a random word, `n` being the argument of `nextRandomPos` -/
  | draw (v n : Int)
  /-- lines 65-66: about to store into slot `index`, if there is one -/
  | store (v index : Int)
  deriving DecidableEq

/-- One step of `UpdateN` inside the lock; `word` is the next random word (used by the `draw` step only). The result is whether the call
panicked (index out of range). -/
def wstep (u : UniformReservoir) (word : Int) : WPC → UniformReservoir × (WPC ⊕ Bool)
  | .inc v => ({ u with count := i64 (u.count + 1) }, .inl (.cmp v))
  | .cmp v => (u, .inl (if u.count ≤ (u.values.length : Int) then .fill v else .draw v u.count))
  | .fill v =>
    if i64 (u.count - 1) < 0 ∨ (u.values.length : Int) ≤ i64 (u.count - 1) then (u, .inr true)
    else ({ u with values := u.values.set (i64 (u.count - 1)).toNat v }, .inr false)
  | .draw v n => (u, .inl (if UniformReservoir.accepts n word then .store v (word.tmod n) else .draw v n))
  | .store v index =>
    if index < (u.values.length : Int) then
      (if index < 0 then (u, .inr true) else ({ u with values := u.values.set index.toNat v }, .inr false))
    else (u, .inr false)

/-- The reading methods. -/
inductive Query where
  | size
  | snapshot
  deriving DecidableEq

/-- Where a reading method is. -/
inductive RPC where
  /-- impl/uniform_reservoir.go:48-49: about to read the number of slots and compare it with `count` -/
  | sizeCmp
  /-- line 52: about to read `count` again -/
  | sizeCount
  /-- impl/uniform_snapshot.go:154-155: copying, these elements are done -/
  | copy (done : List Int)
  deriving DecidableEq

/-- What a reading method returns. -/
inductive Answer where
  | size (n : Int)
  | snapshot (s : UniformSnapshot)
  deriving DecidableEq

/-- One step of a reading method inside the read lock. -/
def rstep (u : UniformReservoir) : RPC → RPC ⊕ Answer
  | .sizeCmp => if u.count > (u.values.length : Int) then .inr (.size u.values.length) else .inl .sizeCount
  | .sizeCount => .inr (.size u.count)
  | .copy done =>
    match u.values[done.length]? with
    | some v => .inl (.copy (done ++ [v]))
    | none => .inr (.snapshot ⟨done.insertionSort (· ≤ ·)⟩)

/-- `UniformReservoir` as an object guarded by its `RWMutex` (impl/uniform_reservoir.go:42, 46-47, 56-57, 87-88). -/
def guarded : Guarded UniformReservoir Int WPC Int Bool Query RPC Answer where
  enter := .inc
  wstep := wstep
  look
    | .size => .sizeCmp
    | .snapshot => .copy []
  rstep := rstep

end UniformConc
end GoMetrics
