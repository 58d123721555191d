import Verif.Model.GoBasics
import Verif.Model.Compass
/-! # UniformReservoir (impl/uniform_reservoir.go)

Every method takes the reservoir's mutex for its whole body, so a call is one step. Random words are inputs. -/
namespace GoMetrics

/-- impl/uniform_reservoir.go:39-43 -/
structure UniformReservoir where
  count : Int
  values : List Int
  deriving DecidableEq

namespace UniformReservoir

/-- impl/uniform_reservoir.go:92-96 `NewUniformReservoir`. A negative size makes `make` panic and is not modelled. -/
def new (size : Nat) : UniformReservoir := ⟨0, List.replicate size 0⟩

/-- impl/uniform_reservoir.go:45-53 `Size`. -/
def size (u : UniformReservoir) : Int :=
  if u.count > (u.values.length : Int) then u.values.length else u.count

/-- impl/uniform_reservoir.go:76-80: does the loop stop at the word `random` (already masked, 76)? The sum is `int64` arithmetic. -/
def accepts (n random : Int) : Bool := decide (0 ≤ i64 (i64 (i64 (random - random.tmod n) + n) - 1))

/-- impl/uniform_reservoir.go:71-84 `nextRandomPos`. `words` are the words of the random source, each in [0, 2^63) (the mask in line 76
changes nothing); the answer is `none` while the loop has not stopped. -/
def nextRandomPos (n : Int) : List Int → Option Int
  | [] => none
  | random :: rest => if accepts n random then some (random.tmod n) else nextRandomPos n rest

/-- impl/uniform_reservoir.go:55-69 `UpdateN`. `values[index]` with a negative index panics. A call whose loop (71-84) does not stop
with the given words has not returned; like a panic, nothing after it happens, and it is modelled as one. -/
def updateN (u : UniformReservoir) (words : List Int) (value : Int) : Res UniformReservoir :=
  let u := { u with count := i64 (u.count + 1) }
  if u.count ≤ (u.values.length : Int) then
    if i64 (u.count - 1) < 0 ∨ (u.values.length : Int) ≤ i64 (u.count - 1) then .panic u
    else .ok { u with values := u.values.set (i64 (u.count - 1)).toNat value }
  else
    match nextRandomPos u.count words with
    | none => .panic u
    | some index => if index < (u.values.length : Int) then
        (if index < 0 then .panic u else .ok { u with values := u.values.set index.toNat value })
      else .ok u

/-- A history: every update with the words its loop sees. A panicking update leaves its state behind. -/
def run (u : UniformReservoir) (h : List (Int × List Int)) : UniformReservoir :=
  h.foldl (fun u e => (u.updateN e.2 e.1).state) u

/-- reservoir.go: this reservoir as a component of a compass (impl/default_compass.go:229-230). -/
def impl : ReservoirImpl UniformReservoir (List Int) := ⟨updateN⟩

end UniformReservoir
end GoMetrics
