import Verif.Model.UniformReservoir
import Verif.Model.EDR
/-! # Where the random numbers come from

Both sampling reservoirs make a new generator in every update and seed it with `time.Now().UnixNano()` (impl/uniform_reservoir.go:72,
impl/exponentially_decaying_reservoir.go:82-83). In the models of the reservoirs the random numbers are inputs; here the inputs are the readings of
`time.Now()`. -/
namespace GoMetrics

/-- `math/rand`: what a generator made by `rand.NewSource(seed)` returns. `words seed`: the words of `Int63()`, as many as the loop of
impl/uniform_reservoir.go:75-81 reads; `float seed`: the first `Float64()`. The algorithm of the library is not modelled. -/
structure Generator where
  words : Int → List Int
  float : Int → F64

/-- The documentation of `math/rand`: "Seed values that have the same remainder when divided by 2³¹-1 generate the same pseudo-random sequence." -/
def Generator.Documented (G : Generator) : Prop :=
  ∀ s t : Int, s % 2147483647 = t % 2147483647 → G.words s = G.words t ∧ G.float s = G.float t

/-- impl/uniform_reservoir.go:55-84: an update made when `time.Now().UnixNano()` (72) is `nano` -/
def UniformReservoir.updateAt (G : Generator) (u : UniformReservoir) (nano value : Int) : Res UniformReservoir := u.updateN (G.words nano) value

/-- impl/uniform_reservoir.go:55-84: a history of updates, each a reading of `time.Now().UnixNano()` and a value -/
def UniformReservoir.runAt (G : Generator) (u : UniformReservoir) (h : List (Int × Int)) : UniformReservoir :=
  h.foldl (fun u e => (u.updateAt G e.1 e.2).state) u

/-- An update of a decaying reservoir: the readings of the reservoir's clock (132, 163, 79), that of `time.Now()` (82) and the value. -/
structure EDR.Timed where
  tick : Int
  scaleTime : Int
  time : Int
  nano : Int
  value : Int

/-- impl/exponentially_decaying_reservoir.go:75-125 -/
def EDR.updateAt (A : EDR.Arith) (G : Generator) (r : EDR) (e : EDR.Timed) : Res EDR := r.updateN A ⟨e.tick, e.scaleTime, e.time, G.float e.nano⟩ e.value

/-- impl/exponentially_decaying_reservoir.go:75-125: updates that do not overlap -/
def EDR.runAt (A : EDR.Arith) (G : Generator) (r : EDR) (h : List EDR.Timed) : EDR := h.foldl (fun r e => (r.updateAt A G e).state) r

end GoMetrics
