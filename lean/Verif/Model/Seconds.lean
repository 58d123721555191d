import Verif.Model.Float
/-! # `time.Duration.Seconds` and its truncation

`impl/default_bucket_counter.go:152` and `impl/bucket_reservoir.go:66` compute `int64(interval.Seconds())`. The Go standard
library computes `Seconds` as `float64(d / Second) + float64(d % Second)/1e9`. -/
namespace GoMetrics

/-- Go standard library, `func (d Duration) Seconds() float64`. -/
def seconds (R : Rounding) (d : Int) : F64 :=
  F64.add R (F64.ofInt R (d.tdiv 1000000000))
    (F64.div R (F64.ofInt R (d.tmod 1000000000)) (F64.ofInt R 1000000000))

/-- `int64(x)`: truncation towards zero of a finite in-range value; anything else is implementation-defined in Go and
left unspecified here (`none`). -/
def toInt64 : F64 → Option Int
  | .fin q =>
    let t := if 0 ≤ q then ⌊q⌋ else -⌊-q⌋
    if -9223372036854775808 ≤ t ∧ t < 9223372036854775808 then some t else none
  | _ => none

end GoMetrics
