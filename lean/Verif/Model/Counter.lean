import Verif.Model.GoBasics
/-! # Counter (impl/counter_impl.go) -/
namespace GoMetrics

/-- impl/counter_impl.go:28-30 `counterImpl`. -/
structure Counter where
  count : Int
  deriving DecidableEq, Repr

namespace Counter

/-- impl/counter_impl.go:61-63 `newCounter`. -/
def new : Counter := ⟨0⟩

/-- impl/counter_impl.go:37-39 `LastUpdateTime`. -/
def lastUpdateTime (_ : Counter) : Int := 0

/-- impl/counter_impl.go:41-43 `GetCount`. -/
def getCount (c : Counter) : Int := c.count

/-- impl/counter_impl.go:49-51 `IncN`: one atomic wrap-around add. -/
def incN (c : Counter) (n : Int) : Counter := ⟨i64 (c.count + n)⟩

/-- impl/counter_impl.go:45-47 `Inc`. -/
def inc (c : Counter) : Counter := ⟨i64 (c.count + 1)⟩

/-- impl/counter_impl.go:53-55 `Dec`. -/
def dec (c : Counter) : Counter := ⟨i64 (c.count + (-1))⟩

/-- impl/counter_impl.go:57-59 `DecN`: `-n` is computed first and may itself wrap. -/
def decN (c : Counter) (n : Int) : Counter := ⟨i64 (c.count + i64 (-n))⟩

/-- The mutating API calls of metrics.Counter (counter.go:24-46). -/
inductive Op where
  | inc
  | incN (n : Int)
  | dec
  | decN (n : Int)
  deriving DecidableEq, Repr

/-- Dispatch of one API call. Each is a single atomic add, so any interleaving of concurrent calls is
a sequence of these. -/
def step (c : Counter) : Op → Counter
  | .inc => c.inc
  | .incN n => c.incN n
  | .dec => c.dec
  | .decN n => c.decN n

end Counter
end GoMetrics
