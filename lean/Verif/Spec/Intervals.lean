import Verif.Model.BucketCounter
/-! # Specification: what a counter may report for intervals -/
namespace GoMetrics.Spec

/-- Whatever a query sees of the ring of buckets, at whatever clock reading and from whatever start: what it reports for an interval is the int64 sum of a part of `args`, an interval
begins at a whole second and not before the start asked for, and the parts of different intervals do not overlap: any number of them together are not more than `args`. -/
def ReportsPartsOf (b : BucketCounter) (args : List Int) : Prop :=
  ∀ (view : Deque) (t s : Int) (m : GoMap Int Int), ({ b with buckets := view }).getBucketCountsSince t s = some m →
    ∃ part : Int → List Int,
      (∀ k v, m.get? k = some v → v = i64 (part k).sum ∧ s ≤ k ∧ ∃ second, k = 1000 * second) ∧
      ∀ ks : List Int, ks.Nodup → (∀ k ∈ ks, ∃ v, m.get? k = some v) → (ks.map part).flatten.Subperm args

end GoMetrics.Spec
