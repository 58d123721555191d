import Verif.Model.FastCompass
import Verif.Model.BucketCounterConc
import Verif.Model.RWLock
/-! # Concurrent `FastCompassImpl.Record` (impl/default_fast_compass.go:83-105): its body in small steps, between lock and unlock

The getters do not lock and are not in this model (see Model/FastCompass.lean and Model/BucketReader.lean). Simplification: the check of the
arguments (line 84), which touches no shared memory, is made inside the lock. -/
namespace GoMetrics
namespace FastCompassConc

/-- The arguments `Record(duration, subCategory)`. -/
structure Arg where
  duration : Int
  subCategory : String
  deriving DecidableEq

/-- Where a `Record` is. -/
inductive RecPC where
  /-- line 84 -/
  | check
  /-- line 90: about to look up the category -/
  | lookup
  /-- line 92: about to compare the number of categories with the limit -/
  | limit
  /-- lines 96-100: about to make a bucket counter, which reads the clock -/
  | make
  /-- line 101: about to insert the new counter -/
  | insert (b : BucketCounter)
  /-- line 104: inside `UpdateN` of the category's counter -/
  | update (c : BucketCounter.Call)
  deriving DecidableEq

/-- One step inside the lock; `t` is the clock reading, if the step reads the clock. The result is whether the call panicked. The counter that
`bucketCounter` points to is the one in the map: entries are never replaced. -/
def wstep (fc : FastCompass) (t : Int) : Arg × RecPC → FastCompass × ((Arg × RecPC) ⊕ Bool)
  | (a, .check) => if a.duration < 0 ∨ a.subCategory.length = 0 then (fc, .inr false) else (fc, .inl (a, .lookup))
  | (a, .lookup) =>
    match fc.subCategories.get? a.subCategory with
    | some _ => (fc, .inl (a, .update ⟨FastCompass.packed a.duration, .start⟩))
    | none => (fc, .inl (a, .limit))
  | (a, .limit) => if (fc.subCategories.length : Int) ≥ fc.maxSubCategoryCount then (fc, .inr false) else (fc, .inl (a, .make))
  | (a, .make) =>
    match BucketCounter.newImpl fc.bucketInterval fc.numberOfBuckets t false with
    | none => (fc, .inr true)
    | some b => (fc, .inl (a, .insert b))
  | (a, .insert b) =>
    ({ fc with subCategories := fc.subCategories.set a.subCategory b }, .inl (a, .update ⟨FastCompass.packed a.duration, .start⟩))
  | (a, .update c) =>
    match fc.subCategories.get? a.subCategory with
    | none => (fc, .inr true)
    | some b =>
      let r := BucketCounter.callStep b t c
      let fc' := { fc with subCategories := fc.subCategories.set a.subCategory r.1 }
      match r.2.pc with
      | .done _ _ => (fc', .inr false)
      | .panicked => (fc', .inr true)
      | _ => (fc', .inl (a, .update r.2))

/-- `FastCompassImpl` as an object guarded by `subCategoriesMutex` (impl/default_fast_compass.go:68, 88-89); no method reads under the
lock. -/
def guarded : Guarded FastCompass Arg (Arg × RecPC) Int Bool Empty Empty Empty where
  enter a := (a, .check)
  wstep := wstep
  look q := q
  rstep _ q := .inl q

end FastCompassConc
end GoMetrics
