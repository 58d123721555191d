import Verif.Model.FastCompass
/-! # Specification: what a fast compass may report for the intervals of a category -/
namespace GoMetrics.Spec

/-- Whatever clock readings a query takes and from whatever start after minus one second: what it reports for intervals of category `cat` as numbers of calls and as summed milliseconds are
the length and the sum of parts of `ms`, an interval begins at a whole second and not before the start asked for, and the parts of different intervals do not overlap. -/
def FastReportsPartsOf (f : FastCompass) (cat : String) (ms : List Int) : Prop :=
  ∀ (clock : String → Int) (s : Int), -1000 < s → ∃ part : Int → List Int,
    (∃ m, f.getMethodCountPerCategorySince clock s = some m ∧ ∀ mc, m.get? cat = some mc → ∀ k v, mc.get? k = some v →
      v = (part k).length ∧ s ≤ k ∧ ∃ second, k = 1000 * second) ∧
    (∃ m, f.getMethodRtPerCategorySince clock s = some m ∧ ∀ mc, m.get? cat = some mc → ∀ k v, mc.get? k = some v →
      v = (part k).sum ∧ s ≤ k ∧ ∃ second, k = 1000 * second) ∧
    ∀ ks : List Int, ks.Nodup → (ks.map part).flatten.Subperm ms

end GoMetrics.Spec
