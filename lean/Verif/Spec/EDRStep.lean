import Verif.Spec.EDR
/-! # Specification: what one update does to the samples of a decaying reservoir -/
namespace GoMetrics
namespace EDR

/-- What an update that brings the sample `s` makes of the samples `l`; `full`: as many updates as the capacity were counted before.
If the reservoir is full and no sample has a lower priority, nothing. Otherwise, if a sample has the same priority, `s` takes its place. Otherwise
`s` is added, and if the reservoir is full the sample with the lowest priority leaves. -/
def Admitted (s : WeightedSample) (full : Prop) (l l' : List WeightedSample) : Prop :=
  (full → (∀ x ∈ l, ¬ x.key.lt s.key) → l' = l) ∧
  ((¬ full ∨ ∃ x ∈ l, x.key.lt s.key) → (∃ x ∈ l, x.key = s.key) → l' = l.map fun x => if x.key = s.key then s else x) ∧
  (¬ full → (∀ x ∈ l, x.key ≠ s.key) → l'.Perm (s :: l)) ∧
  (full → (∃ x ∈ l, x.key.lt s.key) → (∀ x ∈ l, x.key ≠ s.key) →
    ∃ low rest, l = low :: rest ∧ (∀ x ∈ rest, low.key.lt x.key) ∧ l'.Perm (s :: rest))

end EDR
end GoMetrics
