import Verif.Proofs.EDR
import Verif.Spec.EDRStep
/-! # What one update does to the samples of a decaying reservoir (impl/exponentially_decaying_reservoir.go:89-124) -/
namespace GoMetrics
open WeightedSample
namespace SkipList

/-- Replaces the sample whose key is that of `s`. -/
def put (s : WeightedSample) (l : SkipList) : SkipList := l.map fun x => if x.key = s.key then s else x

theorem put_id {s : WeightedSample} {l : SkipList} (h : ∀ x ∈ l, x.key ≠ s.key) : put s l = l := by
  unfold put
  conv_rhs => rw [← List.map_id l]
  exact List.map_congr_left fun x hx => by simp [h x hx]

theorem compare_pos {e s : WeightedSample} (h : s.key.lt e.key) : ¬ e.compare s < 0 ∧ ¬ e.compare s = 0 := by
  constructor
  · rw [compare_neg]; exact F64.lt_asymm h
  · rw [compare_zero]; simp [h]

/-- On a sorted list with the key of `s` in it. -/
theorem found {s : WeightedSample} {l : SkipList} (hl : Sorted l) (hs : s.key ≠ .nan) (h : ∃ x ∈ l, x.key = s.key) :
    insert s l = put s l ∧ overwrite s l = put s l ∧ ∃ x, get? s l = some x := by
  induction l with
  | nil => simp at h
  | cons e t ih =>
    have hp := List.pairwise_cons.1 hl.1
    have ht : Sorted t := sorted_sublist hl (List.sublist_cons_self _ _)
    have he := hl.2 e (by simp)
    rcases F64.lt_total he hs with hc | hc | hc
    · have hx : ∃ x ∈ t, x.key = s.key := by
        obtain ⟨x, hx, hk⟩ := h
        rcases List.mem_cons.1 hx with rfl | hx
        · rw [hk] at hc; exact absurd hc (F64.lt_irrefl _)
        · exact ⟨x, hx, hk⟩
      obtain ⟨h1, h2, h3⟩ := ih ht hx
      have hc' := (compare_neg e s).2 hc
      have hne : e.key ≠ s.key := fun h => by rw [h] at hc; exact F64.lt_irrefl _ hc
      refine ⟨?_, ?_, ?_⟩
      · rw [insert, if_pos hc', h1]; simp [put, hne]
      · rw [overwrite, if_pos hc', h2]; simp [put, hne]
      · rw [get?, if_pos hc']; exact h3
    · have hz : e.compare s = 0 := (compare_zero' he hs).2 hc
      have hn : ¬ e.compare s < 0 := by omega
      have hput : put s (e :: t) = s :: t := by
        have : put s t = t := put_id fun x hx hk => by
          have := hp.1 x hx
          rw [hk, hc] at this
          exact F64.lt_irrefl _ this
        unfold put at this ⊢
        rw [List.map_cons, this, if_pos hc]
      refine ⟨?_, ?_, ?_⟩
      · rw [insert, if_neg hn, if_pos hz, hput]
      · rw [overwrite, if_neg hn, if_pos hz, hput]
        cases s; simp only at hc; rw [← hc]
      · rw [get?, if_neg hn, if_pos hz]; exact ⟨e, rfl⟩
    · obtain ⟨x, hx, hk⟩ := h
      rcases List.mem_cons.1 hx with rfl | hx
      · rw [hk] at hc; exact absurd hc (F64.lt_irrefl _)
      · have := F64.lt_trans hc (hp.1 x hx)
        rw [hk] at this
        exact absurd this (F64.lt_irrefl _)

theorem insert_perm {s : WeightedSample} {l : SkipList} (hl : ∀ x ∈ l, x.key ≠ .nan) (hs : s.key ≠ .nan) (h : ∀ x ∈ l, x.key ≠ s.key) :
    (insert s l).Perm (s :: l) := by
  induction l with
  | nil => exact List.Perm.refl _
  | cons e t ih =>
    have hz : ¬ e.compare s = 0 := by rw [compare_zero' (hl e (by simp)) hs]; exact h e (by simp)
    unfold insert
    split
    · exact ((ih (fun x hx => hl x (by simp [hx])) fun x hx => h x (by simp [hx])).cons e).trans (List.Perm.swap _ _ _)
    · first | exact List.Perm.refl _ | (rw [if_neg hz])

end SkipList

namespace EDR

theorem record_admitted {r : EDR} {n : Int} (hA : InvA r) (h : InvB r n) (hsz : 1 ≤ r.size) (hn : n + 1 < 9223372036854775808) {prio w : F64}
    (hp' : prio ≠ .nan) (value : Int) :
    (record r prio value w).panicked = false ∧ Admitted ⟨prio, value, w⟩ (r.size ≤ r.count) r.values (record r prio value w).state.values := by
  have hg : getValues { r with count := i64 (r.count + 1) } = r.values := getValues_eq (by exact h.keys)
  have h3 := h.le_size
  have h4 := h.le_count
  have h5 := h.count_le
  have hi : i64 (r.count + 1) = r.count + 1 := by apply i64_of_in; unfold InI64; omega
  rw [hi] at hg
  unfold record
  simp only [hi, hg]
  by_cases h1 : r.count + 1 ≤ r.size
  · rw [if_pos h1]
    have hnf : ¬ r.size ≤ r.count := by omega
    refine ⟨rfl, fun hf => absurd hf hnf, fun _ hx => ?_, fun _ hx => ?_, fun hf => absurd hf hnf⟩
    · exact (SkipList.found h.sorted hp' hx).1
    · exact SkipList.insert_perm h.sorted.2 hp' hx
  · rw [if_neg h1]
    have hfull : r.size ≤ r.count := by omega
    have hlive := hA.live (by omega)
    cases hv : r.values with
    | nil => exact absurd hv hlive
    | cons first t =>
      have hs := h.sorted
      rw [hv] at hs
      have hp := List.pairwise_cons.1 hs.1
      have hfn := hs.2 first (by simp)
      simp only
      by_cases hle : prio.le first.key
      · rw [if_pos hle]
        have hnl : ∀ x ∈ first :: t, ¬ x.key.lt prio := by
          have h0 : ¬ first.key.lt prio := (F64.le_iff hp' hfn).1 hle
          intro x hx
          rcases List.mem_cons.1 hx with rfl | hx
          · exact h0
          · exact fun hlt => h0 (F64.lt_trans (hp.1 x hx) hlt)
        refine ⟨rfl, fun _ _ => rfl, fun hor => ?_, fun hf => absurd hfull hf, fun _ hlt => ?_⟩
        · rcases hor with hf | ⟨x, hx, hlt⟩
          · exact absurd hfull hf
          · exact absurd hlt (hnl x hx)
        · obtain ⟨x, hx, hlt⟩ := hlt
          exact absurd hlt (hnl x hx)
      · rw [if_neg hle]
        have hlt : first.key.lt prio := by
          by_contra hc
          exact hle ((F64.le_iff hp' hfn).2 hc)
        by_cases hx : ∃ x ∈ first :: t, x.key = prio
        · obtain ⟨-, f2, y, f3⟩ := SkipList.found (s := ⟨prio, value, w⟩) hs hp' hx
          rw [f3]
          refine ⟨rfl, fun _ hno => absurd hlt (hno first (by simp)), fun _ _ => f2, fun hf => absurd hfull hf, fun _ _ hno => ?_⟩
          obtain ⟨x, hx, hk⟩ := hx
          exact absurd hk (hno x hx)
        · have hx' : ∀ x ∈ first :: t, x.key ≠ prio := fun x hx' hk => hx ⟨x, hx', hk⟩
          rw [SkipList.get?_none (s := ⟨prio, value, w⟩) fun x hx'' => by
            rw [compare_zero' (hs.2 x hx'') hp']; exact hx' x hx'']
          rw [SkipList.delete_head]
          refine ⟨rfl, fun _ hno => absurd hlt (hno first (by simp)), fun _ hx'' => absurd hx'' hx, fun hf => absurd hfull hf, fun _ _ _ => ?_⟩
          exact ⟨first, t, rfl, hp.1, SkipList.insert_perm (fun x hx => hs.2 x (by simp [hx])) hp' fun x hx => hx' x (by simp [hx])⟩

end EDR
end GoMetrics
