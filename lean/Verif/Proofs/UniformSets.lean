import Verif.Proofs.Estimate
import Mathlib.Data.Finset.Powerset
import Mathlib.Data.Fintype.Powerset
import Mathlib.Data.Nat.Choose.Basic
/-! # A uniform reservoir holds the values at each set of positions equally often, equal values or not -/
namespace GoMetrics.UniformFair

/-- The reservoir moves values; it does not look at them. -/
theorem sample_map (f : Int → Int) (c : Nat) (vs : List Int) (hc : c ≤ vs.length) (hl : vs.length < 2 ^ 63) (s : List Nat) (hs : s ∈ draws vs.length) :
    sampleOf c (vs.map f) s = (sampleOf c vs s).map f := by
  induction vs using List.reverseRecOn generalizing s with
  | nil =>
    have hlen := ((mem_draws _ s).1 hs).1
    simp only [List.length_nil, Nat.le_zero] at hc
    subst hc
    have a := List.length_eq_zero_iff.1 (length_sample 0 (([] : List Int).map f) s)
    have b := List.length_eq_zero_iff.1 (length_sample 0 [] s)
    rw [a, b]; rfl
  | append_singleton vs v ih =>
    have hlen := ((mem_draws _ s).1 hs).1
    rcases Estimate.full_or hc with rfl | hc'
    · have h1 := sample_full (vs := vs ++ [v]) hlen.symm hl
      have h2 := sample_full (vs := (vs ++ [v]).map f) (s := s) (by rw [List.length_map]; exact hlen.symm) (by rw [List.length_map]; exact hl)
      rw [List.length_map] at h2
      rw [h1, h2]
    · simp only [List.length_append, List.length_singleton] at hs hl
      rw [draws, List.mem_flatMap] at hs
      obtain ⟨s', hs', hpm⟩ := hs
      obtain ⟨p, hp, rfl⟩ := List.mem_map.1 hpm
      rw [List.mem_range] at hp
      have hlen' := ((mem_draws _ s').1 hs').1
      rw [List.map_append, List.map_singleton, sample_snoc (by rw [List.length_map]; exact hlen'.symm) (by rw [List.length_map]; exact hc')
        (by rw [List.length_map]; exact hl) _ (by rw [List.length_map]; exact hp), sample_snoc hlen'.symm hc' hl v hp, ih hc' (by omega) s' hs']
      by_cases h : p < c
      · rw [if_pos h, if_pos h, List.map_set]
      · rw [if_neg h, if_neg h]

/-- The positions, as values. -/
def ids (n : Nat) : List Int := (List.range n).map fun i : Nat => (i : Int)

theorem length_ids (n : Nat) : (ids n).length = n := by simp [ids]
theorem nodup_ids (n : Nat) : (ids n).Nodup := by
  unfold ids
  exact List.Nodup.map (fun a b h => by simpa using h) List.nodup_range

theorem map_ids (vs : List Int) : (ids vs.length).map (fun i => vs.getD i.toNat 0) = vs := by
  apply List.ext_getElem (by simp [ids])
  intro i h1 h2
  simp [ids, h2]

def toInt (n : Nat) : Fin n ↪ Int := ⟨fun i => ((i : Nat) : Int), fun a b h => Fin.ext (by simpa using h)⟩

theorem ids_finset (n : Nat) : (ids n).toFinset = (Finset.univ : Finset (Fin n)).map (toInt n) := by
  ext x
  simp only [ids, List.mem_toFinset, List.mem_map, List.mem_range, Finset.mem_map, Finset.mem_univ, true_and, toInt]
  constructor
  · rintro ⟨i, hi, rfl⟩; exact ⟨⟨i, hi⟩, rfl⟩
  · rintro ⟨i, rfl⟩; exact ⟨i, i.2, rfl⟩

/-- Of all sequences of positions, `capacity! (n - capacity)!` give the values at any set of positions. -/
theorem count_sets (c : Nat) (vs : List Int) (hc : c ≤ vs.length) (hl : vs.length < 2 ^ 63) (P : List Int → Bool) (hP : ∀ l m : List Int, l.Perm m → P l = P m) :
    (draws vs.length).countP (fun s => P (sampleOf c vs s)) =
      ((Finset.powersetCard c (Finset.univ : Finset (Fin vs.length))).filter fun S => P (S.toList.map fun i => vs[i]) = true).card *
        (c.factorial * (vs.length - c).factorial) := by
  classical
  have hset : ∀ s ∈ draws vs.length, ∀ S : Finset (Fin vs.length), (sampleOf c (ids vs.length) s).toFinset = S.map (toInt vs.length) →
      P (sampleOf c vs s) = P (S.toList.map fun i => vs[i]) := by
    intro s hs S he
    have hlen := ((mem_draws _ s).1 hs).1
    have hnd := (sample_sub (c := c) (vs := ids vs.length) (s := s) (by rw [length_ids]; exact hlen.symm) (by rw [length_ids]; exact hc) (by rw [length_ids]; exact hl)
      (nodup_ids _)).2
    refine hP _ _ ?_
    have h1 := sample_map (fun i => vs.getD i.toNat 0) c (ids vs.length) (by rw [length_ids]; exact hc) (by rw [length_ids]; exact hl) s (by rw [length_ids]; exact hs)
    rw [map_ids] at h1
    rw [h1]
    have h2 : (sampleOf c (ids vs.length) s).Perm (S.toList.map (toInt vs.length)) := by
      refine (List.perm_ext_iff_of_nodup hnd ((Finset.nodup_toList _).map (toInt _).injective)).2 fun x => ?_
      rw [← List.mem_toFinset, he, Finset.mem_map, List.mem_map]
      simp only [Finset.mem_toList]
    refine (h2.map _).trans (List.Perm.of_eq ?_)
    rw [List.map_map]
    refine List.map_congr_left fun i _ => ?_
    show vs.getD ((((i : Nat) : Int)).toNat) 0 = vs[i]
    rw [Int.toNat_natCast]
    simp
  have hex : ∀ s ∈ draws vs.length, ∃ S ∈ Finset.powersetCard c (Finset.univ : Finset (Fin vs.length)), (sampleOf c (ids vs.length) s).toFinset = S.map (toInt vs.length) := by
    intro s hs
    have hlen := ((mem_draws _ s).1 hs).1
    have h2 := sample_sub (c := c) (vs := ids vs.length) (s := s) (by rw [length_ids]; exact hlen.symm) (by rw [length_ids]; exact hc) (by rw [length_ids]; exact hl)
      (nodup_ids _)
    have h3 : (sampleOf c (ids vs.length) s).toFinset ⊆ (Finset.univ : Finset (Fin vs.length)).map (toInt vs.length) := by
      rw [← ids_finset]
      intro x hx
      rw [List.mem_toFinset] at hx ⊢
      exact h2.1 x hx
    obtain ⟨S, hS⟩ : ∃ S : Finset (Fin vs.length), (sampleOf c (ids vs.length) s).toFinset = S.map (toInt vs.length) := by
      refine ⟨Finset.univ.filter fun i => toInt vs.length i ∈ (sampleOf c (ids vs.length) s).toFinset, ?_⟩
      ext x
      rw [Finset.mem_map]
      constructor
      · intro hx
        obtain ⟨i, _, rfl⟩ := Finset.mem_map.1 (h3 hx)
        exact ⟨i, by simpa using hx, rfl⟩
      · rintro ⟨i, hi, rfl⟩
        simpa using hi
    refine ⟨S, ?_, hS⟩
    rw [Finset.mem_powersetCard]
    refine ⟨Finset.subset_univ _, ?_⟩
    have := congrArg Finset.card hS
    rw [Finset.card_map, List.toFinset_card_of_nodup h2.2, length_sample] at this
    exact this.symm
  have hone : ∀ S ∈ Finset.powersetCard c (Finset.univ : Finset (Fin vs.length)),
      (draws vs.length).countP (fun s => decide ((sampleOf c (ids vs.length) s).toFinset = S.map (toInt vs.length))) = c.factorial * (vs.length - c).factorial := by
    intro S hS
    have := C52_every_subset c (ids vs.length) (nodup_ids _) (by rw [length_ids]; exact hc) (by rw [length_ids]; exact hl) (S.map (toInt _))
      (by rw [ids_finset]; exact Finset.map_subset_map.2 (Finset.subset_univ _)) (by rw [Finset.card_map]; exact (Finset.mem_powersetCard.1 hS).2)
    rw [length_ids] at this
    exact this
  have hsum : (draws vs.length).countP (fun s => P (sampleOf c vs s)) =
      ∑ S ∈ (Finset.powersetCard c (Finset.univ : Finset (Fin vs.length))).filter (fun S => P (S.toList.map fun i => vs[i]) = true),
        (draws vs.length).countP (fun s => decide ((sampleOf c (ids vs.length) s).toFinset = S.map (toInt vs.length))) := by
    simp only [countP_eq_sum]
    rw [← sum_map_sum]
    congr 1
    refine List.map_congr_left fun s hs => ?_
    obtain ⟨S0, hS0, he⟩ := hex s hs
    have hval := hset s hs S0 he
    have huniq : ∀ S : Finset (Fin vs.length), decide ((sampleOf c (ids vs.length) s).toFinset = S.map (toInt vs.length)) = true ↔ S = S0 := by
      intro S
      rw [decide_eq_true_iff, he]
      constructor
      · intro h; exact (Finset.map_injective _ h).symm
      · rintro rfl; rfl
    simp only [huniq]
    rw [Finset.sum_ite_eq']
    simp only [Finset.mem_filter, hS0, true_and, hval]
  rw [hsum, Finset.sum_const_nat (fun S hS => hone S (Finset.mem_filter.1 hS).1)]

end GoMetrics.UniformFair
