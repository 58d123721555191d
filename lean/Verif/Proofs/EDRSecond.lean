import Verif.Props.EDRDecay
import Verif.Props.EDRStats
import Verif.Proofs.Estimate
import Mathlib.Data.Finset.Powerset
import Mathlib.Data.Fintype.Powerset
import Mathlib.Logic.Equiv.Fintype
/-! # The positions of the updates a decaying reservoir keeps, and the symmetry of draws for updates of one second -/
namespace GoMetrics.EDR

/-- The positions of the updates that fewer than `c` others have a higher priority than. -/
def top (b : ℚ) (h : List Op) (c : Nat) {N : Nat} (us : Fin (recorded h).length → Fin N) : Finset (Fin (recorded h).length) :=
  Finset.univ.filter fun i => (Finset.univ.filter fun m : Fin (recorded h).length => b ^ (seconds h)[i]'(by rw [length_seconds]; exact i.2) * ((us m : Nat) : ℚ) <
    b ^ (seconds h)[m]'(by rw [length_seconds]; exact m.2) * ((us i : Nat) : ℚ)).card < c

/-- The update at a position. -/
def recAt (h : List Op) {N : Nat} (us : Fin (recorded h).length → Fin N) (m : Fin (recorded h).length) : Rec :=
  ⟨(seconds h)[m]'(by rw [length_seconds]; exact m.2), ((us m : Nat) : ℚ) / N, (recorded h)[m]⟩

theorem recs_grid (h : List Op) {N : Nat} (us : Fin (recorded h).length → Fin N) : recs (redraw h (gridDraws us)) = List.ofFn (recAt h us) := recs_ofFn h _

theorem top_kept (b : ℚ) (h : List Op) {N : Nat} (hN : 0 < N) (us : Fin (recorded h).length → Fin N) (ho : ¬ Odd b h us) (c : Nat) (kept : List Rec)
    (hk : TopK b c (recs (redraw h (gridDraws us))) kept) : kept.Perm ((top b h c us).toList.map (recAt h us)) := by
  have hN' : (0 : ℚ) < N := by exact_mod_cast hN
  obtain ⟨hp, hties⟩ := noTies_grid b h hN us ho
  have hnd : (List.ofFn (recAt h us)).Nodup := by
    refine List.Nodup.of_map (Rec.prio b) ?_
    rw [← recs_grid, gridDraws, prios_redraw b h _ (by simp)]; exact hties
  have hinj : Function.Injective (recAt h us) := List.nodup_ofFn.1 hnd
  have hkn : kept.Nodup := hk.ascending.imp fun {e e'} hlt he => by subst he; exact lt_irrefl _ hlt
  refine (List.perm_ext_iff_of_nodup hkn ((Finset.nodup_toList _).map hinj)).2 fun e => ?_
  have key : ∀ i, recAt h us i ∈ kept ↔ i ∈ top b h c us := by
    intro i
    rw [hk.mem_iff (by rw [recs_grid]; exact List.mem_ofFn.2 ⟨i, rfl⟩), recs_grid, countP_ofFn, top, Finset.mem_filter]
    have e : ∀ m : Fin (recorded h).length, decide ((recAt h us i).prio b < (recAt h us m).prio b) = true ↔
        b ^ (seconds h)[i]'(by rw [length_seconds]; exact i.2) * ((us m : Nat) : ℚ) < b ^ (seconds h)[m]'(by rw [length_seconds]; exact m.2) * ((us i : Nat) : ℚ) := by
      intro m
      rw [decide_eq_true_iff]
      show b ^ _ / (((us i : Nat) : ℚ) / N) < b ^ _ / (((us m : Nat) : ℚ) / N) ↔ _
      rw [div_lt_div_iff₀ (hp i) (hp m), mul_div_assoc', mul_div_assoc', div_lt_div_iff_of_pos_right hN']; rfl
    simp only [e, Finset.mem_univ, true_and]
    omega
  constructor
  · intro he
    have := hk.mem he
    rw [recs_grid] at this
    obtain ⟨i, rfl⟩ := List.mem_ofFn.1 this
    exact List.mem_map.2 ⟨i, by rw [Finset.mem_toList]; exact (key i).1 he, rfl⟩
  · intro he
    obtain ⟨i, hi, rfl⟩ := List.mem_map.1 he
    exact (key i).2 (by rw [Finset.mem_toList] at hi; exact hi)

/-! ## Symmetry -/
section
variable {n N : Nat}

/-- The positions of the `c` smallest draws. -/
def low (c : Nat) (us : Fin n → Fin N) : Finset (Fin n) := Finset.univ.filter fun i => (Finset.univ.filter fun m => us m < us i).card < c

/-- All draws are positive and no two equal. -/
def Plain (us : Fin n → Fin N) : Prop := (∀ m, (us m : Nat) ≠ 0) ∧ Function.Injective us

instance : DecidablePred (Plain (n := n) (N := N)) := fun _ => inferInstanceAs (Decidable (_ ∧ _))

theorem low_comp (c : Nat) (us : Fin n → Fin N) (σ : Equiv.Perm (Fin n)) (i : Fin n) : i ∈ low c (us ∘ σ) ↔ σ i ∈ low c us := by
  unfold low
  simp only [Finset.mem_filter, Finset.mem_univ, true_and, Function.comp]
  have : (Finset.univ.filter fun m => us (σ m) < us (σ i)).card = (Finset.univ.filter fun m => us m < us (σ i)).card := by
    refine Finset.card_bij (fun m _ => σ m) ?_ ?_ ?_
    · intro m hm; simpa using hm
    · intro m _ m' _ e; exact σ.injective e
    · intro m hm
      exact ⟨σ.symm m, by simpa using hm, by simp⟩
  rw [this]

theorem plain_comp (us : Fin n → Fin N) (σ : Equiv.Perm (Fin n)) : Plain (us ∘ σ) ↔ Plain us := by
  unfold Plain
  constructor
  · rintro ⟨h1, h2⟩
    refine ⟨fun m => ?_, ?_⟩
    · have := h1 (σ.symm m); simpa using this
    · intro a b e
      have := @h2 (σ.symm a) (σ.symm b) (by simpa using e)
      exact σ.symm.injective this
  · rintro ⟨h1, h2⟩
    exact ⟨fun m => h1 _, h2.comp σ.injective⟩

/-- Every set of positions of a given size is that of the smallest draws equally often. -/
theorem low_sym (c : Nat) (S S' : Finset (Fin n)) (hS : S.card = S'.card) :
    (Finset.univ.filter fun us : Fin n → Fin N => Plain us ∧ low c us = S).card = (Finset.univ.filter fun us : Fin n → Fin N => Plain us ∧ low c us = S').card := by
  classical
  let e : {x // x ∈ S'} ≃ {x // x ∈ S} := Finset.equivOfCardEq hS.symm
  let σ : Equiv.Perm (Fin n) := e.extendSubtype
  have hσ : ∀ i, σ i ∈ S ↔ i ∈ S' := by
    intro i
    constructor
    · intro h
      by_contra hn
      exact e.extendSubtype_not_mem i hn h
    · intro h; exact e.extendSubtype_mem i h
  refine Finset.card_bij (fun us _ => us ∘ σ) ?_ ?_ ?_
  · intro us hus
    simp only [Finset.mem_filter, Finset.mem_univ, true_and] at hus ⊢
    refine ⟨(plain_comp us σ).2 hus.1, ?_⟩
    ext i
    rw [low_comp, hus.2, hσ]
  · intro us _ us' _ h
    funext m
    have := congrFun h (σ.symm m)
    simpa using this
  · intro us hus
    simp only [Finset.mem_filter, Finset.mem_univ, true_and] at hus
    refine ⟨us ∘ σ.symm, ?_, by funext m; simp⟩
    simp only [Finset.mem_filter, Finset.mem_univ, true_and]
    refine ⟨(plain_comp us σ.symm).2 hus.1, ?_⟩
    ext i
    rw [low_comp, hus.2, ← hσ]; simp

theorem low_card (c : Nat) (us : Fin n → Fin N) (hp : Plain us) (hc : c ≤ n) : (low c us).card = c := by
  classical
  -- ranks are a permutation of `0, …, n - 1`
  have hrank : ∀ i : Fin n, (Finset.univ.filter fun m => us m < us i).card < n := by
    intro i
    have : (Finset.univ.filter fun m => us m < us i).card < (Finset.univ : Finset (Fin n)).card := by
      refine Finset.card_lt_card ?_
      rw [Finset.ssubset_univ_iff]
      intro h
      have := h ▸ Finset.mem_univ i
      simp at this
    simpa using this
  let r : Fin n → Fin n := fun i => ⟨_, hrank i⟩
  have hinj : Function.Injective r := by
    intro i j hij
    have hij' : (Finset.univ.filter fun m => us m < us i).card = (Finset.univ.filter fun m => us m < us j).card := congrArg Fin.val hij
    by_contra hne
    have mono : ∀ a b : Fin n, us a < us b → (Finset.univ.filter fun m => us m < us a).card < (Finset.univ.filter fun m => us m < us b).card := by
      intro a b hab
      refine Finset.card_lt_card ((Finset.ssubset_iff_of_subset ?_).2 ⟨a, by simpa using hab, by simp⟩)
      intro m hm
      simp only [Finset.mem_filter, Finset.mem_univ, true_and] at hm ⊢
      exact hm.trans hab
    rcases lt_trichotomy (us i) (us j) with h | h | h
    · have := mono _ _ h; omega
    · exact hne (hp.2 h)
    · have := mono _ _ h; omega
  have hbij : Function.Bijective r := Finite.injective_iff_bijective.1 hinj
  have e : (low c us).card = (Finset.univ.filter fun k : Fin n => (k : Nat) < c).card := by
    refine Finset.card_bij (fun i _ => r i) ?_ ?_ ?_
    · intro i hi
      unfold low at hi
      simpa [r] using hi
    · intro i _ j _ h; exact hinj h
    · intro k hk
      obtain ⟨i, rfl⟩ := hbij.2 k
      refine ⟨i, ?_, rfl⟩
      unfold low
      simpa [r] using hk
  rw [e]
  have : (Finset.univ.filter fun k : Fin n => (k : Nat) < c).card = (Finset.range c).card := by
    refine Finset.card_bij (fun k _ => (k : Nat)) ?_ ?_ ?_
    · intro k hk; simpa using hk
    · intro k _ k' _ h; exact Fin.ext h
    · intro k hk
      rw [Finset.mem_range] at hk
      exact ⟨⟨k, by omega⟩, by simpa using hk, rfl⟩
  rw [this, Finset.card_range]

/-- Counting plain draws by the set of the smallest. -/
theorem count_low (c : Nat) (hc : c ≤ n) (P : Finset (Fin n) → Prop) [DecidablePred P] :
    (Finset.univ.filter fun us : Fin n → Fin N => Plain us ∧ P (low c us)).card * n.choose c =
      ((Finset.powersetCard c Finset.univ).filter P).card * (Finset.univ.filter fun us : Fin n → Fin N => Plain us).card := by
  classical
  obtain ⟨S0, hS0⟩ : ∃ S0 : Finset (Fin n), S0.card = c := by
    obtain ⟨S0, -, h⟩ := Finset.exists_subset_card_eq (s := (Finset.univ : Finset (Fin n))) (n := c) (by simpa using hc)
    exact ⟨S0, h⟩
  have key : ∀ (Q : Finset (Fin n) → Prop) [DecidablePred Q], (Finset.univ.filter fun us : Fin n → Fin N => Plain us ∧ Q (low c us)).card =
      ((Finset.powersetCard c Finset.univ).filter Q).card * (Finset.univ.filter fun us : Fin n → Fin N => Plain us ∧ low c us = S0).card := by
    intro Q _
    rw [Finset.card_eq_sum_card_fiberwise (f := fun us => low c us) (t := (Finset.powersetCard c Finset.univ).filter Q)]
    · rw [Finset.sum_const_nat]
      intro S hS
      simp only [Finset.mem_filter, Finset.mem_powersetCard, Finset.subset_univ, true_and] at hS
      rw [Finset.filter_filter, ← low_sym c S S0 (by rw [hS.1, hS0])]
      congr 1
      ext us
      simp only [Finset.mem_filter, Finset.mem_univ, true_and]
      constructor
      · rintro ⟨⟨h1, _⟩, h3⟩; exact ⟨h1, h3⟩
      · rintro ⟨h1, h3⟩; exact ⟨⟨h1, h3 ▸ hS.2⟩, h3⟩
    · intro us hus
      simp only [Finset.coe_filter, Finset.mem_univ, true_and, Set.mem_setOf_eq] at hus
      simp only [Finset.coe_filter, Finset.mem_powersetCard, Finset.subset_univ, true_and, Set.mem_setOf_eq]
      exact ⟨low_card c us hus.1 hc, hus.2⟩
  have h1 := key P
  have h2 := key (fun _ => True)
  simp only [and_true, Finset.filter_true, Finset.card_powersetCard, Finset.card_univ, Fintype.card_fin] at h2
  rw [h1, h2]
  ring
end

end GoMetrics.EDR
