import Verif.Proofs.EDRTop
import Verif.Proofs.EDRAccuracy
import Verif.Proofs.Marginals
import Verif.Props.EDRFair
/-! # Chances in float64 (for C115) -/
namespace GoMetrics
open Rounding

/-- A positive number of normal size is rounded by a factor close to 1. -/
theorem rnd_normal {q : ℚ} (h0 : 2 ^ (-1000 : Int) ≤ q) (h1 : q ≤ 2 ^ (1000 : Int)) :
    ∃ r, binary64.rnd q = .fin r ∧ q * (1 - hulp) ≤ r ∧ r ≤ q * (1 + hulp) := by
  have hpos : 0 < q := lt_of_lt_of_le (two_zpow_pos _) h0
  have hb1 : (2 : ℚ) ^ (-1000 : Int) ≤ 2 ^ (1000 : Int) := zpow_le_zpow_right₀ (by norm_num) (by norm_num)
  obtain ⟨r, e, -⟩ := rnd_err (q := q) (B := 2 ^ (1000 : Int)) (by rw [abs_of_pos hpos]; exact h1) hb1 le_rfl
  have hr : r = roundPos q := by
    rw [binary64_pos hpos] at e
    split at e
    · simp at e
    · exact (F64.fin.inj e).symm
  have key : |r - q| ≤ hulp * q := by
    rw [hr]
    refine (roundPos_err hpos).trans (max_le ?_ ?_)
    · unfold hulp; exact le_of_eq rfl
    · have h2 : (2 : ℚ) ^ (-1075 : Int) ≤ 2 ^ (-53 : Int) * 2 ^ (-1000 : Int) := by
        rw [← zpow_add₀ (by norm_num)]
        exact zpow_le_zpow_right₀ (by norm_num) (by norm_num)
      refine h2.trans ?_
      unfold hulp
      exact mul_le_mul_of_nonneg_left h0 (by positivity)
  rw [abs_le] at key
  refine ⟨r, e, ?_, ?_⟩ <;> linarith [key.1, key.2]

namespace Marginals
variable {n N : Nat}

/-- Two different draws, of which the second leaves only `c + 1` neighbouring choices for the first. -/
theorem tie_few {i j : Fin n} (hij : i ≠ j) (hN : 0 < N) (c : Nat) (P : Nat → Nat → Prop) [∀ a b, Decidable (P a b)]
    (hP : ∀ a a' b, a < N → a' < N → b < N → P a b → P a' b → a ≤ a' → a' ≤ a + c) :
    ((Finset.univ.filter fun us : Fin n → Fin N => P (us i) (us j)).card : ℚ) ≤ N ^ n * ((c + 1) / N) := by
  have h1 := two (N := N) hij (fun x => P x.1 x.2)
  have h2 : (Finset.univ.filter fun x : Fin N × Fin N => P x.1 x.2).card ≤ N * (c + 1) := by
    have e : (Finset.univ.filter fun x : Fin N × Fin N => P x.1 x.2).card = ∑ q : Fin N, (Finset.univ.filter fun p : Fin N => P p q).card := by
      rw [Finset.card_filter, Fintype.sum_prod_type_right]
      refine Finset.sum_congr rfl fun q _ => ?_
      rw [Finset.card_filter]
    rw [e]
    have : ∀ q : Fin N, (Finset.univ.filter fun p : Fin N => P p q).card ≤ c + 1 := by
      intro q
      by_cases he : (Finset.univ.filter fun p : Fin N => P p q).Nonempty
      · obtain ⟨m, hm, hmin⟩ := Finset.exists_min_image _ (fun p : Fin N => (p : Nat)) he
        have hm' := (Finset.mem_filter.1 hm).2
        have : (Finset.univ.filter fun p : Fin N => P p q).card ≤ (Finset.Icc (m : Nat) (m + c)).card := by
          refine Finset.card_le_card_of_injOn (fun p => (p : Nat)) ?_ (fun a _ b _ h => Fin.ext h)
          intro p hp
          have hp' := (Finset.mem_filter.1 (Finset.mem_coe.1 hp)).2
          have hle := hmin p (Finset.mem_coe.1 hp)
          simp only [Finset.coe_Icc, Set.mem_Icc]
          exact ⟨hle, hP m p q m.2 p.2 q.2 hm' hp' hle⟩
        rw [Nat.card_Icc] at this
        omega
      · rw [Finset.not_nonempty_iff_eq_empty.1 he]; simp
    refine (Finset.sum_le_sum fun q _ => this q).trans ?_
    rw [Finset.sum_const, Finset.card_univ, Fintype.card_fin, smul_eq_mul]
  have hN' : (0 : ℚ) < N := by exact_mod_cast hN
  have h3 : (((Finset.univ.filter fun us : Fin n → Fin N => P (us i) (us j)).card * (N * N) : Nat) : ℚ) ≤ ((N ^ n * (N * (c + 1)) : Nat) : ℚ) := by
    rw [h1]; exact_mod_cast Nat.mul_le_mul_left _ h2
  push_cast at h3
  have h4 : (N : ℚ) ^ n * (N * (c + 1)) = N ^ n * ((c + 1) / N) * (N * N) := by field_simp
  rw [h4] at h3
  exact le_of_mul_le_mul_right h3 (by positivity)

/-- If in every case of `P` that is not `Bad` at least `c` of the events in `J` happen, each of chance at most `t`. -/
theorem chance_le_real (hN : 0 < N) (P Bad : (Fin n → Fin N) → Prop) [DecidablePred P] [DecidablePred Bad] {ι : Type}
    (Q : ι → (Fin n → Fin N) → Prop) [∀ j, DecidablePred (Q j)] (J : Finset ι) (c : Nat) (hc : 0 < c) (t β : ℝ)
    (hQ : ∀ us, P us → ¬ Bad us → c ≤ (J.filter fun j => Q j us).card)
    (ht : ∀ j ∈ J, ((Finset.univ.filter fun us => Q j us).card : ℝ) ≤ (N : ℝ) ^ n * t)
    (hbad : ((Finset.univ.filter Bad).card : ℝ) ≤ (N : ℝ) ^ n * β) :
    ((EDR.chance n N P : ℚ) : ℝ) ≤ J.card / c * t + β := by
  classical
  have hN' : (0 : ℝ) < N := by exact_mod_cast hN
  have hP : (0 : ℝ) < (N : ℝ) ^ n := by positivity
  have hcpos : (0 : ℝ) < c := by exact_mod_cast hc
  have h1 := markov Q J ((Finset.univ.filter P).filter fun us => ¬ Bad us) c (by
    intro us hus
    rw [Finset.mem_filter, Finset.mem_filter] at hus
    exact hQ us hus.1.2 hus.2)
  have h2 : ((∑ j ∈ J, (Finset.univ.filter fun us => Q j us).card : Nat) : ℝ) ≤ J.card * ((N : ℝ) ^ n * t) := by
    push_cast
    refine (Finset.sum_le_sum ht).trans ?_
    rw [Finset.sum_const, nsmul_eq_mul]
  have hsplit : (Finset.univ.filter P).card ≤ ((Finset.univ.filter P).filter fun us => ¬ Bad us).card + (Finset.univ.filter Bad).card := by
    refine le_trans (Finset.card_le_card ?_) (Finset.card_union_le _ _)
    intro us hus
    rw [Finset.mem_union]
    by_cases ho : Bad us
    · exact .inr (Finset.mem_filter.2 ⟨Finset.mem_univ _, ho⟩)
    · exact .inl (Finset.mem_filter.2 ⟨hus, ho⟩)
  unfold EDR.chance
  push_cast
  rw [div_le_iff₀ hP]
  have h3 : (c : ℝ) * (((Finset.univ.filter P).filter fun us => ¬ Bad us).card : ℝ) ≤ J.card * ((N : ℝ) ^ n * t) := le_trans (by exact_mod_cast h1) h2
  have h4 : (((Finset.univ.filter P).filter fun us => ¬ Bad us).card : ℝ) ≤ J.card * ((N : ℝ) ^ n * t) / c := by
    rw [le_div_iff₀ hcpos, mul_comm]; exact h3
  have h5 : ((Finset.univ.filter P).card : ℝ) ≤ (((Finset.univ.filter P).filter fun us => ¬ Bad us).card : ℝ) + ((Finset.univ.filter Bad).card : ℝ) := by
    exact_mod_cast hsplit
  refine h5.trans ((add_le_add h4 hbad).trans (le_of_eq ?_))
  ring

end Marginals

namespace EDR
open WeightedSample Marginals

theorem samples_redraw (A : Arith) (alpha : F64) (L : Int) (h : List Op) (us : List ℚ) (hl : us.length = (recorded h).length) (m : Nat) :
    (samples A alpha L (redraw h us))[m]? = (do
      let s ← (seconds h)[m]?
      let u ← us[m]?
      let v ← (recorded h)[m]?
      pure (sampleOf A alpha L s (.fin u) v)) := by
  induction h generalizing us m with
  | nil => simp [recorded] at hl; subst hl; rfl
  | cons o h ih =>
    cases o with
    | updateN env v =>
      cases us with
      | nil => simp [recorded] at hl
      | cons u us =>
        cases m with
        | zero => simp [redraw, samples, seconds, recorded]
        | succ m => simpa [redraw, samples, seconds, recorded] using ih us (by simpa [recorded] using hl) m
    | getSnapshot t t' => simpa [redraw, samples, seconds, recorded] using ih us (by simpa [recorded] using hl) m

/-- The samples of a history with given draws, by position. -/
theorem samples_ofFn (A : Arith) (alpha : F64) (L : Int) (h : List Op) (us : Fin (recorded h).length → ℚ) :
    samples A alpha L (redraw h (List.ofFn us)) =
      List.ofFn fun m => sampleOf A alpha L ((seconds h)[m]'(by rw [length_seconds]; exact m.2)) (.fin (us m)) (recorded h)[m] := by
  apply List.ext_getElem?
  intro m
  rw [samples_redraw A alpha L h _ (by simp)]
  by_cases hm : m < (recorded h).length
  · have hs : m < (seconds h).length := by rw [length_seconds]; exact hm
    simp [List.getElem?_ofFn, hm, hs]
  · have hs : ¬ m < (seconds h).length := by rw [length_seconds]; exact hm
    simp [List.getElem?_ofFn, hm, hs]

theorem ticks_redraw (h : List Op) (us : List ℚ) : ticks (redraw h us) = ticks h := by
  induction h generalizing us with
  | nil => cases us <;> rfl
  | cons o h ih => cases o <;> cases us <;> simp [redraw, ticks, ih]

theorem distinct_ofFn {n : Nat} {f : Fin n → WeightedSample} (hf : ∀ m m', m ≠ m' → (f m).key.lt (f m').key ∨ (f m').key.lt (f m).key) : Distinct (List.ofFn f) := by
  unfold Distinct
  rw [List.pairwise_ofFn]
  intro a b hab
  exact hf a b (ne_of_lt hab)

end EDR
end GoMetrics
