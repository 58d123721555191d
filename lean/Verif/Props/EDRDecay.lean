import Verif.Spec.EDRDecay
import Verif.Props.EDRFair
import Verif.Proofs.Marginals
/-! # C114: how fast a decaying reservoir forgets -/
namespace GoMetrics.EDR
open Marginals

/-- A draw is zero, or two updates get the same priority. -/
def Odd (b : ℚ) (h : List Op) {N : Nat} (us : Fin (recorded h).length → Fin N) : Prop :=
  (∃ m, (us m : Nat) = 0) ∨ ∃ m m', m ≠ m' ∧ b ^ (seconds h)[m]'(by rw [length_seconds]; exact m.2) * ((us m' : Nat) : ℚ) =
    b ^ (seconds h)[m']'(by rw [length_seconds]; exact m'.2) * ((us m : Nat) : ℚ)

instance (b : ℚ) (h : List Op) {N : Nat} : DecidablePred (Odd b h (N := N)) := fun _ => inferInstanceAs (Decidable (_ ∨ _))

theorem odd_card (b : ℚ) (hb : 0 < b) (h : List Op) {N : Nat} (hN : 0 < N) :
    ((Finset.univ.filter (Odd b h (N := N))).card : ℚ) ≤ (N : ℚ) ^ (recorded h).length * ((recorded h).length ^ 2 / N) := by
  classical
  set n := (recorded h).length with hn
  have hpow : ∀ s : Int, b ^ s ≠ 0 := fun s => (zpow_pos hb s).ne'
  have h0 : (Finset.univ.filter (Odd b h (N := N))).card ≤
      (Finset.univ.filter fun us : Fin n → Fin N => ∃ m, (us m : Nat) = 0).card +
      (Finset.univ.filter fun us : Fin n → Fin N => ∃ m m' : Fin n, m ≠ m' ∧ b ^ (seconds h)[m]'(by rw [length_seconds]; exact m.2) * ((us m' : Nat) : ℚ) =
    b ^ (seconds h)[m']'(by rw [length_seconds]; exact m'.2) * ((us m : Nat) : ℚ)).card := by
    refine le_trans (Finset.card_le_card ?_) (Finset.card_union_le _ _)
    intro us hus
    simp only [Finset.mem_filter, Finset.mem_univ, true_and, Finset.mem_union] at hus ⊢
    exact hus
  have h1 := union_le (fun (m : Fin n) (us : Fin n → Fin N) => (us m : Nat) = 0) Finset.univ (Finset.univ.filter fun us : Fin n → Fin N => ∃ m, (us m : Nat) = 0)
    (fun us hus => by
      obtain ⟨m, hm⟩ := (Finset.mem_filter.1 hus).2
      exact ⟨m, Finset.mem_univ _, hm⟩) (N ^ n / N) (fun m _ => zero m hN)
  have h2 := union_le (fun (x : Fin n × Fin n) (us : Fin n → Fin N) => b ^ (seconds h)[x.1]'(by rw [length_seconds]; exact x.1.2) * ((us x.2 : Nat) : ℚ) =
      b ^ (seconds h)[x.2]'(by rw [length_seconds]; exact x.2.2) * ((us x.1 : Nat) : ℚ)) (Finset.univ.offDiag)
    (Finset.univ.filter fun us : Fin n → Fin N => ∃ m m' : Fin n, m ≠ m' ∧ b ^ (seconds h)[m]'(by rw [length_seconds]; exact m.2) * ((us m' : Nat) : ℚ) =
    b ^ (seconds h)[m']'(by rw [length_seconds]; exact m'.2) * ((us m : Nat) : ℚ))
    (fun us hus => by
      obtain ⟨m, m', hne, he⟩ := (Finset.mem_filter.1 hus).2
      exact ⟨(m, m'), by simpa using hne, he⟩) (N ^ n / N) (fun x hx => by
      refine tie (i := x.1) (j := x.2) (by simpa using hx) hN (fun p q => b ^ (seconds h)[x.1]'(by rw [length_seconds]; exact x.1.2) * (q : ℚ) =
        b ^ (seconds h)[x.2]'(by rw [length_seconds]; exact x.2.2) * (p : ℚ)) ?_
      intro p p' q hp hp'
      rw [hp] at hp'
      exact_mod_cast mul_left_cancel₀ (hpow _) hp')
  rw [Finset.card_univ, Fintype.card_fin] at h1
  rw [Finset.offDiag_card, Finset.card_univ, Fintype.card_fin] at h2
  have h3 : ((Finset.univ.filter (Odd b h (N := N))).card : ℚ) ≤ n * (N ^ n / N) + ((n * n - n : Nat) : ℚ) * (N ^ n / N) := by
    refine le_trans ?_ (add_le_add h1 h2)
    exact_mod_cast h0
  rw [Nat.cast_sub (Nat.le_mul_self n)] at h3
  refine h3.trans (le_of_eq ?_)
  push_cast
  ring

/-- If in every case of `P` that is not odd at least `c` of the events in `J` happen, each of chance at most `t`. -/
theorem chance_le (b : ℚ) (hb : 0 < b) (h : List Op) {N : Nat} (hN : 0 < N) (P : (Fin (recorded h).length → Fin N) → Prop) [DecidablePred P]
    (Q : Fin (recorded h).length → (Fin (recorded h).length → Fin N) → Prop) [∀ j, DecidablePred (Q j)] (J : Finset (Fin (recorded h).length)) (c : Nat) (hc : 0 < c) (t : ℚ)
    (hQ : ∀ us, P us → ¬ Odd b h us → c ≤ (J.filter fun j => Q j us).card)
    (ht : ∀ j ∈ J, ((Finset.univ.filter fun us => Q j us).card : ℚ) ≤ (N : ℚ) ^ (recorded h).length * t) :
    chance (recorded h).length N P ≤ J.card / c * t + (recorded h).length ^ 2 / N := by
  classical
  have hN' : (0 : ℚ) < N := by exact_mod_cast hN
  have hP : (0 : ℚ) < (N : ℚ) ^ (recorded h).length := by positivity
  have hcpos : (0 : ℚ) < c := by exact_mod_cast hc
  have h1 := markov Q J ((Finset.univ.filter P).filter fun us => ¬ Odd b h us) c (by
    intro us hus
    rw [Finset.mem_filter, Finset.mem_filter] at hus
    exact hQ us hus.1.2 hus.2)
  have h2 : ((∑ j ∈ J, (Finset.univ.filter fun us => Q j us).card : Nat) : ℚ) ≤ J.card * ((N : ℚ) ^ (recorded h).length * t) := by
    push_cast
    refine (Finset.sum_le_sum ht).trans ?_
    rw [Finset.sum_const, nsmul_eq_mul]
  have hbad := odd_card b hb h hN
  have hsplit : (Finset.univ.filter P).card ≤ ((Finset.univ.filter P).filter fun us => ¬ Odd b h us).card + (Finset.univ.filter (Odd b h (N := N))).card := by
    refine le_trans (Finset.card_le_card ?_) (Finset.card_union_le _ _)
    intro us hus
    rw [Finset.mem_union]
    by_cases ho : Odd b h us
    · exact .inr (Finset.mem_filter.2 ⟨Finset.mem_univ _, ho⟩)
    · exact .inl (Finset.mem_filter.2 ⟨hus, ho⟩)
  unfold chance
  rw [div_le_iff₀ hP]
  have h3 : (c : ℚ) * (((Finset.univ.filter P).filter fun us => ¬ Odd b h us).card : ℚ) ≤ J.card * ((N : ℚ) ^ (recorded h).length * t) := le_trans (by exact_mod_cast h1) h2
  have h4 : (((Finset.univ.filter P).filter fun us => ¬ Odd b h us).card : ℚ) ≤ J.card * ((N : ℚ) ^ (recorded h).length * t) / c := by
    rw [le_div_iff₀ hcpos, mul_comm]; exact h3
  have h5 : ((Finset.univ.filter P).card : ℚ) ≤ (((Finset.univ.filter P).filter fun us => ¬ Odd b h us).card : ℚ) + ((Finset.univ.filter (Odd b h (N := N))).card : ℚ) := by
    exact_mod_cast hsplit
  refine h5.trans ((add_le_add h4 hbad).trans (le_of_eq ?_))
  ring

/-- If `j` is at least `d` seconds newer than `i` and yet has no higher priority. -/
theorem beaten (b : ℚ) (hb : 1 ≤ b) {i j : Int} {d : Nat} (hd : i + d ≤ j) {u v : ℚ} (hv : 0 ≤ v) (hlt : b ^ j * v ≤ b ^ i * u) : v ≤ 1 / b ^ d * u := by
  have bpos : 0 < b := lt_of_lt_of_le one_pos hb
  have h1 : b ^ i * b ^ d ≤ b ^ j := by
    rw [← zpow_natCast, ← zpow_add₀ bpos.ne']
    exact zpow_le_zpow_right₀ hb hd
  have h2 : b ^ i * (b ^ d * v) ≤ b ^ i * u := by
    refine le_trans ?_ hlt
    rw [← mul_assoc]
    exact mul_le_mul_of_nonneg_right h1 hv
  have h3 := le_of_mul_le_mul_left h2 (zpow_pos bpos _)
  rw [div_mul_eq_mul_div, one_mul, le_div_iff₀ (by positivity), mul_comm]
  exact h3

/-- Draws that are not odd give different priorities. -/
theorem noTies_grid (b : ℚ) (h : List Op) {N : Nat} (hN : 0 < N) (us : Fin (recorded h).length → Fin N) (ho : ¬ Odd b h us) :
    (∀ m, 0 < ((us m : Nat) : ℚ) / N) ∧ NoTies b h (List.ofFn fun m => ((us m : Nat) : ℚ) / N) := by
  have hN' : (0 : ℚ) < N := by exact_mod_cast hN
  unfold Odd at ho
  push Not at ho
  obtain ⟨h1, h2⟩ := ho
  have hu : ∀ m, (0 : ℚ) < ((us m : Nat) : ℚ) := fun m => by exact_mod_cast Nat.pos_of_ne_zero (h1 m)
  have hp : ∀ m, 0 < ((us m : Nat) : ℚ) / N := fun m => div_pos (hu m) hN'
  refine ⟨hp, ?_⟩
  have he : List.zipWith (fun s u => b ^ s / u) (seconds h) (List.ofFn fun m => ((us m : Nat) : ℚ) / N) =
      List.ofFn fun m : Fin (recorded h).length => b ^ (seconds h)[m]'(by rw [length_seconds]; exact m.2) / (((us m : Nat) : ℚ) / N) := by
    rw [← prios_redraw b h _ (by simp), recs_ofFn, List.map_ofFn]; rfl
  unfold NoTies
  rw [he, List.nodup_ofFn]
  intro m m' heq
  by_contra hne
  refine h2 m m' hne ?_
  simp only at heq
  rw [div_eq_div_iff (hp m).ne' (hp m').ne', mul_div_assoc', mul_div_assoc', div_left_inj' hN'.ne'] at heq
  exact heq

section
variable (A : Arith) (a b : ℚ) (hA : A.Exact a b) (size : Int) (hsz : 1 ≤ size) (time tick : Int) (h : List Op) (ht : InI64 time)
  (hr : ∀ t ∈ readings h, InI64 t) (hm : (time :: scaleTimes h).Pairwise (· ≤ ·)) (hv : (recorded h).Nodup)
  (hn : (h.length : Int) < 9223372036854775808) (N : Nat) (hN : 0 < N)

include hA hsz ht hr hm hv hn hN

/-- With draws that are not odd: a value is held exactly if fewer than `size` updates have a higher priority. -/
theorem held_grid (us : Fin (recorded h).length → Fin N) (ho : ¬ Odd b h us) (i : Fin (recorded h).length) :
    (recorded h)[i] ∈ holding A size (.fin a) time tick (redraw h (gridDraws us)) ↔
      ((Finset.univ.filter fun m : Fin (recorded h).length => b ^ (seconds h)[i]'(by rw [length_seconds]; exact i.2) * ((us m : Nat) : ℚ) <
        b ^ (seconds h)[m]'(by rw [length_seconds]; exact m.2) * ((us i : Nat) : ℚ)).card : Int) < size := by
  have bpos : 0 < b := hA.pos
  have hN' : (0 : ℚ) < N := by exact_mod_cast hN
  obtain ⟨hp, hties⟩ := noTies_grid b h hN us ho
  have key := held_iff A a b hA size hsz time tick h ht hr hm hv hn (fun m => ((us m : Nat) : ℚ) / N) hp hties i
  unfold gridDraws
  rw [key]
  have e : ∀ m : Fin (recorded h).length, (b ^ (seconds h)[i]'(by rw [length_seconds]; exact i.2) / (((us i : Nat) : ℚ) / N) <
      b ^ (seconds h)[m]'(by rw [length_seconds]; exact m.2) / (((us m : Nat) : ℚ) / N)) ↔
      b ^ (seconds h)[i]'(by rw [length_seconds]; exact i.2) * ((us m : Nat) : ℚ) < b ^ (seconds h)[m]'(by rw [length_seconds]; exact m.2) * ((us i : Nat) : ℚ) := by
    intro m
    rw [div_lt_div_iff₀ (hp i) (hp m), mul_div_assoc', mul_div_assoc', div_lt_div_iff_of_pos_right hN']
  simp only [e]

/-- **C114.** A measurement that at least `size` others are at least `d` seconds newer than, `newer` of them in all: its chance of still being in the reservoir is at most
`newer / (2 (newer - size + 1))` times `b ^ -d`, where `b = e^alpha`, and a term for draws of zero and ties. -/
theorem _root_.GoMetrics.C114_old (i : Fin (recorded h).length) (newer : Finset (Fin (recorded h).length)) (hi : i ∉ newer) (d : Nat)
    (hd : ∀ j ∈ newer, (seconds h)[i]'(by rw [length_seconds]; exact i.2) + d ≤ (seconds h)[j]'(by rw [length_seconds]; exact j.2)) (hnew : size ≤ newer.card) :
    chance (recorded h).length N (fun us => (recorded h)[i] ∈ holding A size (.fin a) time tick (redraw h (gridDraws us))) ≤
      newer.card / (2 * (newer.card - size + 1)) * (1 / b ^ d) + (recorded h).length ^ 2 / N := by
  classical
  have bpos : 0 < b := hA.pos
  obtain ⟨c, hc⟩ : ∃ c : Nat, (c : Int) = newer.card - size + 1 := ⟨(newer.card - size + 1).toNat, by omega⟩
  have hcq : ((newer.card : ℚ) - size + 1) = c := by
    have := congrArg (Int.cast (R := ℚ)) hc
    push_cast at this
    linarith
  have key := chance_le b bpos h hN (fun us => (recorded h)[i] ∈ holding A size (.fin a) time tick (redraw h (gridDraws us)))
    (fun j us => 0 < (us i : Nat) ∧ ((us i : Nat) : ℚ) ≤ 1 / b ^ d * (us j : Nat)) newer c (by omega) (1 / b ^ d / 2) (by
      intro us hheld hodd
      rw [held_grid A a b hA size hsz time tick h ht hr hm hv hn N hN us hodd i] at hheld
      have hui : 0 < (us i : Nat) := Nat.pos_of_ne_zero fun e => hodd (.inl ⟨i, e⟩)
      have hsub : newer.card ≤ (newer.filter fun j => 0 < (us i : Nat) ∧ ((us i : Nat) : ℚ) ≤ 1 / b ^ d * (us j : Nat)).card +
          (Finset.univ.filter fun m : Fin (recorded h).length => b ^ (seconds h)[i]'(by rw [length_seconds]; exact i.2) * ((us m : Nat) : ℚ) <
          b ^ (seconds h)[m]'(by rw [length_seconds]; exact m.2) * ((us i : Nat) : ℚ)).card := by
        refine le_trans (Finset.card_le_card ?_) (Finset.card_union_le _ _)
        intro j hj
        rw [Finset.mem_union, Finset.mem_filter, Finset.mem_filter]
        by_cases hlt : b ^ (seconds h)[i]'(by rw [length_seconds]; exact i.2) * ((us j : Nat) : ℚ) < b ^ (seconds h)[j]'(by rw [length_seconds]; exact j.2) * ((us i : Nat) : ℚ)
        · exact .inr ⟨Finset.mem_univ _, hlt⟩
        · exact .inl ⟨hj, hui, beaten b hA.base (hd j hj) (by positivity) (not_lt.1 hlt)⟩
      omega) (by
      intro j hj
      exact beats (i := i) (j := j) (fun e => hi (e ▸ hj)) hN _ (by positivity))
  refine key.trans (le_of_eq ?_)
  rw [hcq]
  ring

/-- **C114.** So if at least twice as many others are `d` seconds newer as the reservoir has places, the chance is at most `e^(-alpha d)` (and that term). -/
theorem _root_.GoMetrics.C114_old_twice (i : Fin (recorded h).length) (newer : Finset (Fin (recorded h).length)) (hi : i ∉ newer) (d : Nat)
    (hd : ∀ j ∈ newer, (seconds h)[i]'(by rw [length_seconds]; exact i.2) + d ≤ (seconds h)[j]'(by rw [length_seconds]; exact j.2)) (hnew : 2 * size ≤ newer.card) :
    chance (recorded h).length N (fun us => (recorded h)[i] ∈ holding A size (.fin a) time tick (redraw h (gridDraws us))) ≤ 1 / b ^ d + (recorded h).length ^ 2 / N := by
  have bpos : 0 < b := hA.pos
  refine (C114_old A a b hA size hsz time tick h ht hr hm hv hn N hN i newer hi d hd (by omega)).trans (add_le_add ?_ le_rfl)
  have h1 : (2 * size : ℚ) ≤ newer.card := by exact_mod_cast hnew
  have h2 : (1 : ℚ) ≤ size := by exact_mod_cast hsz
  have h3 : (newer.card : ℚ) / (2 * (newer.card - size + 1)) ≤ 1 := by
    rw [div_le_one (by linarith)]
    linarith
  have h4 : (0 : ℚ) ≤ 1 / b ^ d := by positivity
  calc _ ≤ 1 * (1 / b ^ d) := mul_le_mul_of_nonneg_right h3 h4
    _ = _ := one_mul _

/-- **C114.** A measurement that all but fewer than `size` others are at least `d` seconds older than - `older` of them - is in the reservoir, except with a chance of at most
`older / (2 (size - others))` times `b ^ -d`, where `others` are the rest, and that term. -/
theorem _root_.GoMetrics.C114_new (j : Fin (recorded h).length) (older : Finset (Fin (recorded h).length)) (hj : j ∉ older) (d : Nat)
    (hd : ∀ i ∈ older, (seconds h)[i]'(by rw [length_seconds]; exact i.2) + d ≤ (seconds h)[j]'(by rw [length_seconds]; exact j.2)) (others : Nat)
    (ho : (recorded h).length = 1 + older.card + others) (hs : (others : Int) < size) :
    chance (recorded h).length N (fun us => (recorded h)[j] ∉ holding A size (.fin a) time tick (redraw h (gridDraws us))) ≤
      older.card / (2 * (size - others)) * (1 / b ^ d) + (recorded h).length ^ 2 / N := by
  classical
  have bpos : 0 < b := hA.pos
  obtain ⟨c, hc⟩ : ∃ c : Nat, (c : Int) = size - others := ⟨(size - others).toNat, by omega⟩
  have hcq : ((size : ℚ) - others) = c := by
    have := congrArg (Int.cast (R := ℚ)) hc
    push_cast at this
    linarith
  have key := chance_le b bpos h hN (fun us => (recorded h)[j] ∉ holding A size (.fin a) time tick (redraw h (gridDraws us)))
    (fun i us => 0 < (us i : Nat) ∧ ((us i : Nat) : ℚ) ≤ 1 / b ^ d * (us j : Nat)) older c (by omega) (1 / b ^ d / 2) (by
      intro us hheld hodd
      rw [held_grid A a b hA size hsz time tick h ht hr hm hv hn N hN us hodd j, not_lt] at hheld
      have hu : ∀ i, 0 < (us i : Nat) := fun i => Nat.pos_of_ne_zero fun e => hodd (.inl ⟨i, e⟩)
      have hsub : (Finset.univ.filter fun m : Fin (recorded h).length => b ^ (seconds h)[j]'(by rw [length_seconds]; exact j.2) * ((us m : Nat) : ℚ) <
          b ^ (seconds h)[m]'(by rw [length_seconds]; exact m.2) * ((us j : Nat) : ℚ)).card ≤
          (older.filter fun i => 0 < (us i : Nat) ∧ ((us i : Nat) : ℚ) ≤ 1 / b ^ d * (us j : Nat)).card + ((Finset.univ.erase j) \ older).card := by
        refine le_trans (Finset.card_le_card ?_) (Finset.card_union_le _ _)
        intro m hm'
        rw [Finset.mem_filter] at hm'
        rw [Finset.mem_union, Finset.mem_filter, Finset.mem_sdiff, Finset.mem_erase]
        by_cases ho : m ∈ older
        · exact .inl ⟨ho, hu m, beaten b hA.base (hd m ho) (by positivity) hm'.2.le⟩
        · refine .inr ⟨⟨?_, Finset.mem_univ _⟩, ho⟩
          rintro rfl
          exact lt_irrefl _ hm'.2
      have hrest : ((Finset.univ.erase j) \ older).card = others := by
        rw [Finset.card_sdiff_of_subset (by
          intro m hm'
          rw [Finset.mem_erase]
          exact ⟨fun e => hj (e ▸ hm'), Finset.mem_univ _⟩), Finset.card_erase_of_mem (Finset.mem_univ _), Finset.card_univ, Fintype.card_fin]
        omega
      omega) (by
      intro i hi
      exact beats (i := i) (j := j) (fun e => hj (e ▸ hi)) hN _ (by positivity))
  refine key.trans (le_of_eq ?_)
  rw [hcq]
  ring

/-- **C114.** Of two measurements the one that was not made in an earlier second has at least the chance of the other (up to such a term): C89 for independent draws, of which two may be
equal. -/
theorem _root_.GoMetrics.C114_newer (i j : Fin (recorded h).length)
    (hij : (seconds h)[i]'(by rw [length_seconds]; exact i.2) ≤ (seconds h)[j]'(by rw [length_seconds]; exact j.2)) :
    chance (recorded h).length N (fun us => (recorded h)[i] ∈ holding A size (.fin a) time tick (redraw h (gridDraws us))) ≤
      chance (recorded h).length N (fun us => (recorded h)[j] ∈ holding A size (.fin a) time tick (redraw h (gridDraws us))) + 2 * (recorded h).length ^ 2 / N := by
  classical
  have bpos : 0 < b := hA.pos
  have hN' : (0 : ℚ) < N := by exact_mod_cast hN
  let φ : (Fin (recorded h).length → Fin N) → (Fin (recorded h).length → ℚ) := fun us m => ((us m : Nat) : ℚ) / N
  have hφ : Function.Injective φ := by
    intro us us' e
    funext m
    have := congrFun e m
    simp only [φ] at this
    rw [div_left_inj' hN'.ne'] at this
    exact Fin.ext (by exact_mod_cast this)
  let G : Finset (Fin (recorded h).length → Fin N) := Finset.univ.filter fun us => ¬ Odd b h us ∧ ¬ Odd b h (us ∘ Equiv.swap i j)
  have key := C89_newer A a b hA size hsz time tick h ht hr hm hv hn (G.image φ)
    (by
      intro us hus
      obtain ⟨us, hG, rfl⟩ := Finset.mem_image.1 hus
      exact (noTies_grid b h hN us (Finset.mem_filter.1 hG).2.1).1)
    (by
      intro us hus
      obtain ⟨us, hG, rfl⟩ := Finset.mem_image.1 hus
      exact (noTies_grid b h hN us (Finset.mem_filter.1 hG).2.1).2) i j hij
    (by
      intro us hus
      obtain ⟨us, hG, rfl⟩ := Finset.mem_image.1 hus
      refine Finset.mem_image.2 ⟨us ∘ Equiv.swap i j, ?_, rfl⟩
      obtain ⟨-, h1, h2⟩ := Finset.mem_filter.1 hG
      refine Finset.mem_filter.2 ⟨Finset.mem_univ _, h2, ?_⟩
      have e : (us ∘ Equiv.swap i j) ∘ Equiv.swap i j = us := by funext m; simp
      rw [e]; exact h1)
  rw [Finset.filter_image, Finset.filter_image, Finset.card_image_of_injective _ hφ, Finset.card_image_of_injective _ hφ] at key
  have hbad := odd_card b bpos h hN
  have hswap : (Finset.univ.filter fun us : Fin (recorded h).length → Fin N => Odd b h (us ∘ Equiv.swap i j)).card ≤ (Finset.univ.filter (Odd b h (N := N))).card := by
    refine Finset.card_le_card_of_injOn (fun us => us ∘ Equiv.swap i j) ?_ ?_
    · intro us hus
      simpa using hus
    · intro us _ us' _ e
      have := congrArg (fun f : Fin (recorded h).length → Fin N => f ∘ Equiv.swap i j) e
      funext m
      simpa using congrFun this m
  have hsplit : (Finset.univ.filter fun us : Fin (recorded h).length → Fin N => (recorded h)[i] ∈ holding A size (.fin a) time tick (redraw h (gridDraws us))).card ≤
      (G.filter fun us => (recorded h)[i] ∈ holding A size (.fin a) time tick (redraw h (gridDraws us))).card +
      ((Finset.univ.filter (Odd b h (N := N))).card + (Finset.univ.filter fun us : Fin (recorded h).length → Fin N => Odd b h (us ∘ Equiv.swap i j)).card) := by
    refine le_trans (Finset.card_le_card ?_) ((Finset.card_union_le _ _).trans (Nat.add_le_add_left (Finset.card_union_le _ _) _))
    intro us hus
    have hus := (Finset.mem_filter.1 hus).2
    rw [Finset.mem_union, Finset.mem_union]
    by_cases h1 : Odd b h us
    · exact .inr (.inl (Finset.mem_filter.2 ⟨Finset.mem_univ _, h1⟩))
    · by_cases h2 : Odd b h (us ∘ Equiv.swap i j)
      · exact .inr (.inr (Finset.mem_filter.2 ⟨Finset.mem_univ _, h2⟩))
      · exact .inl (Finset.mem_filter.2 ⟨Finset.mem_filter.2 ⟨Finset.mem_univ _, h1, h2⟩, hus⟩)
  have hj : (G.filter fun us => (recorded h)[j] ∈ holding A size (.fin a) time tick (redraw h (gridDraws us))).card ≤
      (Finset.univ.filter fun us : Fin (recorded h).length → Fin N => (recorded h)[j] ∈ holding A size (.fin a) time tick (redraw h (gridDraws us))).card :=
    Finset.card_le_card (Finset.filter_subset_filter _ (Finset.subset_univ _))
  have hall : (Finset.univ.filter fun us : Fin (recorded h).length → Fin N => (recorded h)[i] ∈ holding A size (.fin a) time tick (redraw h (gridDraws us))).card ≤
      (Finset.univ.filter fun us : Fin (recorded h).length → Fin N => (recorded h)[j] ∈ holding A size (.fin a) time tick (redraw h (gridDraws us))).card +
      2 * (Finset.univ.filter (Odd b h (N := N))).card := by
    have key' : (G.filter fun us => (recorded h)[i] ∈ holding A size (.fin a) time tick (redraw h (gridDraws us))).card ≤
      (G.filter fun us => (recorded h)[j] ∈ holding A size (.fin a) time tick (redraw h (gridDraws us))).card := key
    omega
  have hP : (0 : ℚ) < (N : ℚ) ^ (recorded h).length := by positivity
  unfold chance
  rw [div_le_iff₀ hP, add_mul, div_mul_cancel₀ _ hP.ne']
  have hq : ((Finset.univ.filter fun us : Fin (recorded h).length → Fin N => (recorded h)[i] ∈ holding A size (.fin a) time tick (redraw h (gridDraws us))).card : ℚ) ≤
      ((Finset.univ.filter fun us : Fin (recorded h).length → Fin N => (recorded h)[j] ∈ holding A size (.fin a) time tick (redraw h (gridDraws us))).card : ℚ) +
      2 * ((Finset.univ.filter (Odd b h (N := N))).card : ℚ) := by exact_mod_cast hall
  refine hq.trans (add_le_add le_rfl ?_)
  have := mul_le_mul_of_nonneg_left hbad (show (0 : ℚ) ≤ 2 by norm_num)
  refine this.trans (le_of_eq ?_)
  ring
end

/-- One measurement in second 1 and two in second 3, in a reservoir for one. -/
def three : List Op := [.updateN ⟨0, 0, 1000, .fin 0⟩ 7, .updateN ⟨0, 1500, 3000, .fin 0⟩ 9, .updateN ⟨0, 1500, 3000, .fin 0⟩ 11]

example : (recorded three).Nodup ∧ ((0 : Int) :: scaleTimes three).Pairwise (· ≤ ·) ∧ seconds three = [1, 3, 3] ∧ (recorded three).length = 3 := by decide

/-- The bound for the first of them, with the draws of `rand.Float64` and `b = 2`. -/
example : chance 3 (2 ^ 53) (fun us => (7 : Int) ∈ holding demoExact 1 (.fin 1) 0 0 (redraw three (gridDraws us))) ≤ 1 / 4 + 9 / 2 ^ 53 := by
  have := GoMetrics.C114_old_twice demoExact 1 2 demoExact_exact 1 (by decide) 0 0 three (by decide) (by decide) (by decide) (by decide) (by decide) (2 ^ 53) (by norm_num)
    (0 : Fin 3) ({1, 2} : Finset (Fin 3)) (show (0 : Fin 3) ∉ ({1, 2} : Finset (Fin 3)) by decide) 2
    (show ∀ j ∈ ({1, 2} : Finset (Fin 3)), [(1 : Int), 3, 3][(0 : Fin 3)] + ((2 : Nat) : Int) ≤ [(1 : Int), 3, 3][j] by decide) (by decide)
  refine this.trans (le_of_eq ?_)
  have e : (recorded three).length = 3 := by decide
  rw [e]
  norm_num

/-- With draws from only four numbers, counted: 16 of 64 leave it. -/
example : (Finset.univ.filter fun us : Fin 3 → Fin 4 => (7 : Int) ∈ holding demoExact 1 (.fin 1) 0 0 (redraw three (gridDraws us))).card = 16 := by
  decide +kernel

end GoMetrics.EDR
