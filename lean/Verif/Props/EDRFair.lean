import Verif.Spec.EDRFair
import Verif.Props.EDR
import Mathlib.Data.Fintype.Pi
import Mathlib.Data.Fintype.Card
/-! # C89: a newer measurement is at least as likely as an older one to be in a decaying reservoir -/
namespace GoMetrics.EDR

theorem redraw_nil (h : List Op) : redraw h [] = h := by
  induction h with
  | nil => rfl
  | cons o h ih => cases o <;> simp [redraw, ih]

theorem readings_redraw (h : List Op) (us : List ℚ) : readings (redraw h us) = readings h := by
  induction h generalizing us with
  | nil => cases us <;> rfl
  | cons o h ih => cases o <;> cases us <;> simp [redraw, readings, ih]

theorem scaleTimes_redraw (h : List Op) (us : List ℚ) : scaleTimes (redraw h us) = scaleTimes h := by
  induction h generalizing us with
  | nil => cases us <;> rfl
  | cons o h ih => cases o <;> cases us <;> simp [redraw, scaleTimes, ih]

theorem length_redraw (h : List Op) (us : List ℚ) : (redraw h us).length = h.length := by
  induction h generalizing us with
  | nil => cases us <;> rfl
  | cons o h ih => cases o <;> cases us <;> simp [redraw, ih]

theorem length_seconds (h : List Op) : (seconds h).length = (recorded h).length := by
  induction h with
  | nil => rfl
  | cons o h ih => cases o <;> simp [seconds, recorded, ih]

theorem draws_redraw (h : List Op) (us : List ℚ) (hl : us.length = (recorded h).length) : draws (redraw h us) = us.map .fin := by
  induction h generalizing us with
  | nil => simp [recorded] at hl; subst hl; rfl
  | cons o h ih =>
    cases o with
    | updateN env v =>
      cases us with
      | nil => simp [recorded] at hl
      | cons u us => simp [redraw, draws, ih us (by simpa [recorded] using hl)]
    | getSnapshot t t' => simpa [redraw, draws] using ih us (by simpa [recorded] using hl)

theorem recs_redraw (h : List Op) (us : List ℚ) (hl : us.length = (recorded h).length) (m : Nat) :
    (recs (redraw h us))[m]? = (do
      let s ← (seconds h)[m]?
      let u ← us[m]?
      let v ← (recorded h)[m]?
      pure ⟨s, u, v⟩) := by
  induction h generalizing us m with
  | nil => simp [recorded] at hl; subst hl; rfl
  | cons o h ih =>
    cases o with
    | updateN env v =>
      cases us with
      | nil => simp [recorded] at hl
      | cons u us =>
        cases m with
        | zero => simp [redraw, recs, seconds, recorded, rat]
        | succ m => simpa [redraw, recs, seconds, recorded] using ih us (by simpa [recorded] using hl) m
    | getSnapshot t t' => simpa [redraw, recs, seconds, recorded] using ih us (by simpa [recorded] using hl) m

theorem prios_redraw (b : ℚ) (h : List Op) (us : List ℚ) (hl : us.length = (recorded h).length) :
    (recs (redraw h us)).map (Rec.prio b) = List.zipWith (fun s u => b ^ s / u) (seconds h) us := by
  induction h generalizing us with
  | nil => simp [recorded] at hl; subst hl; rfl
  | cons o h ih =>
    cases o with
    | updateN env v =>
      cases us with
      | nil => simp [recorded] at hl
      | cons u us => simp [redraw, recs, seconds, Rec.prio, rat, ih us (by simpa [recorded] using hl)]
    | getSnapshot t t' => simpa [redraw, recs, seconds] using ih us (by simpa [recorded] using hl)

theorem values_redraw (h : List Op) (us : List ℚ) : (recs (redraw h us)).map (·.value) = recorded h := by
  induction h generalizing us with
  | nil => cases us <;> rfl
  | cons o h ih =>
    have h0 := ih []
    rw [redraw_nil] at h0
    cases o <;> cases us <;> simp [redraw, recs, recorded, ih, h0]

/-- Being among the `k` highest is having fewer than `k` above. -/
theorem TopK.mem_iff {b : ℚ} {k : Int} {all kept : List Rec} (h : TopK b k all kept) {e : Rec} (he : e ∈ all) :
    e ∈ kept ↔ (all.countP (fun d => decide (e.prio b < d.prio b)) : Int) < k := by
  obtain ⟨dropped, hp, hlt⟩ := h.rest
  have hc := hp.countP_eq (fun d => decide (e.prio b < d.prio b))
  rw [List.countP_append] at hc
  constructor
  · intro hek
    have h0 : dropped.countP (fun d => decide (e.prio b < d.prio b)) = 0 := by
      rw [List.countP_eq_zero]
      intro d hd
      have := hlt d hd e hek
      simp only [decide_eq_true_eq, not_lt]; exact this.le
    have h1 : kept.countP (fun d => decide (e.prio b < d.prio b)) < kept.length := by
      rcases Nat.lt_or_ge (kept.countP (fun d => decide (e.prio b < d.prio b))) kept.length with g | g
      · exact g
      · have := List.countP_eq_length.1 (le_antisymm List.countP_le_length g) e hek
        simp at this
    have := h.size
    omega
  · intro hlt'
    by_contra hek
    have hed : e ∈ dropped := by
      have := hp.mem_iff.2 he
      rcases List.mem_append.1 this with g | g
      · exact absurd g hek
      · exact g
    have h1 : kept.countP (fun d => decide (e.prio b < d.prio b)) = kept.length :=
      List.countP_eq_length.2 fun d hd => by simpa using hlt e hed d hd
    have h2 := h.size
    have h3 : kept.length + dropped.length = all.length := by rw [← List.length_append]; exact hp.length_eq
    have h4 : 0 < dropped.length := List.length_pos_of_mem hed
    omega

theorem countP_ofFn {n : Nat} {α : Type} (g : Fin n → α) (f : α → Bool) :
    (List.ofFn g).countP f = (Finset.univ.filter (fun m => f (g m) = true)).card := by
  rw [List.ofFn_eq_map, List.countP_map, List.countP_eq_length_filter]
  rw [← List.toFinset_finRange n] 
  rw [← List.toFinset_filter, List.toFinset_card_of_nodup ((List.nodup_finRange n).filter _)]
  rfl

/-- The records of a history with given draws, by position. -/
theorem recs_ofFn (h : List Op) (us : Fin (recorded h).length → ℚ) :
    recs (redraw h (List.ofFn us)) = List.ofFn fun m => (⟨(seconds h)[m]'(by rw [length_seconds]; exact m.2), us m, (recorded h)[m]⟩ : Rec) := by
  apply List.ext_getElem?
  intro m
  rw [recs_redraw h _ (by simp)]
  by_cases hm : m < (recorded h).length
  · have hs : m < (seconds h).length := by rw [length_seconds]; exact hm
    simp [List.getElem?_ofFn, hm, hs]
  · have hs : ¬ m < (seconds h).length := by rw [length_seconds]; exact hm
    simp [List.getElem?_ofFn, hm, hs]

section
variable (A : Arith) (a b : ℚ) (hA : A.Exact a b) (size : Int) (hsz : 1 ≤ size) (time tick : Int) (h : List Op) (ht : InI64 time)
  (hr : ∀ t ∈ readings h, InI64 t) (hm : (time :: scaleTimes h).Pairwise (· ≤ ·)) (hv : (recorded h).Nodup)
  (hn : (h.length : Int) < 9223372036854775808)

include hA hsz ht hr hm hv hn

/-- A value is held exactly if fewer than `size` updates have a higher priority. -/
theorem held_iff (us : Fin (recorded h).length → ℚ) (hpos : ∀ m, 0 < us m) (hties : NoTies b h (List.ofFn us)) (i : Fin (recorded h).length) :
    (recorded h)[i] ∈ holding A size (.fin a) time tick (redraw h (List.ofFn us)) ↔
      ((Finset.univ.filter fun m : Fin (recorded h).length => b ^ (seconds h)[i]'(by rw [length_seconds]; exact i.2) / us i <
        b ^ (seconds h)[m]'(by rw [length_seconds]; exact m.2) / us m).card : Int) < size := by
  obtain ⟨kept, hk, hval⟩ := C64_top A a b hA size hsz time tick (redraw h (List.ofFn us)) ht (by rw [readings_redraw]; exact hr)
    (by rw [scaleTimes_redraw]; exact hm)
    (by
      rw [draws_redraw h _ (by simp)]
      intro u hu
      obtain ⟨q, hq, rfl⟩ := List.mem_map.1 hu
      obtain ⟨m, rfl⟩ := List.mem_ofFn.1 hq
      exact ⟨_, rfl, hpos m⟩)
    (by rw [prios_redraw b h _ (by simp)]; exact hties) (by rw [length_redraw]; exact hn)
  have hvs : holding A size (.fin a) time tick (redraw h (List.ofFn us)) = kept.map (·.value) := by
    unfold holding
    rw [hval, List.map_map]; rfl
  have hall := recs_ofFn h us
  set e : Rec := ⟨(seconds h)[i]'(by rw [length_seconds]; exact i.2), us i, (recorded h)[i]⟩ with he
  have hmem : e ∈ recs (redraw h (List.ofFn us)) := by rw [hall]; exact List.mem_ofFn.2 ⟨i, rfl⟩
  have h1 : (recorded h)[i] ∈ kept.map (·.value) ↔ e ∈ kept := by
    constructor
    · intro g
      obtain ⟨d, hd, hdv⟩ := List.mem_map.1 g
      have hd' := hk.mem hd
      rw [hall] at hd'
      obtain ⟨m, rfl⟩ := List.mem_ofFn.1 hd'
      have : m = i := Fin.ext ((List.Nodup.getElem_inj_iff hv).1 hdv)
      subst this
      exact hd
    · intro g; exact List.mem_map.2 ⟨e, g, rfl⟩
  rw [hvs, h1, hk.mem_iff hmem, hall, countP_ofFn]
  simp [Rec.prio, he]

/-- **C89.** Take any finite set `D` of sequences of draws for the updates of a history that is symmetric in the draws of two of the updates, the
`i`-th and the `j`-th. If the `j`-th was not recorded in an earlier second, then among the sequences of `D` at least as many leave the `j`-th
value in the reservoir as leave the `i`-th. -/
theorem C89_newer (D : Finset (Fin (recorded h).length → ℚ)) (hpos : ∀ us ∈ D, ∀ m, 0 < us m) (hties : ∀ us ∈ D, NoTies b h (List.ofFn us))
    (i j : Fin (recorded h).length)
    (hij : (seconds h)[i]'(by rw [length_seconds]; exact i.2) ≤ (seconds h)[j]'(by rw [length_seconds]; exact j.2))
    (hsym : ∀ us ∈ D, us ∘ Equiv.swap i j ∈ D) :
    (D.filter fun us => (recorded h)[i] ∈ holding A size (.fin a) time tick (redraw h (List.ofFn us))).card ≤
      (D.filter fun us => (recorded h)[j] ∈ holding A size (.fin a) time tick (redraw h (List.ofFn us))).card := by
  refine Finset.card_le_card_of_injOn (fun us => us ∘ Equiv.swap i j) ?_ ?_
  · intro us hus
    simp only [Finset.coe_filter, Set.mem_setOf_eq] at hus ⊢
    obtain ⟨hD, hi⟩ := hus
    refine ⟨hsym us hD, ?_⟩
    rw [held_iff A a b hA size hsz time tick h ht hr hm hv hn us (hpos us hD) (hties us hD)] at hi
    rw [held_iff A a b hA size hsz time tick h ht hr hm hv hn _ (hpos _ (hsym us hD)) (hties _ (hsym us hD))]
    refine lt_of_le_of_lt (Int.ofNat_le.2 (Finset.card_le_card_of_injOn (Equiv.swap i j) ?_ (Equiv.injective _).injOn)) hi
    intro m hm'
    simp only [Finset.coe_filter, Finset.mem_univ, true_and, Set.mem_setOf_eq, Function.comp_apply, Equiv.swap_apply_right] at hm' ⊢
    have hle : b ^ (seconds h)[i]'(by rw [length_seconds]; exact i.2) ≤ b ^ (seconds h)[j]'(by rw [length_seconds]; exact j.2) :=
      zpow_le_zpow_right₀ hA.base hij
    have pi := hpos us hD i
    have pj := hpos us hD j
    have h2 : b ^ (seconds h)[i]'(by rw [length_seconds]; exact i.2) / us i ≤ b ^ (seconds h)[j]'(by rw [length_seconds]; exact j.2) / us i :=
      div_le_div_of_nonneg_right hle pi.le
    by_cases e1 : m = j
    · subst e1
      simp at hm'
    · by_cases e2 : m = i
      · subst e2
        simp only [Equiv.swap_apply_left] at hm' ⊢
        have h3 : b ^ (seconds h)[m]'(by rw [length_seconds]; exact m.2) / us j ≤ b ^ (seconds h)[j]'(by rw [length_seconds]; exact j.2) / us j :=
          div_le_div_of_nonneg_right hle pj.le
        exact lt_of_le_of_lt h2 (lt_of_lt_of_le hm' h3)
      · rw [Equiv.swap_apply_of_ne_of_ne e2 e1] at hm' ⊢
        exact lt_of_le_of_lt h2 hm'
  · intro us _ us' _ heq
    funext m
    have := congrFun heq (Equiv.swap i j m)
    simpa using this

/-- **C89.** Measurements of the same second have the same chance. -/
theorem C89_same_second (D : Finset (Fin (recorded h).length → ℚ)) (hpos : ∀ us ∈ D, ∀ m, 0 < us m) (hties : ∀ us ∈ D, NoTies b h (List.ofFn us))
    (i j : Fin (recorded h).length)
    (hij : (seconds h)[i]'(by rw [length_seconds]; exact i.2) = (seconds h)[j]'(by rw [length_seconds]; exact j.2))
    (hsym : ∀ us ∈ D, us ∘ Equiv.swap i j ∈ D) :
    (D.filter fun us => (recorded h)[i] ∈ holding A size (.fin a) time tick (redraw h (List.ofFn us))).card =
      (D.filter fun us => (recorded h)[j] ∈ holding A size (.fin a) time tick (redraw h (List.ofFn us))).card :=
  le_antisymm (C89_newer A a b hA size hsz time tick h ht hr hm hv hn D hpos hties i j hij.le hsym)
    (C89_newer A a b hA size hsz time tick h ht hr hm hv hn D hpos hties j i hij.ge (by rw [Equiv.swap_comm]; exact hsym))

/-- **C89.** For draws without replacement from any set of numbers of which no two differ by a factor that is a power of `b` (so that no two
priorities can be equal): the newer of two measurements is in the reservoir at least as often as the older. -/
theorem C89_newer_draws (U : Finset ℚ) (hU : ∀ u ∈ U, 0 < u) (hb : ∀ u ∈ U, ∀ u' ∈ U, u ≠ u' → ∀ k : Int, u ≠ b ^ k * u')
    (i j : Fin (recorded h).length)
    (hij : (seconds h)[i]'(by rw [length_seconds]; exact i.2) ≤ (seconds h)[j]'(by rw [length_seconds]; exact j.2)) :
    let D := (Fintype.piFinset fun _ : Fin (recorded h).length => U).filter Function.Injective
    (D.filter fun us => (recorded h)[i] ∈ holding A size (.fin a) time tick (redraw h (List.ofFn us))).card ≤
      (D.filter fun us => (recorded h)[j] ∈ holding A size (.fin a) time tick (redraw h (List.ofFn us))).card := by
  intro D
  have hD : ∀ us, us ∈ D ↔ (∀ m, us m ∈ U) ∧ Function.Injective us := by
    intro us; simp [D, Fintype.mem_piFinset]
  have bpos : 0 < b := hA.pos
  refine C89_newer A a b hA size hsz time tick h ht hr hm hv hn D (fun us hus m => hU _ (((hD us).1 hus).1 m)) ?_ i j hij ?_
  · intro us hus
    obtain ⟨h1, h2⟩ := (hD us).1 hus
    have he : List.zipWith (fun s u => b ^ s / u) (seconds h) (List.ofFn us) =
        List.ofFn fun m : Fin (recorded h).length => b ^ (seconds h)[m]'(by rw [length_seconds]; exact m.2) / us m := by
      rw [← prios_redraw b h _ (by simp), recs_ofFn, List.map_ofFn]; rfl
    unfold NoTies
    rw [he, List.nodup_ofFn]
    intro m m' heq
    by_contra hne
    have hne' : us m ≠ us m' := fun e => hne (h2 e)
    have p1 := hU _ (h1 m)
    have p2 := hU _ (h1 m')
    apply hb _ (h1 m) _ (h1 m') hne' ((seconds h)[m]'(by rw [length_seconds]; exact m.2) - (seconds h)[m']'(by rw [length_seconds]; exact m'.2))
    simp only at heq
    rw [zpow_sub₀ bpos.ne']
    rw [div_eq_div_iff p1.ne' p2.ne'] at heq
    rw [div_mul_eq_mul_div, eq_div_iff (zpow_pos bpos _).ne']
    linarith
  · intro us hus
    obtain ⟨h1, h2⟩ := (hD us).1 hus
    exact (hD _).2 ⟨fun m => h1 _, h2.comp (Equiv.injective _)⟩
end

/-- Two measurements, 7 in second 1 and 9 in second 2, in a reservoir for one; three possible draws. -/
def pair : List Op := [.updateN ⟨0, 0, 1000, .fin 0⟩ 7, .getSnapshot 5 1500, .updateN ⟨0, 1500, 2000, .fin 0⟩ 9]

/-- Of the six sequences of different draws out of 1/3, 1/5, 1/7, one leaves the older and five the newer. -/
example :
    let D := (Fintype.piFinset fun _ : Fin (recorded pair).length => ({1 / 3, 1 / 5, 1 / 7} : Finset ℚ)).filter Function.Injective
    (D.filter fun us => (7 : Int) ∈ holding demoExact 1 (.fin 1) 0 0 (redraw pair (List.ofFn us))).card = 1 ∧
      (D.filter fun us => (9 : Int) ∈ holding demoExact 1 (.fin 1) 0 0 (redraw pair (List.ofFn us))).card = 5 := by
  decide +kernel

example : (recorded pair).Nodup ∧ ((0 : Int) :: scaleTimes pair).Pairwise (· ≤ ·) ∧ seconds pair = [1, 2] := by decide

/-- 1/3, 1/5 and 1/7 do not differ by powers of two. -/
example : ∀ u ∈ ({1 / 3, 1 / 5, 1 / 7} : Finset ℚ), ∀ u' ∈ ({1 / 3, 1 / 5, 1 / 7} : Finset ℚ), u ≠ u' → ∀ k : Int, u ≠ 2 ^ k * u' := by
  have key : ∀ k : Int, (k ≤ -2 → (2 : ℚ) ^ k ≤ 1 / 4) ∧ (2 ≤ k → (4 : ℚ) ≤ 2 ^ k) := by
    intro k
    constructor
    · intro hk
      have := zpow_le_zpow_right₀ (a := (2 : ℚ)) (by norm_num) hk
      norm_num at this ⊢; linarith
    · intro hk
      have := zpow_le_zpow_right₀ (a := (2 : ℚ)) (by norm_num) hk
      norm_num at this ⊢; linarith
  intro u hu u' hu' hne k he
  simp only [Finset.mem_insert, Finset.mem_singleton] at hu hu'
  have hk := key k
  rcases (by omega : k ≤ -2 ∨ k = -1 ∨ k = 0 ∨ k = 1 ∨ 2 ≤ k) with h | rfl | rfl | rfl | h <;>
    rcases hu with rfl | rfl | rfl <;> rcases hu' with rfl | rfl | rfl <;> first | exact hne rfl | (norm_num at he; done) | skip
  all_goals first
    | (have := hk.1 h; linarith)
    | (have := hk.2 h; linarith)

end GoMetrics.EDR
