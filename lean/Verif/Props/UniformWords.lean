import Verif.Props.UniformFair
import Verif.Spec.Words
import Mathlib.Data.Nat.Choose.Basic
import Mathlib.Order.Interval.Finset.Nat
/-! # C52 over the words of the random source -/
namespace GoMetrics
open UniformReservoir

/-- The stream `vs` recorded by a reservoir of capacity `c`: the first `c` updates draw nothing, the others see the rows of the table `t`. -/
def worded (c : Nat) (vs : List Int) (t : List (List Nat)) : List (Int × List Int) :=
  List.zip vs (List.replicate c [] ++ t.map (fun row => row.map fun (r : Nat) => (r : Int)))

/-- All updates of a history return. -/
def returns (u : UniformReservoir) : List (Int × List Int) → Bool
  | [] => true
  | e :: h => match u.updateN e.2 e.1 with
    | .ok u' => returns u' h
    | .panic _ => false

namespace UniformWords
open UniformFair

/-- Did it return? -/
def isOk {α : Type} : Res α → Bool
  | .ok _ => true
  | .panic _ => false

theorem returns_snoc (u : UniformReservoir) (h : List (Int × List Int)) (e : Int × List Int) :
    returns u (h ++ [e]) = (returns u h && isOk ((u.run h).updateN e.2 e.1)) := by
  induction h generalizing u with
  | nil =>
    simp only [List.nil_append, returns, run, List.foldl_nil, Bool.true_and]
    cases u.updateN e.2 e.1 <;> rfl
  | cons a h ih =>
    simp only [List.cons_append, returns, run, List.foldl_cons]
    cases ha : u.updateN a.2 a.1 with
    | ok u' => exact ih u'
    | panic u' => rfl

/-- How many of the lists of `k` words make the loop stop at a given position. -/
def stopping (M n : Nat) : Nat → Nat
  | 0 => 0
  | k + 1 => M / n * M ^ k + (M - M / n * n) * stopping M n k

theorem countP_flatMap_map {α β γ : Type} (l : List α) (m : List β) (f : α → β → γ) (P : γ → Bool) :
    (l.flatMap fun a => m.map (f a)).countP P = (l.map fun a => m.countP fun b => P (f a b)).sum := by
  rw [List.countP_flatMap]
  congr 1
  refine List.map_congr_left fun a _ => ?_
  simp only [Function.comp, List.countP_map]
  rfl

theorem countP_and_const {α : Type} (l : List α) (b : Bool) (P : α → Bool) : l.countP (fun a => b && P a) = if b then l.countP P else 0 := by
  cases b <;> simp

theorem countP_range_filter (M : Nat) (P : Nat → Bool) : (List.range M).countP P = ((Finset.range M).filter fun r => P r = true).card := by
  rw [List.countP_eq_length_filter]
  have : (Finset.range M).filter (fun r => P r = true) = ((List.range M).filter P).toFinset := by
    ext x; simp
  rw [this, List.toFinset_card_of_nodup (List.nodup_range.filter _)]

theorem pos_cons (n : Nat) (r : Nat) (w : List Nat) : nextRandomPos n ((r :: w).map (fun (x : Nat) => (x : Int))) =
    if nextRandomPos n [(r : Int)] = none then nextRandomPos n (w.map (fun (x : Nat) => (x : Int))) else nextRandomPos n [(r : Int)] := by
  simp only [List.map_cons, nextRandomPos]
  by_cases h : accepts n r = true
  · simp [h]
  · simp [h]

theorem card_stop (n : Nat) (hn : 1 ≤ n) (hn' : n < 2 ^ 63) :
    ((Finset.range (2 ^ 63)).filter (fun r : Nat => nextRandomPos n [(r : Int)] = none)).card = 2 ^ 63 - 2 ^ 63 / n * n := by
  have e63 : (2 : Nat) ^ 63 = 9223372036854775808 := by norm_num
  rw [e63] at hn' ⊢
  have he : (Finset.range 9223372036854775808).filter (fun r : Nat => nextRandomPos n [(r : Int)] = none) =
      Finset.Ico (9223372036854775808 / n * n) 9223372036854775808 := by
    ext r
    rw [Finset.mem_filter, Finset.mem_range, Finset.mem_Ico]
    constructor
    · rintro ⟨hr, h⟩
      refine ⟨?_, hr⟩
      have ha := accepts_iff hn hn' hr
      simp only [nextRandomPos] at h
      by_contra hc
      rw [if_pos (ha.2 (by omega))] at h
      simp at h
    · rintro ⟨h, hr⟩
      refine ⟨hr, ?_⟩
      have ha := accepts_iff hn hn' hr
      simp only [nextRandomPos]
      rw [if_neg]
      intro hc
      have := ha.1 hc
      omega
  rw [he, Nat.card_Ico]

/-- The number of word lists that stop at a position does not depend on the position. -/
theorem count_stopping (n : Nat) (hn : 1 ≤ n) (hn' : n < 2 ^ 63) (k p : Nat) (hp : p < n) :
    (wordLists (2 ^ 63) k).countP (fun w => decide (nextRandomPos n (w.map fun (x : Nat) => (x : Int)) = some (p : Int))) = stopping (2 ^ 63) n k := by
  have c1 := C51_uniform n hn hn' p hp
  have c2 := card_stop n hn hn'
  generalize hM : (2 : Nat) ^ 63 = M at *
  induction k with
  | zero => simp [wordLists, nextRandomPos, stopping]
  | succ k ih =>
    rw [wordLists, countP_flatMap_map]
    have h1 : ∀ r ∈ List.range M, (wordLists M k).countP (fun w => decide (nextRandomPos n ((r :: w).map fun (x : Nat) => (x : Int)) = some (p : Int))) =
        (if decide (nextRandomPos n [(r : Int)] = some (p : Int)) then M ^ k else 0) +
        (if decide (nextRandomPos n [(r : Int)] = none) then stopping M n k else 0) := by
      intro r _
      simp only [pos_cons]
      cases hq : nextRandomPos n [(r : Int)] with
      | none => simp only [if_true, ih]; simp
      | some q =>
        simp only [reduceCtorEq, if_false]
        by_cases hqp : q = (p : Int)
        · simp [hqp, length_wordLists]
        · simp [hqp]
    rw [List.map_congr_left h1, List.sum_map_add, sum_ite_const _ _ _ _ (fun _ _ => rfl), sum_ite_const _ _ _ _ (fun _ _ => rfl),
      countP_range_filter, countP_range_filter]
    simp only [decide_eq_true_eq]
    rw [c1, c2, stopping]

/-- How many lists stop anywhere. -/
theorem mul_stopping (M n : Nat) (hle : M / n * n ≤ M) (k : Nat) : n * stopping M n k + (M - M / n * n) ^ k = M ^ k := by
  induction k with
  | zero => simp [stopping]
  | succ k ih =>
    obtain ⟨r, hr⟩ : ∃ r, M - M / n * n = r := ⟨_, rfl⟩
    have hM : M = M / n * n + r := by omega
    rw [stopping, hr]
    rw [hr] at ih
    rw [pow_succ, pow_succ]
    calc n * (M / n * M ^ k + r * stopping M n k) + r ^ k * r = M / n * n * M ^ k + r * (n * stopping M n k + r ^ k) := by ring
      _ = (M / n * n + r) * M ^ k := by rw [ih]; ring
      _ = M ^ k * M := by rw [← hM]; ring

/-- What the update with position `p` makes of a full sample. -/
def put (c : Nat) (v : Int) (p : Nat) (l : List Int) : List Int := if p < c then l.set p v else l

/-- The number of ways the updates after the first `c` draw given positions. -/
def ways (M k c : Nat) : Nat → Nat
  | 0 => 1
  | m + 1 => ways M k c m * stopping M (c + m + 1) k

theorem worded_snoc {c : Nat} {vs : List Int} {t : List (List Nat)} (h : vs.length = c + t.length) (v : Int) (row : List Nat) :
    worded c (vs ++ [v]) (t ++ [row]) = worded c vs t ++ [(v, row.map fun (x : Nat) => (x : Int))] := by
  unfold worded
  rw [List.map_append, ← List.append_assoc, List.zip_append (by simp [h])]; simp

theorem length_worded {c : Nat} {vs : List Int} {t : List (List Nat)} (h : vs.length = c + t.length) : (worded c vs t).length = vs.length := by
  simp [worded, h]

theorem returns_fill (c : Nat) (vs : List Int) (hl : vs.length ≤ c) (hc : c < 2 ^ 63) (ws : List (List Int)) : returns (new c) (vs.zip ws) = true := by
  have e63 : (2 : Nat) ^ 63 = 9223372036854775808 := by norm_num
  rw [e63] at hc
  have key : ∀ (vs : List Int) (ws : List (List Int)) (u : UniformReservoir) (k : Nat), u.count = k → k + vs.length ≤ u.values.length → u.values.length < 9223372036854775808 → returns u (vs.zip ws) = true := by
    intro vs
    induction vs with
    | nil => intro ws u k _ _ _; rfl
    | cons v vs ih =>
      intro ws u k h1 h2 h3
      cases ws with
      | nil => rfl
      | cons w ws =>
        simp only [List.length_cons] at h2
        rw [List.zip_cons_cons, returns, updateN_fill h1 (by omega) (by omega)]
        exact ih ws _ (k + 1) (by push_cast; rfl) (by simp only [List.length_set]; omega) (by simpa using h3)
  exact key vs ws (new c) 0 rfl (by simpa [new] using hl) (by simpa [new] using hc)

/-- Counting tables of words is counting sequences of positions, `ways` times over. -/
theorem count_tables (c k : Nat) (m : Nat) (vs : List Int) (hm : vs.length = c + m) (hl : vs.length < 2 ^ 63) (P : List Int → Bool) :
    (wordTables (2 ^ 63) k m).countP (fun t => returns (new c) (worded c vs t) && P ((new c).run (worded c vs t)).values) * c.factorial =
      (draws vs.length).countP (fun s => P (sampleOf c vs s)) * ways (2 ^ 63) k c m := by
  induction m generalizing vs P with
  | zero =>
    have hf : ∀ s ∈ draws vs.length, sampleOf c vs s = vs := by
      intro s hs
      have hlen := ((mem_draws _ s).1 hs).1
      have := sample_full (vs := vs) (s := s) hlen.symm hl
      rwa [show vs.length = c by omega] at this
    have h2 : ((new c).run (worded c vs [])).values = vs := by
      have h1 : (worded c vs []).length = vs.length := length_worded (by simpa using hm)
      have e63 : (2 : Nat) ^ 63 = 9223372036854775808 := by norm_num
      obtain ⟨idx, _, _, _, d, e⟩ := C49_contents c (worded c vs []) (by rw [h1]; exact hl) (by
        intro e he x hx
        have := (List.of_mem_zip he).2
        simp only [List.map_nil, List.append_nil, List.mem_replicate] at this
        rw [this.2] at hx; simp at hx)
      rw [e (by omega), h1, show c - vs.length = 0 by omega] at d
      simp only [List.replicate_zero, List.append_nil] at d
      have hm' : (worded c vs []).map Prod.fst = vs := by
        unfold worded; rw [List.map_fst_zip]; simp [hm]
      rw [hm'] at d
      have : (List.range vs.length).map (fun i => vs[i]?) = vs.map some := by
        apply List.ext_getElem (by simp)
        intro i h1 h2
        simp only [List.length_map, List.length_range] at h1
        simp [h1]
      rw [this] at d
      exact List.map_injective_iff.2 (Option.some_injective _) d
    have hr : returns (new c) (worded c vs []) = true := returns_fill c vs (by omega) (by omega) _
    rw [wordTables, List.countP_singleton, hr, h2, ways, Nat.mul_one, Bool.true_and]
    rw [List.countP_congr (fun s hs => by rw [hf s hs]), show vs.length = c by omega]
    cases P vs <;> simp [length_draws]
  | succ m ih =>
    obtain ⟨vs', v, rfl⟩ : ∃ vs' v, vs = vs' ++ [v] := by
      rcases List.eq_nil_or_concat vs with rfl | ⟨a, b, h⟩
      · simp at hm
      · exact ⟨a, b, by rw [h, List.concat_eq_append]⟩
    simp only [List.length_append, List.length_singleton] at hm hl ⊢
    have hm' : vs'.length = c + m := by omega
    have ih' := ih vs' hm' (by omega)
    have e63 : (2 : Nat) ^ 63 = 9223372036854775808 := by norm_num
    -- one more row
    have hrow : ∀ t ∈ wordTables (2 ^ 63) k m, (wordLists (2 ^ 63) k).countP (fun row =>
        returns (new c) (worded c (vs' ++ [v]) (t ++ [row])) && P ((new c).run (worded c (vs' ++ [v]) (t ++ [row]))).values) =
        stopping (2 ^ 63) (c + m + 1) k * ((List.range (c + m + 1)).map fun p =>
          if (returns (new c) (worded c vs' t) && P (put c v p ((new c).run (worded c vs' t)).values)) then 1 else 0).sum := by
      intro t ht
      obtain ⟨ht1, ht2⟩ := (mem_wordTables _ _ _ t).1 ht
      have hlw := length_worded (c := c) (vs := vs') (t := t) (by omega)
      have hcount := count_run c (worded c vs' t) (by rw [hlw]; omega)
      have hlen : ((new c).run (worded c vs' t)).values.length = c := by rw [length_run]; simp [new]
      rw [hlw, hm'] at hcount
      by_cases hret : returns (new c) (worded c vs' t) = true
      · have hpt : ∀ row ∈ wordLists (2 ^ 63) k,
            (if (returns (new c) (worded c (vs' ++ [v]) (t ++ [row])) && P ((new c).run (worded c (vs' ++ [v]) (t ++ [row]))).values) then 1 else 0) =
            ((List.range (c + m + 1)).map fun (p : Nat) => if decide (nextRandomPos ((c + m + 1 : Nat) : Int) (row.map fun (x : Nat) => (x : Int)) = some (p : Int)) then
              (if P (put c v p ((new c).run (worded c vs' t)).values) then 1 else 0) else 0).sum := by
          intro row _
          rw [worded_snoc (by omega), returns_snoc, run_snoc, hret, Bool.true_and]
          rcases updateN_full hcount (by omega) (by omega) (w := row.map fun (x : Nat) => (x : Int)) (by simp) v with ⟨hn, hu⟩ | ⟨q, hn, hq, hu⟩
          · rw [hu]
            push_cast at hn ⊢
            rw [hn]
            simp [isOk]
          · rw [hu, hlen]
            push_cast at hn ⊢
            rw [hn]
            have : ∀ p : Nat, (some (q : Int) = some (p : Int)) ↔ (p = q) := by
              intro p; rw [Option.some.injEq]; omega
            simp only [this, isOk, Bool.true_and, Res.state]
            rw [sum_ite_const (List.range (c + m + 1)) (fun p => decide (p = q)) (if P (put c v q ((new c).run (worded c vs' t)).values) then 1 else 0)]
            · rw [countP_range_eq _ _ hq, Nat.one_mul]; rfl
            · intro p _
              by_cases hpq : p = q
              · simp [hpq]
              · simp [hpq]
        rw [countP_eq_sum, List.map_congr_left hpt]
        have hsw : ∀ (l : List (List Nat)) (r : List Nat) (f : List Nat → Nat → Nat),
            (l.map fun a => (r.map fun b => f a b).sum).sum = (r.map fun b => (l.map fun a => f a b).sum).sum := by
          intro l r f
          induction l with
          | nil => simp
          | cons a l ih => simp only [List.map_cons, List.sum_cons, ih, List.sum_map_add]
        rw [hsw]
        have hp : ∀ p ∈ List.range (c + m + 1), ((wordLists (2 ^ 63) k).map fun row =>
            if decide (nextRandomPos ((c + m + 1 : Nat) : Int) (row.map fun (x : Nat) => (x : Int)) = some (p : Int)) then
              (if P (put c v p ((new c).run (worded c vs' t)).values) then 1 else 0) else 0).sum =
            stopping (2 ^ 63) (c + m + 1) k * (if (true && P (put c v p ((new c).run (worded c vs' t)).values)) then 1 else 0) := by
          intro p hp
          rw [sum_ite_const _ _ _ _ (fun _ _ => rfl), count_stopping (c + m + 1) (by omega) (by omega) k p (List.mem_range.1 hp), Bool.true_and]
        rw [List.map_congr_left hp, hret, List.sum_map_mul_left]
      · have hf : returns (new c) (worded c vs' t) = false := by simpa using hret
        rw [List.countP_eq_zero.2, hf]
        · simp
        · intro row _
          rw [worded_snoc (by omega), returns_snoc, hf]
          simp
    rw [wordTables, countP_flatMap_map, List.map_congr_left hrow, List.sum_map_mul_left, ways]
    have hsw : ∀ (l : List (List (List Nat))) (r : List Nat) (f : List (List Nat) → Nat → Nat),
        (l.map fun a => (r.map fun b => f a b).sum).sum = (r.map fun b => (l.map fun a => f a b).sum).sum := by
      intro l r f
      induction l with
      | nil => simp
      | cons a l ih => simp only [List.map_cons, List.sum_cons, ih, List.sum_map_add]
    rw [hsw]
    have hp : ∀ p ∈ List.range (c + m + 1), ((wordTables (2 ^ 63) k m).map fun t =>
        if (returns (new c) (worded c vs' t) && P (put c v p ((new c).run (worded c vs' t)).values)) then 1 else 0).sum * c.factorial =
        ways (2 ^ 63) k c m * (draws vs'.length).countP (fun s => P (put c v p (sampleOf c vs' s))) := by
      intro p _
      rw [← countP_eq_sum, ih' (fun l => P (put c v p l)), Nat.mul_comm]
    have hd : (draws (vs'.length + 1)).countP (fun s => P (sampleOf c (vs' ++ [v]) s)) =
        ((List.range (c + m + 1)).map fun p => (draws vs'.length).countP (fun s => P (put c v p (sampleOf c vs' s)))).sum := by
      rw [countP_draws, ← hm']
      have h1 : ∀ s ∈ draws vs'.length, (List.range (vs'.length + 1)).countP (fun p => P (sampleOf c (vs' ++ [v]) (s ++ [p]))) =
          ((List.range (vs'.length + 1)).map fun p => if P (put c v p (sampleOf c vs' s)) then 1 else 0).sum := by
        intro s hs
        have hlen := ((mem_draws _ s).1 hs).1
        rw [← countP_eq_sum]
        refine List.countP_congr fun p hp => ?_
        rw [sample_snoc hlen.symm (by omega) hl v (List.mem_range.1 hp)]; rfl
      rw [List.map_congr_left h1]
      have hsw : ∀ (l r : List _) (f : List Nat → Nat → Nat),
          (l.map fun a => (r.map fun b => f a b).sum).sum = (r.map fun b => (l.map fun a => f a b).sum).sum := by
        intro l r f
        induction l with
        | nil => simp
        | cons a l ih => simp only [List.map_cons, List.sum_cons, ih, List.sum_map_add]
      rw [hsw]
      congr 1
      refine List.map_congr_left fun p _ => ?_
      rw [← countP_eq_sum]
    rw [hd, Nat.mul_assoc, ← List.sum_map_mul_right, List.map_congr_left hp, List.sum_map_mul_left]
    ring

/-- How many tables make everybody return. -/
theorem count_returns (c k m : Nat) (vs : List Int) (hm : vs.length = c + m) (hl : vs.length < 2 ^ 63) :
    (wordTables (2 ^ 63) k m).countP (fun t => returns (new c) (worded c vs t)) * c.factorial = vs.length.factorial * ways (2 ^ 63) k c m := by
  have := count_tables c k m vs hm hl (fun _ => true)
  simp only [Bool.and_true] at this
  rw [this, List.countP_eq_length.2 (fun _ _ => rfl), length_draws]

end UniformWords
open UniformWords

/-- **C52, over the words of the random source.** Let the source deliver up to `k` words to each of the updates after the first `capacity`, every word below 2^63 as often as every other.
Among the tables of words with which all updates return, every set of `capacity` values of the stream is the sample for the same number of tables. -/
theorem C52_words (capacity k : Nat) (vs : List Int) (hnd : vs.Nodup) (hc : capacity ≤ vs.length) (hl : vs.length < 2 ^ 63)
    (S : Finset Int) (hS : S ⊆ vs.toFinset) (hcard : S.card = capacity) :
    let tables := wordTables (2 ^ 63) k (vs.length - capacity)
    tables.countP (fun t => returns (new capacity) (worded capacity vs t) && decide (((new capacity).run (worded capacity vs t)).values.toFinset = S)) *
      vs.length.choose capacity = tables.countP (fun t => returns (new capacity) (worded capacity vs t)) := by
  intro tables
  have hm : vs.length = capacity + (vs.length - capacity) := by omega
  have h1 := count_tables capacity k _ vs hm hl (fun l => decide (l.toFinset = S))
  have h2 := count_returns capacity k _ vs hm hl
  have h3 := C52_every_subset capacity vs hnd hc hl S hS hcard
  have h4 := Nat.choose_mul_factorial_mul_factorial hc
  have hpos := Nat.factorial_pos capacity
  refine Nat.eq_of_mul_eq_mul_right hpos ?_
  change _ = List.countP _ (wordTables (2 ^ 63) k (vs.length - capacity)) * _
  rw [h2, ← h4]
  have h5 : (draws vs.length).countP (fun s => decide ((sampleOf capacity vs s).toFinset = S)) = capacity.factorial * (vs.length - capacity).factorial := h3
  rw [h5] at h1
  change List.countP _ (wordTables (2 ^ 63) k (vs.length - capacity)) * _ * _ = _
  rw [Nat.mul_right_comm, h1]; ring

/-- **C52, over the words of the random source.** The tables with which some update does not return are at most the fraction `(n - capacity) / 2^k` of all. So, for words drawn
independently and uniformly, every set of `capacity` values is the sample with probability 1 / (n over capacity). -/
theorem C52_words_return (capacity k : Nat) (vs : List Int) (hc : capacity ≤ vs.length) (hl : vs.length < 2 ^ 63) :
    let tables := wordTables (2 ^ 63) k (vs.length - capacity)
    2 ^ k * tables.countP (fun t => !returns (new capacity) (worded capacity vs t)) ≤ (vs.length - capacity) * tables.length := by
  intro tables
  obtain ⟨m, hm⟩ : ∃ m, vs.length - capacity = m := ⟨_, rfl⟩
  have hm' : vs.length = capacity + m := by omega
  change 2 ^ k * (wordTables (2 ^ 63) k (vs.length - capacity)).countP _ ≤ _ * (wordTables (2 ^ 63) k (vs.length - capacity)).length
  rw [hm]
  have h2 := count_returns capacity k m vs hm' hl
  have h3 := List.length_eq_countP_add_countP (fun t => returns (new capacity) (worded capacity vs t)) (l := wordTables (2 ^ 63) k m)
  have h4 : (wordTables (2 ^ 63) k m).countP (fun a => decide ¬returns (new capacity) (worded capacity vs a) = true) =
      (wordTables (2 ^ 63) k m).countP (fun t => !returns (new capacity) (worded capacity vs t)) := by
    refine List.countP_congr fun t _ => ?_
    cases returns (new capacity) (worded capacity vs t) <;> simp
  rw [h4] at h3
  have hlen := length_wordTables (2 ^ 63) k m
  -- the rejected words are less than half
  have hrej : ∀ n, 1 ≤ n → n < 2 ^ 63 → 2 ^ k * (2 ^ 63 - 2 ^ 63 / n * n) ^ k ≤ (2 ^ 63) ^ k := by
    intro n hn hn'
    rw [← Nat.mul_pow]
    refine Nat.pow_le_pow_left ?_ k
    have g1 : n * (2 ^ 63 / n) + 2 ^ 63 % n = 2 ^ 63 := Nat.div_add_mod _ n
    have g2 : 2 ^ 63 % n < n := Nat.mod_lt _ (by omega)
    have g3 : 1 ≤ 2 ^ 63 / n := (Nat.le_div_iff_mul_le (by omega)).2 (by omega)
    have g4 := Nat.mul_le_mul_right n g3
    have g5 : 2 ^ 63 / n * n = n * (2 ^ 63 / n) := Nat.mul_comm _ _
    omega
  generalize hM : (2 : Nat) ^ 63 = M at *
  -- ways is at least the share (1 - m / 2^k)
  have hw : ∀ m, capacity + m < M → 2 ^ k * (M ^ k) ^ m * capacity.factorial ≤ 2 ^ k * ((capacity + m).factorial * ways M k capacity m) + m * (M ^ k) ^ m * capacity.factorial := by
    intro m
    induction m with
    | zero => intro _; simp [ways]
    | succ m ih =>
      intro hlt
      have ih := ih (by omega)
      have hs := mul_stopping M (capacity + m + 1) (Nat.div_mul_le_self _ _) k
      have hr := hrej (capacity + m + 1) (by omega) (by omega)
      have hwle : (capacity + m).factorial * ways M k capacity m ≤ (M ^ k) ^ m * capacity.factorial := by
        clear ih hs hr hlt h2 h3 h4 hlen
        have : ∀ m, (capacity + m).factorial * ways M k capacity m ≤ (M ^ k) ^ m * capacity.factorial := by
          intro m
          induction m with
          | zero => simp [ways]
          | succ m ih =>
            have hs := mul_stopping M (capacity + m + 1) (Nat.div_mul_le_self _ _) k
            have hle : (capacity + m + 1) * stopping M (capacity + m + 1) k ≤ M ^ k := by omega
            rw [← Nat.add_assoc, Nat.factorial_succ, ways, pow_succ]
            calc (capacity + m + 1) * (capacity + m).factorial * (ways M k capacity m * stopping M (capacity + m + 1) k)
                = ((capacity + m).factorial * ways M k capacity m) * ((capacity + m + 1) * stopping M (capacity + m + 1) k) := by ring
              _ ≤ ((M ^ k) ^ m * capacity.factorial) * M ^ k := Nat.mul_le_mul ih hle
              _ = _ := by ring
        exact this m
      rw [← Nat.add_assoc, Nat.factorial_succ, ways, pow_succ]
      set A := (capacity + m).factorial * ways M k capacity m with hA
      set B := (M ^ k) ^ m * capacity.factorial with hB
      set W := (capacity + m + 1) * stopping M (capacity + m + 1) k with hW
      set r := (M - M / (capacity + m + 1) * (capacity + m + 1)) ^ k
      set N := M ^ k
      have e1 : (capacity + m + 1) * (capacity + m).factorial * (ways M k capacity m * stopping M (capacity + m + 1) k) = A * W := by rw [hA, hW]; ring
      have e2 : 2 ^ k * (N ^ m * N) * capacity.factorial = 2 ^ k * B * N := by rw [hB]; ring
      have e3 : (m + 1) * (N ^ m * N) * capacity.factorial = (m + 1) * B * N := by rw [hB]; ring
      have e4 : 2 ^ k * N ^ m * capacity.factorial = 2 ^ k * B := by rw [hB]; ring
      have e5 : m * N ^ m * capacity.factorial = m * B := by rw [hB]; ring
      rw [e1, e2, e3]
      rw [e4, e5] at ih
      calc 2 ^ k * B * N ≤ (2 ^ k * A + m * B) * N := Nat.mul_le_mul_right _ ih
        _ = 2 ^ k * (A * W) + A * (2 ^ k * r) + m * B * N := by rw [← hs]; ring
        _ ≤ 2 ^ k * (A * W) + B * N + m * B * N := by
            have := Nat.mul_le_mul hwle hr
            omega
        _ = _ := by ring
  have hw := hw m (by omega)
  rw [← hm', ← h2] at hw
  rw [hlen] at h3 ⊢
  have hpos := Nat.factorial_pos capacity
  refine Nat.le_of_mul_le_mul_right (c := capacity.factorial) ?_ hpos
  rw [h3] at hw ⊢
  nlinarith [hw]

/-- Three values, room for one. The second update draws from two positions, the third from three; its first word, 2^63 - 1, is rejected. This table is among those counted, its updates
return, and it leaves 30; with budget 1 the third update would not return. -/
example :
    [[6, 0], [9223372036854775807, 3]] ∈ wordTables (2 ^ 63) 2 2 ∧ ({30} : Finset Int) ⊆ [10, 20, 30].toFinset ∧
    returns (new 1) (worded 1 [10, 20, 30] [[6, 0], [9223372036854775807, 3]]) = true ∧
    ((new 1).run (worded 1 [10, 20, 30] [[6, 0], [9223372036854775807, 3]])).values = [30] ∧
    returns (new 1) (worded 1 [10, 20, 30] [[6], [9223372036854775807]]) = false := by
  refine ⟨?_, by decide, by decide, by decide, by decide⟩
  rw [mem_wordTables]
  norm_num

end GoMetrics
