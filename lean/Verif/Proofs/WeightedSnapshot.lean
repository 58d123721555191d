import Verif.Model.WeightedSnapshot
import Verif.Spec.WeightedSnapshot
import Verif.Proofs.UniformSnapshot
import Verif.Props.UniformSnapshot
/-! Lemmas about weighted snapshots. -/
namespace GoMetrics
open Rounding

theorem F64.le_trans {x y z : F64} (h : x.le y) (h' : y.le z) : x.le z := by
  rcases x with _ | (_ | _) | x <;> rcases y with _ | (_ | _) | y <;> rcases z with _ | (_ | _) | z <;>
    simp_all [F64.le]
  exact _root_.le_trans h h'

theorem F64.le_refl' {x : F64} (h : x ≠ .nan) : x.le x := by
  rcases x with _ | (_ | _) | x <;> simp_all [F64.le]

theorem F64.not_le {x y : F64} (hx : x ≠ .nan) (hy : y ≠ .nan) (h : ¬ x.le y) : y.le x := by
  rcases x with _ | (_ | _) | x <;> rcases y with _ | (_ | _) | y <;> simp_all [F64.le]
  exact _root_.le_of_lt h

/-- The loop ends within the interval, ... -/
theorem searchLoop_done (f : Nat → Bool) (fuel i j n : Nat) (hij : i ≤ j) (hf : j - i ≤ fuel) (hj : j = n ∨ f j = true) :
    i ≤ searchLoop f fuel i j ∧ searchLoop f fuel i j ≤ j ∧ (searchLoop f fuel i j = n ∨ f (searchLoop f fuel i j) = true) := by
  induction fuel generalizing i j with
  | zero =>
    have : i = j := by omega
    subst this
    exact ⟨Nat.le_refl _, Nat.le_refl _, hj⟩
  | succ fuel ih =>
    unfold searchLoop
    by_cases h : i < j
    · rw [if_pos h]
      by_cases hfh : f ((i + j) / 2) = true
      · rw [if_neg (by simp [hfh])]
        obtain ⟨a, b, c⟩ := ih i ((i + j) / 2) (by omega) (by omega) (Or.inr hfh)
        exact ⟨a, by omega, c⟩
      · rw [if_pos (by simp [hfh])]
        obtain ⟨a, b, c⟩ := ih ((i + j) / 2 + 1) j (by omega) (by omega) hj
        exact ⟨by omega, b, c⟩
    · rw [if_neg h]
      have : i = j := by omega
      subst this
      exact ⟨Nat.le_refl _, Nat.le_refl _, hj⟩

/-- ... at the boundary if the predicate is monotone, ... -/
theorem searchLoop_mono (f : Nat → Bool) (hf : ∀ a b, a ≤ b → f a = true → f b = true ∨ b ≥ n) (fuel i j : Nat) (hij : i ≤ j) (hjn : j ≤ n)
    (hfuel : j - i ≤ fuel) (hlo : ∀ k < i, f k = false) (hhi : ∀ k, j ≤ k → k < n → f k = true) :
    (∀ k < searchLoop f fuel i j, f k = false) ∧ (∀ k, searchLoop f fuel i j ≤ k → k < n → f k = true) := by
  induction fuel generalizing i j with
  | zero =>
    have : i = j := by omega
    subst this
    exact ⟨hlo, hhi⟩
  | succ fuel ih =>
    unfold searchLoop
    by_cases h : i < j
    · rw [if_pos h]
      by_cases hfh : f ((i + j) / 2) = true
      · rw [if_neg (by simp [hfh])]
        refine ih i ((i + j) / 2) (by omega) (by omega) (by omega) hlo (fun k hk hkn => ?_)
        rcases hf _ k hk hfh with h | h
        · exact h
        · omega
      · rw [if_pos (by simp [hfh])]
        refine ih ((i + j) / 2 + 1) j (by omega) hjn (by omega) (fun k hk => ?_) hhi
        by_contra hc
        have hc' : f k = true := by simpa using hc
        rcases hf k ((i + j) / 2) (by omega) hc' with h | h
        · exact hfh h
        · omega
    · rw [if_neg h]
      have : i = j := by omega
      subst this
      exact ⟨hlo, hhi⟩

/-- ... and at the right end if the predicate is false everywhere. -/
theorem searchLoop_false (f : Nat → Bool) (fuel i j : Nat) (hij : i ≤ j) (hfuel : j - i ≤ fuel) (hf : ∀ k, i ≤ k → k < j → f k = false) :
    searchLoop f fuel i j = j := by
  induction fuel generalizing i with
  | zero => unfold searchLoop; omega
  | succ fuel ih =>
    unfold searchLoop
    by_cases h : i < j
    · rw [if_pos h, if_pos (by rw [hf _ (by omega) (by omega)]; rfl)]
      exact ih _ (by omega) (by omega) (fun k hk hk' => hf k (by omega) hk')
    · rw [if_neg h]; omega

/-- Searching for one position with `==`: found iff it is looked at. -/
theorem searchLoop_eq (n k : Nat) (f : Nat → Bool) (hf : ∀ i < n, f i = decide (i = k)) (fuel i : Nat) (hin : i ≤ n)
    (hfuel : n - i ≤ fuel) (hik : i ≤ k) (hk : k < n) : searchLoop f fuel i n ≠ n ↔ k ∈ probesFrom n fuel i := by
  induction fuel generalizing i with
  | zero => omega
  | succ fuel ih =>
    unfold searchLoop probesFrom
    have hin' : i < n := by omega
    rw [if_pos hin', if_pos hin']
    have hh : (i + n) / 2 < n := by omega
    by_cases he : (i + n) / 2 = k
    · rw [if_neg (by rw [hf _ hh]; simp [he]), he,
        searchLoop_false f fuel i k hik (by omega) (fun a ha ha' => by rw [hf a (by omega)]; simp; omega)]
      simp; omega
    · rw [if_pos (by rw [hf _ hh]; simp [he])]
      simp only [List.mem_cons]
      by_cases hlt : (i + n) / 2 < k
      · rw [ih ((i + n) / 2 + 1) (by omega) (by omega) (by omega)]
        constructor
        · exact Or.inr
        · rintro (h | h)
          · omega
          · exact h
      · rw [searchLoop_false f fuel _ n (by omega) (by omega) (fun a ha ha' => by rw [hf a ha']; simp; omega)]
        simp only [ne_eq, not_true, false_iff, not_or]
        refine ⟨by omega, ?_⟩
        have : ∀ fuel i, k < i → k ∉ probesFrom n fuel i := by
          intro fuel
          induction fuel with
          | zero => intro i _; simp [probesFrom]
          | succ fuel ih2 =>
            intro i hi
            unfold probesFrom
            split
            · simp only [List.mem_cons, not_or]
              exact ⟨by omega, ih2 _ (by omega)⟩
            · simp
        exact this _ _ (by omega)

theorem probes_ge (n k : Nat) (h : k ∈ probes n) : n / 2 ≤ k := by
  have : ∀ fuel i, k ∈ probesFrom n fuel i → (i + n) / 2 ≤ k := by
    intro fuel
    induction fuel with
    | zero => intro i h; simp [probesFrom] at h
    | succ fuel ih =>
      intro i h
      unfold probesFrom at h
      split at h
      · rcases List.mem_cons.1 h with h | h
        · omega
        · have := ih _ h; omega
      · simp at h
  have := this n 0 h
  omega

namespace WeightedSnapshot

theorem length_cumulative (R : Rounding) (acc : F64) (ws : List F64) : (cumulative R acc ws).length = ws.length := by
  induction ws generalizing acc with
  | nil => rfl
  | cons w t ih => simp [cumulative, ih]

/-- The three slices of a snapshot have the same length. -/
theorem length_weights (R : Rounding) (samples cp : List WeightedSample) (h : cp.length = samples.length) :
    (new R samples cp).values.length = samples.length ∧ (new R samples cp).normalizedWeights.length = samples.length ∧
    (new R samples cp).quantiles.length = samples.length := by
  unfold new
  split
  · rename_i h0; simp [h0]
  · simp [length_cumulative, h]

/-- The index `GetValue` ends up with. -/
def pick (w : WeightedSnapshot) (q : F64) : Nat :=
  min (if w.searchFound q then w.searchPos q else w.searchPos q - 1) (w.values.length - 1)

theorem getValue_pick (R : Rounding) (w : WeightedSnapshot) {q : F64} (hq : badQuantile q = false) (hn : 0 < w.values.length) :
    ∃ h : w.pick q < w.values.length, w.getValue R q = .ok (F64.ofInt R w.values[w.pick q]) := by
  have hp : w.pick q < w.values.length := by unfold pick; omega
  refine ⟨hp, ?_⟩
  have at_ok : ∀ i : Int, 0 ≤ i → i.toNat = w.pick q →
      (match index w.values i with | none => Ret.panic | some v => .ok (F64.ofInt R v)) = .ok (F64.ofInt R w.values[w.pick q]) := by
    intro i hi he
    obtain ⟨h, e⟩ := UniformSnapshot.index_some (s := w.values) (i := i) hi (by omega)
    rw [e]
    simp only [he]
  unfold getValue
  rw [hq]
  simp only [Bool.false_eq_true, if_false, if_neg (show ¬ w.values.length = 0 by omega)]
  have hpick : w.pick q = min (if w.searchFound q then w.searchPos q else w.searchPos q - 1) (w.values.length - 1) := rfl
  cases hf : w.searchFound q <;> rw [hf] at hpick <;> simp only [if_true, if_false, Bool.false_eq_true] at hpick ⊢
  · split
    · exact at_ok 0 (by omega) (by omega)
    · split
      · exact at_ok _ (by omega) (by omega)
      · exact at_ok _ (by omega) (by omega)
  · split
    · exact at_ok 0 (by omega) (by omega)
    · split
      · exact at_ok _ (by omega) (by omega)
      · exact at_ok _ (by omega) (by omega)

/-- The first search finds the boundary in ascending quantiles. -/
theorem searchPos_spec {w : WeightedSnapshot} (hs : w.quantiles.Pairwise F64.le) (q : F64) :
    w.searchPos q ≤ w.quantiles.length ∧
    (∀ k (h : k < w.quantiles.length), k < w.searchPos q → ¬ q.le w.quantiles[k]) ∧
    (∀ k (h : k < w.quantiles.length), w.searchPos q ≤ k → q.le w.quantiles[k]) := by
  have h1 := searchLoop_done (fun i => decide (q.le ((w.quantiles[i]?).getD .nan))) w.quantiles.length 0 w.quantiles.length w.quantiles.length
    (by omega) (by omega) (Or.inl rfl)
  have h2 := searchLoop_mono (n := w.quantiles.length) (fun i => decide (q.le ((w.quantiles[i]?).getD .nan))) ?_ w.quantiles.length 0 w.quantiles.length
    (by omega) (by omega) (by omega) (by omega) (by omega)
  · refine ⟨h1.2.1, fun k hk hlt => ?_, fun k hk hle => ?_⟩
    · have := h2.1 k hlt
      simpa [List.getElem?_eq_getElem hk] using this
    · have := h2.2 k hle hk
      simpa [List.getElem?_eq_getElem hk] using this
  · intro a b hab ha
    by_cases hb : b < w.quantiles.length
    · left
      have ha' : a < w.quantiles.length := by omega
      simp only [List.getElem?_eq_getElem ha', List.getElem?_eq_getElem hb, Option.getD_some, decide_eq_true_iff] at ha ⊢
      rcases Nat.lt_or_eq_of_le hab with h | h
      · exact F64.le_trans ha (List.pairwise_iff_getElem.1 hs a b ha' hb h)
      · subst h; exact ha
    · right; omega

/-- If the second search finds something, it is there. -/
theorem searchFound_spec {w : WeightedSnapshot} {q : F64} (h : w.searchFound q = true) :
    ∃ k, ∃ h : k < w.quantiles.length, F64.eq w.quantiles[k] q := by
  unfold searchFound at h
  rw [decide_eq_true_iff] at h
  have h1 := searchLoop_done (fun i => decide (F64.eq ((w.quantiles[i]?).getD .nan) q)) w.quantiles.length 0 w.quantiles.length w.quantiles.length
    (by omega) (by omega) (Or.inl rfl)
  obtain ⟨_, h2, h3⟩ := h1
  rcases h3 with h3 | h3
  · exact absurd h3 h
  · have hlt : sortSearch w.quantiles.length (fun i => decide (F64.eq ((w.quantiles[i]?).getD .nan) q)) < w.quantiles.length :=
      Nat.lt_of_le_of_ne h2 h
    refine ⟨_, hlt, ?_⟩
    rw [decide_eq_true_iff] at h3
    have h4 : F64.eq (w.quantiles[sortSearch w.quantiles.length (fun i => decide (F64.eq ((w.quantiles[i]?).getD .nan) q))]?.getD .nan) q := h3
    rw [List.getElem?_eq_getElem hlt] at h4
    exact h4

theorem pick_mono {w : WeightedSnapshot} (hs : w.quantiles.Pairwise F64.le) {q q' : F64} (hqq : q.le q') : w.pick q ≤ w.pick q' := by
  obtain ⟨a1, a2, a3⟩ := searchPos_spec hs q
  obtain ⟨b1, b2, b3⟩ := searchPos_spec hs q'
  have hpos : w.searchPos q ≤ w.searchPos q' := by
    by_contra hc
    have hk : w.searchPos q' < w.quantiles.length := by omega
    exact a2 _ hk (by omega) (F64.le_trans hqq (b3 _ hk (by omega)))
  unfold pick
  cases hf : w.searchFound q with
  | false =>
    cases hf' : w.searchFound q' <;> simp only [if_true, if_false, Bool.false_eq_true] <;> omega
  | true =>
    cases hf' : w.searchFound q' with
    | true => simp only [if_true]; omega
    | false =>
      simp only [if_true, if_false, Bool.false_eq_true]
      obtain ⟨k, hk, hk1, hk2⟩ := searchFound_spec hf
      -- the found position is the first one
      have hle : w.searchPos q ≤ k := by
        by_contra hc
        exact a2 k hk (by omega) hk2
      have hp : w.searchPos q < w.quantiles.length := by omega
      have heq : F64.le w.quantiles[w.searchPos q] q := by
        refine F64.le_trans ?_ hk1
        rcases Nat.lt_or_eq_of_le hle with h | h
        · exact List.pairwise_iff_getElem.1 hs _ _ hp hk h
        · subst h
          refine F64.le_refl' ?_
          intro hn
          rw [hn] at hk1; simp [F64.le] at hk1
      by_cases hlt : w.searchPos q < w.searchPos q'
      · omega
      · -- then q' ≤ quantiles[pos] ≤ q, so both searches agree
        exfalso
        have h1 : q'.le w.quantiles[w.searchPos q] := b3 _ hp (by omega)
        have h2 : q'.le q := F64.le_trans h1 heq
        have hcongr : w.searchFound q' = w.searchFound q := by
          unfold searchFound
          congr 2
          have : (fun i : Nat => decide (F64.eq ((w.quantiles[i]?).getD .nan) q')) = (fun i => decide (F64.eq ((w.quantiles[i]?).getD .nan) q)) := by
            funext i
            refine decide_eq_decide.2 ⟨fun h => ⟨F64.le_trans h.1 h2, F64.le_trans hqq h.2⟩, fun h => ⟨F64.le_trans h.1 hqq, F64.le_trans h2 h.2⟩⟩
          rw [this]
        rw [hf, hf'] at hcongr; simp at hcongr

theorem add_ge {R : Rounding} (hR : R.Lawful) {x : F64} {w : ℚ} (hx : F64.le (.fin 0) x) (hw : 0 ≤ w) (hr : R.Rep w) :
    F64.le (.fin w) (F64.add R x (.fin w)) := by
  rcases x with _ | (_ | _) | x
  · simp [F64.le] at hx
  · simp [F64.add, F64.le]
  · simp [F64.le] at hx
  · simp only [F64.le] at hx
    have := hR.mono w (x + w) (by linarith)
    rw [hr] at this; exact this

theorem total_pos {R : Rounding} (hR : R.Lawful) {samples : List WeightedSample} (h : Positive R samples) (hne : samples ≠ []) :
    F64.le (.fin 0) (totalWeight R samples) ∧ totalWeight R samples ≠ .fin 0 := by
  unfold totalWeight
  have key : ∀ (l : List WeightedSample) (acc : F64), (∀ s ∈ l, ∃ w : ℚ, s.weight = .fin w ∧ 0 < w ∧ R.Rep w) →
      F64.le (.fin 0) acc → F64.le (.fin 0) (l.foldl (fun t s => F64.add R t s.weight) acc) ∧
        ((acc ≠ .fin 0 ∨ l ≠ []) → l.foldl (fun t s => F64.add R t s.weight) acc ≠ .fin 0) := by
    intro l
    induction l with
    | nil => intro acc _ ha; simp only [List.foldl_nil]; exact ⟨ha, by rintro (h | h); exact h; exact absurd rfl h⟩
    | cons s t ih =>
      intro acc hl ha
      obtain ⟨w, hw, hw0, hr⟩ := hl s (by simp)
      have hge := add_ge hR ha hw0.le hr
      rw [List.foldl_cons, hw]
      have h0 : F64.le (.fin 0) (F64.add R acc (.fin w)) := F64.le_trans (show F64.le (.fin 0) (.fin w) from hw0.le) hge
      obtain ⟨i1, i2⟩ := ih (F64.add R acc (.fin w)) (fun s hs => hl s (by simp [hs])) h0
      refine ⟨i1, fun _ => i2 (Or.inl ?_)⟩
      intro he
      rw [he] at hge
      simp only [F64.le] at hge
      linarith
  obtain ⟨a, b⟩ := key samples (.fin 0) h (by simp [F64.le])
  exact ⟨a, b (Or.inr hne)⟩

theorem normalized_nonneg {R : Rounding} (hR : R.Lawful) {samples : List WeightedSample} (h : Positive R samples) {s : WeightedSample}
    (hs : s ∈ samples) : F64.le (.fin 0) (F64.div R s.weight (totalWeight R samples)) := by
  obtain ⟨w, hw, hw0, _⟩ := h s hs
  obtain ⟨h1, h2⟩ := total_pos hR h (by rintro rfl; simp at hs)
  rw [hw]
  rcases ht : totalWeight R samples with _ | (_ | _) | t
  · rw [ht] at h1; simp [F64.le] at h1
  · simp [F64.div, F64.le]
  · rw [ht] at h1; simp [F64.le] at h1
  · rw [ht] at h1 h2
    simp only [F64.le] at h1
    have ht0 : t ≠ 0 := by rintro rfl; exact h2 rfl
    simp only [F64.div]
    rw [if_neg ht0]
    have := hR.mono 0 (w / t) (div_nonneg hw0.le h1)
    rw [hR.zero] at this; exact this

/-- Adding a non-negative number never makes it smaller. -/
theorem le_add {R : Rounding} (hR : R.Lawful) {x w : F64} (hx : F64.le (.fin 0) x) (hxr : ∀ q, x = .fin q → R.Rep q) (hw : F64.le (.fin 0) w) :
    x.le (F64.add R x w) := by
  rcases x with _ | (_ | _) | x
  · simp [F64.le] at hx
  · rcases w with _ | (_ | _) | w <;> simp_all [F64.add, F64.le]
  · simp [F64.le] at hx
  · rcases w with _ | (_ | _) | w
    · simp [F64.le] at hw
    · simp [F64.add, F64.le]
    · simp [F64.le] at hw
    · simp only [F64.le] at hx hw
      have := hR.mono x (x + w) (by linarith)
      rw [hxr x rfl] at this; exact this

theorem add_rep {R : Rounding} (hR : R.Lawful) {x w : F64} {q : ℚ} (h : F64.add R x w = .fin q) : R.Rep q := by
  rcases x with _ | s | x <;> rcases w with _ | s' | w <;> simp only [F64.add] at h
  all_goals try (split at h)
  all_goals try simp at h
  exact hR.idem _ _ h

theorem cumulative_sorted {R : Rounding} (hR : R.Lawful) (ws : List F64) (hw : ∀ w ∈ ws, F64.le (.fin 0) w) (acc : F64)
    (hacc : F64.le (.fin 0) acc) (hrep : ∀ q, acc = .fin q → R.Rep q) :
    (cumulative R acc ws).Pairwise F64.le ∧ ∀ x ∈ cumulative R acc ws, acc.le x := by
  induction ws generalizing acc with
  | nil => simp [cumulative]
  | cons w t ih =>
    have hle := le_add hR hacc hrep (hw w (by simp))
    obtain ⟨i1, i2⟩ := ih (fun w hw' => hw w (by simp [hw'])) (F64.add R acc w) (F64.le_trans hacc hle) (fun q hq => add_rep hR hq)
    have hall : ∀ x ∈ cumulative R (F64.add R acc w) t, acc.le x := fun x hx => F64.le_trans hle (i2 x hx)
    refine ⟨by rw [cumulative, List.pairwise_cons]; exact ⟨hall, i1⟩, ?_⟩
    intro x hx
    rw [cumulative, List.mem_cons] at hx
    rcases hx with rfl | hx
    · refine F64.le_refl' ?_
      rintro rfl; simp [F64.le] at hacc
    · exact hall x hx

theorem quantiles_sorted {R : Rounding} (hR : R.Lawful) {samples cp : List WeightedSample} (h : Positive R samples) (hs : IsSorted samples cp) :
    (new R samples cp).quantiles.Pairwise F64.le ∧ ∀ x ∈ (new R samples cp).quantiles, F64.le (.fin 0) x := by
  unfold new
  split
  · simp
  · refine cumulative_sorted hR _ ?_ _ (by simp [F64.le]) (fun q hq => by simp at hq; rw [← hq]; exact hR.rep_zero)
    intro w hw
    obtain ⟨s, hs', rfl⟩ := List.mem_map.1 hw
    exact normalized_nonneg hR h (hs.1.mem_iff.1 hs')

/-! ### exact arithmetic -/

theorem wt_eq {samples : List WeightedSample} (h : Positive exact samples) {s : WeightedSample} (hs : s ∈ samples) :
    s.weight = .fin (wt s) ∧ 0 < wt s := by
  obtain ⟨w, hw, h0, _⟩ := h s hs
  unfold wt; rw [hw]; exact ⟨rfl, h0⟩

theorem total_exact {samples : List WeightedSample} (h : Positive exact samples) : totalWeight exact samples = .fin ((samples.map wt).sum) := by
  unfold totalWeight
  have key : ∀ (l : List WeightedSample) (acc : ℚ), (∀ s ∈ l, s ∈ samples) →
      l.foldl (fun t s => F64.add exact t s.weight) (.fin acc) = .fin (acc + (l.map wt).sum) := by
    intro l
    induction l with
    | nil => intro acc _; simp
    | cons s t ih =>
      intro acc hl
      rw [List.foldl_cons, (wt_eq h (hl s (by simp))).1]
      simp only [F64.add, exact] at ih ⊢
      rw [ih _ (fun s hs => hl s (by simp [hs]))]
      simp only [List.map_cons, List.sum_cons]; congr 1; ring
  have := key samples 0 (fun _ h => h)
  rw [zero_add] at this; exact this

theorem cumulative_exact (ws : List ℚ) (acc : ℚ) : cumulative exact (.fin acc) (ws.map F64.fin) =
    (List.range ws.length).map (fun k => F64.fin (acc + (ws.take k).sum)) := by
  induction ws generalizing acc with
  | nil => rfl
  | cons w t ih =>
    simp only [List.map_cons, cumulative, List.length_cons, List.range_succ_eq_map, List.take_zero, List.sum_nil, add_zero, List.map_map]
    congr 1
    have e : F64.add exact (.fin acc) (.fin w) = .fin (acc + w) := rfl
    rw [e, ih]
    refine List.map_congr_left fun k _ => ?_
    simp only [Function.comp, List.take_succ_cons, List.sum_cons]
    congr 1; ring

end WeightedSnapshot
end GoMetrics
