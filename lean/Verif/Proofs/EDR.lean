import Verif.Spec.EDR
import Verif.Proofs.WeightedSnapshot
/-! # The decaying reservoir: proofs -/
namespace GoMetrics
open Rounding

namespace F64

theorem lt_irrefl (x : F64) : ¬ x.lt x := by
  cases x with
  | nan => simp [lt]
  | inf s => cases s <;> simp [lt]
  | fin q => simp [lt]

theorem lt_trans {x y z : F64} (h : x.lt y) (h' : y.lt z) : x.lt z := by
  rcases x with _ | s | a <;> rcases y with _ | s' | b <;> rcases z with _ | s'' | c <;>
    (try cases s) <;> (try cases s') <;> (try cases s'') <;> simp_all [lt]
  exact _root_.lt_trans h h'

theorem lt_asymm {x y : F64} (h : x.lt y) : ¬ y.lt x := fun h' => lt_irrefl _ (lt_trans h h')

theorem lt_total {x y : F64} (hx : x ≠ .nan) (hy : y ≠ .nan) : x.lt y ∨ x = y ∨ y.lt x := by
  rcases x with _ | s | a <;> rcases y with _ | s' | b <;>
    (try cases s) <;> (try cases s') <;> simp_all [lt]
  exact lt_trichotomy a b

theorem le_iff {x y : F64} (hx : x ≠ .nan) (hy : y ≠ .nan) : x.le y ↔ ¬ y.lt x := by
  rcases x with _ | s | a <;> rcases y with _ | s' | b <;>
    (try cases s) <;> (try cases s') <;> simp_all [lt, le]

theorem lt_of_le_of_lt {x y z : F64} (h : x.le y) (h' : y.lt z) : x.lt z := by
  rcases x with _ | s | a <;> rcases y with _ | s' | b <;> rcases z with _ | s'' | c <;>
    (try cases s) <;> (try cases s') <;> (try cases s'') <;> simp_all [lt, le]
  exact _root_.lt_of_le_of_lt h h'

theorem lt_ne_nan {x y : F64} (h : x.lt y) : x ≠ .nan ∧ y ≠ .nan := by
  rcases x with _ | s | a <;> rcases y with _ | s' | b <;> simp_all [lt]

theorem nonNeg_cases {x : F64} (h : NonNeg x) : x = .nan ∨ x = .inf false ∨ ∃ q : ℚ, 0 ≤ q ∧ x = .fin q := by
  rcases x with _ | s | a
  · simp
  · cases s <;> simp_all [NonNeg, lt]
  · right; right; exact ⟨a, by simpa [NonNeg, lt] using h, rfl⟩

theorem nonNeg_fin {q : ℚ} (h : 0 ≤ q) : NonNeg (.fin q) := by simpa [NonNeg, lt] using h
theorem nonNeg_nan : NonNeg .nan := by simp [NonNeg, lt]
theorem nonNeg_inf : NonNeg (.inf false) := by simp [NonNeg, lt]

theorem nonNeg_rnd {R : Rounding} (hR : R.Lawful) {q : ℚ} (h : 0 ≤ q) : NonNeg (R.rnd q) := by
  have := hR.mono _ _ h
  rw [hR.zero] at this
  cases hv : R.rnd q with
  | nan => exact nonNeg_nan
  | inf s => rw [hv] at this; cases s <;> simp_all [le, NonNeg, lt]
  | fin v => rw [hv] at this; exact nonNeg_fin this

theorem nonNeg_mul {R : Rounding} (hR : R.Lawful) {x y : F64} (hx : NonNeg x) (hy : NonNeg y) : NonNeg (mul R x y) := by
  rcases nonNeg_cases hx with rfl | rfl | ⟨a, ha, rfl⟩ <;> rcases nonNeg_cases hy with rfl | rfl | ⟨b, hb, rfl⟩ <;>
    simp only [mul, nonNeg_nan]
  · exact nonNeg_inf
  · split
    · exact nonNeg_nan
    · simpa [not_lt.2 hb] using nonNeg_inf
  · split
    · exact nonNeg_nan
    · simpa [not_lt.2 ha] using nonNeg_inf
  · exact nonNeg_rnd hR (mul_nonneg ha hb)

theorem nonNeg_div {R : Rounding} (hR : R.Lawful) {x y : F64} (hx : NonNeg x) (hy : NonNeg y) : NonNeg (div R x y) := by
  rcases nonNeg_cases hx with rfl | rfl | ⟨a, ha, rfl⟩ <;> rcases nonNeg_cases hy with rfl | rfl | ⟨b, hb, rfl⟩ <;>
    simp only [div, nonNeg_nan]
  · simpa [not_lt.2 hb] using nonNeg_inf
  · exact nonNeg_fin le_rfl
  · split
    · split
      · exact nonNeg_nan
      · simpa [not_lt.2 ha] using nonNeg_inf
    · exact nonNeg_rnd hR (div_nonneg ha hb)

theorem mul_ne_nan {R : Rounding} (hR : R.Lawful) {x y : F64} (hx : x ≠ .nan) (hy : y ≠ .nan) (hy0 : ¬ F64.eq y (.fin 0))
    (hyi : ∀ s, y ≠ .inf s) : mul R x y ≠ .nan := by
  rcases x with _ | s | a
  · simp at hx
  · rcases y with _ | s' | b
    · simp at hy
    · simp [mul]
    · have : ¬ b = 0 := by rintro rfl; exact hy0 ⟨by simp [le], by simp [le]⟩
      simp [mul, this]
  · rcases y with _ | s' | b
    · simp at hy
    · exact absurd rfl (hyi s')
    · exact hR.not_nan _

theorem div_ne_nan {R : Rounding} (hR : R.Lawful) {x : F64} {u : ℚ} (hx : x ≠ .nan) (hu : 0 < u) : div R x (.fin u) ≠ .nan := by
  rcases x with _ | s | a
  · simp at hx
  · simp [div]
  · simp only [div, hu.ne', if_false]; exact hR.not_nan _

end F64

namespace WeightedSample

theorem compare_neg (a b : WeightedSample) : a.compare b < 0 ↔ a.key.lt b.key := by
  unfold compare; split
  · simpa
  · split <;> simpa

theorem compare_zero (a b : WeightedSample) : a.compare b = 0 ↔ ¬ a.key.lt b.key ∧ ¬ b.key.lt a.key := by
  unfold compare; split
  · simp; tauto
  · split <;> simp_all

theorem compare_zero' {a b : WeightedSample} (ha : a.key ≠ .nan) (hb : b.key ≠ .nan) : a.compare b = 0 ↔ a.key = b.key := by
  rw [compare_zero]
  constructor
  · rintro ⟨h1, h2⟩
    rcases F64.lt_total ha hb with h | h | h
    · exact absurd h h1
    · exact h
    · exact absurd h h2
  · intro h; rw [h]; exact ⟨F64.lt_irrefl _, F64.lt_irrefl _⟩

theorem compare_self (a : WeightedSample) : a.compare a = 0 := (compare_zero a a).2 ⟨F64.lt_irrefl _, F64.lt_irrefl _⟩

end WeightedSample

namespace SkipList
open WeightedSample

/-- Ascending keys, no NaN, no two equal. -/
def Sorted (l : SkipList) : Prop := l.Pairwise (fun a b => a.key.lt b.key) ∧ ∀ s ∈ l, s.key ≠ .nan

theorem mem_insert {s x : WeightedSample} {l : SkipList} (h : x ∈ insert s l) : x = s ∨ x ∈ l := by
  induction l with
  | nil => simpa [insert] using h
  | cons e t ih =>
    unfold insert at h
    split at h
    · rcases List.mem_cons.1 h with rfl | h
      · simp
      · rcases ih h with h | h <;> simp [h]
    · split at h
      · rcases List.mem_cons.1 h with h | h <;> simp [h]
      · rcases List.mem_cons.1 h with h | h
        · simp [h]
        · exact Or.inr h

theorem self_mem_insert (s : WeightedSample) (l : SkipList) : s ∈ insert s l := by
  induction l with
  | nil => simp [insert]
  | cons e t ih =>
    unfold insert
    split
    · exact List.mem_cons_of_mem _ ih
    · split <;> simp

theorem insert_ne_nil (s : WeightedSample) (l : SkipList) : insert s l ≠ [] := List.ne_nil_of_mem (self_mem_insert s l)

theorem length_insert_le (s : WeightedSample) (l : SkipList) : (insert s l).length ≤ l.length + 1 := by
  induction l with
  | nil => simp [insert]
  | cons e t ih =>
    unfold insert
    split
    · simpa using ih
    · split <;> simp

theorem delete_sublist (s : WeightedSample) (l : SkipList) : (delete s l).Sublist l := by
  induction l with
  | nil => simp [delete]
  | cons e t ih =>
    unfold delete
    split
    · exact ih.cons_cons _
    · split
      · exact List.sublist_cons_self _ _
      · exact List.Sublist.refl _

theorem delete_head (s : WeightedSample) (t : SkipList) : delete s (s :: t) = t := by
  have h := compare_self s
  unfold delete
  rw [if_neg (by omega), if_pos h]

theorem length_overwrite (s : WeightedSample) (l : SkipList) : (overwrite s l).length = l.length := by
  induction l with
  | nil => simp [overwrite]
  | cons e t ih =>
    unfold overwrite
    split
    · simpa using ih
    · split <;> simp

theorem mem_overwrite {s x : WeightedSample} {l : SkipList} (h : x ∈ overwrite s l) :
    x ∈ l ∨ ∃ e ∈ l, x = { e with value := s.value, weight := s.weight } := by
  induction l with
  | nil => simp [overwrite] at h
  | cons e t ih =>
    unfold overwrite at h
    split at h
    · rcases List.mem_cons.1 h with rfl | h
      · simp
      · rcases ih h with h | ⟨e', h, h'⟩
        · simp [h]
        · exact Or.inr ⟨e', List.mem_cons_of_mem _ h, h'⟩
    · split at h
      · rcases List.mem_cons.1 h with h | h
        · exact Or.inr ⟨e, by simp, h⟩
        · simp [h]
      · exact Or.inl h

theorem keys_overwrite (s : WeightedSample) (l : SkipList) : (overwrite s l).map (·.key) = l.map (·.key) := by
  induction l with
  | nil => simp [overwrite]
  | cons e t ih =>
    unfold overwrite
    split
    · simpa using ih
    · split <;> simp

/-- Being sorted is about the keys only. -/
theorem sorted_iff_keys (l : SkipList) :
    Sorted l ↔ (l.map (·.key)).Pairwise F64.lt ∧ ∀ k ∈ l.map (·.key), k ≠ .nan := by
  simp [Sorted, List.pairwise_map]

theorem sorted_overwrite {s : WeightedSample} {l : SkipList} (h : Sorted l) : Sorted (overwrite s l) := by
  rw [sorted_iff_keys, keys_overwrite, ← sorted_iff_keys]; exact h

theorem sorted_sublist {l l' : SkipList} (h : Sorted l) (hs : l'.Sublist l) : Sorted l' :=
  ⟨h.1.sublist hs, fun s hs' => h.2 s (hs.subset hs')⟩

theorem sorted_insert {s : WeightedSample} {l : SkipList} (h : Sorted l) (hs : s.key ≠ .nan) : Sorted (insert s l) := by
  induction l with
  | nil => exact ⟨by simp [insert], by simpa [insert] using hs⟩
  | cons e t ih =>
    have hp := List.pairwise_cons.1 h.1
    have he := h.2 e (by simp)
    have ht : Sorted t := ⟨hp.2, fun x hx => h.2 x (List.mem_cons_of_mem _ hx)⟩
    unfold insert
    split
    · rename_i hc
      have hc := (compare_neg _ _).1 hc
      have := ih ht
      refine ⟨List.pairwise_cons.2 ⟨?_, this.1⟩, ?_⟩
      · intro x hx
        rcases mem_insert hx with rfl | hx
        · exact hc
        · exact hp.1 x hx
      · intro x hx
        rcases List.mem_cons.1 hx with rfl | hx
        · exact he
        · exact this.2 x hx
    · rename_i hc
      split
      · rename_i hz
        have hk := (compare_zero' he hs).1 hz
        refine ⟨List.pairwise_cons.2 ⟨fun x hx => hk ▸ hp.1 x hx, hp.2⟩, ?_⟩
        intro x hx
        rcases List.mem_cons.1 hx with rfl | hx
        · exact hs
        · exact ht.2 x hx
      · rename_i hz
        have hlt : s.key.lt e.key := by
          rw [compare_neg] at hc
          rw [compare_zero' he hs] at hz
          rcases F64.lt_total hs he with h' | h' | h'
          · exact h'
          · exact absurd h'.symm hz
          · exact absurd h' hc
        refine ⟨List.pairwise_cons.2 ⟨?_, h.1⟩, ?_⟩
        · intro x hx
          rcases List.mem_cons.1 hx with rfl | hx
          · exact hlt
          · exact F64.lt_trans hlt (hp.1 x hx)
        · intro x hx
          rcases List.mem_cons.1 hx with rfl | hx
          · exact hs
          · exact h.2 x hx

/-- A sorted list into which a new key is inserted. -/
theorem insert_split {s : WeightedSample} {pre post : SkipList} (h1 : ∀ x ∈ pre, x.key.lt s.key) (h2 : ∀ x ∈ post, s.key.lt x.key) :
    insert s (pre ++ post) = pre ++ s :: post := by
  induction pre with
  | nil =>
    cases post with
    | nil => rfl
    | cons e t =>
      have h := h2 e (by simp)
      have hn : ¬ e.compare s < 0 := by rw [compare_neg]; exact F64.lt_asymm h
      have hz : ¬ e.compare s = 0 := by rw [compare_zero]; simp [h]
      simp [insert, hn, hz]
  | cons e t ih =>
    have h := (compare_neg e s).2 (h1 e (by simp))
    simp only [List.cons_append, insert, h, if_true]
    rw [ih fun x hx => h1 x (List.mem_cons_of_mem _ hx)]

theorem delete_split {s e : WeightedSample} {pre post : SkipList} (h1 : ∀ x ∈ pre, x.key.lt s.key) (he : e.compare s = 0) :
    delete s (pre ++ e :: post) = pre ++ post := by
  induction pre with
  | nil => simp [delete, he]
  | cons x t ih =>
    have h := (compare_neg x s).2 (h1 x (by simp))
    simp only [List.cons_append, delete, h, if_true]
    rw [ih fun x hx => h1 x (List.mem_cons_of_mem _ hx)]

theorem get?_none {s : WeightedSample} {l : SkipList} (h : ∀ x ∈ l, ¬ x.compare s = 0) : get? s l = none := by
  induction l with
  | nil => rfl
  | cons e t ih =>
    unfold get?
    split
    · exact ih fun x hx => h x (List.mem_cons_of_mem _ hx)
    · rw [if_neg (h e (by simp))]

/-- Cutting a sorted list at an entry. -/
theorem sorted_split {l : SkipList} (h : Sorted l) {e : WeightedSample} (he : e ∈ l) :
    ∃ pre post, l = pre ++ e :: post ∧ (∀ x ∈ pre, x.key.lt e.key) ∧ ∀ x ∈ post, e.key.lt x.key := by
  obtain ⟨pre, post, rfl⟩ := List.append_of_mem he
  have := List.pairwise_append.1 h.1
  exact ⟨pre, post, rfl, fun x hx => this.2.2 x hx e (by simp), (List.pairwise_cons.1 this.2.1).1⟩

theorem length_delete {s e : WeightedSample} {l : SkipList} (h : Sorted l) (he : e ∈ l) (hk : e.key = s.key) :
    (delete s l).length + 1 = l.length ∧ ∀ x ∈ l, x.key ≠ s.key → x ∈ delete s l := by
  obtain ⟨pre, post, rfl, h1, -⟩ := sorted_split h he
  have hz : e.compare s = 0 := (compare_zero _ _).2 (by rw [hk]; exact ⟨F64.lt_irrefl _, F64.lt_irrefl _⟩)
  rw [delete_split (by rw [← hk]; exact h1) hz]
  refine ⟨by simp; omega, ?_⟩
  intro x hx hne
  simp only [List.mem_append, List.mem_cons] at hx ⊢
  rcases hx with hx | rfl | hx
  · exact Or.inl hx
  · exact absurd hk hne
  · exact Or.inr hx

/-- An insertion keeps every key. -/
theorem key_mem_insert {s e : WeightedSample} {l : SkipList} (h : Sorted l) (hs : s.key ≠ .nan) (he : e ∈ l) :
    ∃ x ∈ insert s l, x.key = e.key := by
  induction l with
  | nil => simp at he
  | cons a t ih =>
    have ht : Sorted t := sorted_sublist h (List.sublist_cons_self _ _)
    unfold insert
    split
    · rcases List.mem_cons.1 he with rfl | he
      · exact ⟨e, by simp, rfl⟩
      · obtain ⟨x, hx, hx'⟩ := ih ht he
        exact ⟨x, List.mem_cons_of_mem _ hx, hx'⟩
    · split
      · rename_i hz
        rcases List.mem_cons.1 he with rfl | he
        · exact ⟨s, by simp, ((compare_zero' (h.2 e (by simp)) hs).1 hz).symm⟩
        · exact ⟨e, List.mem_cons_of_mem _ he, rfl⟩
      · exact ⟨e, List.mem_cons_of_mem _ he, rfl⟩

end SkipList

namespace EDR
open WeightedSample
variable {A : Arith}

/-- No key is negative. -/
def KeysNonNeg (l : SkipList) : Prop := ∀ s ∈ l, s.key.NonNeg

theorem getValues_eq {r : EDR} (h : KeysNonNeg r.values) : r.getValues = r.values := by
  unfold getValues SkipList.iter
  cases hv : r.values with
  | nil => rfl
  | cons e t =>
    have he : ¬ e.compare ⟨.fin 0, 0, .fin 0⟩ < 0 := by
      rw [compare_neg]; exact h e (by simp [hv])
    rw [List.dropWhile_cons_of_neg (by simpa using he)]

theorem nonneg_insert {s : WeightedSample} {l : SkipList} (h : KeysNonNeg l) (hs : s.key.NonNeg) : KeysNonNeg (SkipList.insert s l) := by
  intro x hx
  rcases SkipList.mem_insert hx with rfl | hx
  · exact hs
  · exact h x hx

theorem nonneg_sublist {l l' : SkipList} (h : KeysNonNeg l) (hs : l'.Sublist l) : KeysNonNeg l' := fun x hx => h x (hs.subset hx)

theorem nonneg_overwrite {s : WeightedSample} {l : SkipList} (h : KeysNonNeg l) : KeysNonNeg (SkipList.overwrite s l) := by
  intro x hx
  rcases SkipList.mem_overwrite hx with hx | ⟨e, he, rfl⟩
  · exact h x hx
  · exact h e he

theorem nonneg_loop (hR : A.R.Lawful) {f : F64} (hf : f.NonNeg) (samples : List WeightedSample) (l : SkipList) (hs : KeysNonNeg samples)
    (hl : KeysNonNeg l) : KeysNonNeg (rescaleLoop A f samples l) := by
  induction samples generalizing l with
  | nil => exact hl
  | cons s t ih =>
    apply ih
    · exact fun x hx => hs x (List.mem_cons_of_mem _ hx)
    · apply nonneg_insert (nonneg_sublist hl (SkipList.delete_sublist _ _))
      exact F64.nonNeg_mul hR (hs s (by simp)) hf

theorem loop_ne_nil {f : F64} (samples : List WeightedSample) (l : SkipList) (h : samples ≠ [] ∨ l ≠ []) :
    rescaleLoop A f samples l ≠ [] := by
  induction samples generalizing l with
  | nil => simpa [rescaleLoop] using h
  | cons s t ih => exact ih _ (Or.inr (SkipList.insert_ne_nil _ _))

/-- What holds in every state, without any assumption about NaN. -/
structure InvA (r : EDR) : Prop where
  keys : KeysNonNeg r.values
  count : InI64 r.count
  live : 0 < r.count → r.values ≠ []

theorem invA_new (size : Int) (alpha : F64) (time tick : Int) : InvA (new size alpha time tick) :=
  ⟨by simp [new, KeysNonNeg], by simp [new, InI64], by simp [new]⟩

theorem invA_rescaleLocked_of (hR : A.R.Lawful) {r : EDR} (h : InvA r) (time : Int)
    (hf : (scalingFactor A r.alpha r.startTime (currentTimeInSecond time)).NonNeg) : InvA (rescaleLocked A r time) := by
  unfold rescaleLocked
  simp only
  split
  · exact ⟨by simp [KeysNonNeg], by simp [InI64], by simp⟩
  · have hg : getValues { r with startTime := currentTimeInSecond time } = r.values := getValues_eq (by exact h.keys)
    rw [hg]
    refine ⟨nonneg_loop hR hf _ _ h.keys h.keys, i64_in _, ?_⟩
    intro hc
    by_cases hv : r.values = []
    · simp [hv, rescaleLoop] at hc
    · exact loop_ne_nil _ _ (Or.inr hv)

theorem invA_rescaleLocked (hA : A.Lawful) {r : EDR} (h : InvA r) (time : Int) : InvA (rescaleLocked A r time) :=
  invA_rescaleLocked_of hA.rnd h time (hA.nonneg _)

theorem invA_rescale (hA : A.Lawful) {r : EDR} (h : InvA r) (tick time : Int) : InvA (rescaleIfNeeded A r tick time) := by
  unfold rescaleIfNeeded
  split
  · exact invA_rescaleLocked hA (r := { r with nextScaleTime := i64 (tick + rescaleThreshold) }) ⟨h.keys, h.count, h.live⟩ time
  · exact h

theorem invA_record {r : EDR} (h : InvA r) (hsz : 1 ≤ r.size) {prio w : F64} (hp : prio.NonNeg) (value : Int) :
    InvA (record r prio value w).state ∧ (record r prio value w).panicked = false := by
  have hg : getValues { r with count := i64 (r.count + 1) } = r.values := getValues_eq (by exact h.keys)
  have hc := h.count
  unfold record
  simp only [hg]
  by_cases h1 : i64 (r.count + 1) ≤ r.size
  · rw [if_pos h1]
    exact ⟨⟨nonneg_insert h.keys hp, i64_in _, fun _ => SkipList.insert_ne_nil _ _⟩, rfl⟩
  · rw [if_neg h1]
    cases hv : r.values with
    | nil =>
      have hc0 : ¬ 0 < r.count := fun h' => h.live h' hv
      exfalso
      unfold InI64 at hc
      unfold i64 at h1; omega
    | cons first t =>
      have hk := h.keys
      rw [hv] at hk
      simp only
      split
      · exact ⟨⟨hk, i64_in _, by simp⟩, rfl⟩
      · split
        · refine ⟨⟨nonneg_overwrite hk, i64_in _, ?_⟩, rfl⟩
          intro _ h0
          have := SkipList.length_overwrite ⟨prio, value, w⟩ (first :: t)
          simp only [Res.state] at h0
          rw [h0] at this; simp at this
        · refine ⟨⟨nonneg_insert (nonneg_sublist hk (SkipList.delete_sublist _ _)) hp, i64_in _, fun _ => SkipList.insert_ne_nil _ _⟩, rfl⟩

/-! ## Values -/

theorem values_insert {P : Int → Prop} {s : WeightedSample} {l : SkipList} (h : ∀ x ∈ l, P x.value) (hs : P s.value) :
    ∀ x ∈ SkipList.insert s l, P x.value := by
  intro x hx
  rcases SkipList.mem_insert hx with rfl | hx
  · exact hs
  · exact h x hx

theorem values_rescaleLocked {P : Int → Prop} {r : EDR} (h : ∀ x ∈ r.values, P x.value) (time : Int) :
    ∀ x ∈ (rescaleLocked A r time).values, P x.value := by
  unfold rescaleLocked
  simp only
  split
  · simp
  · have hg : ∀ x ∈ getValues { r with startTime := currentTimeInSecond time }, P x.value :=
      fun x hx => h x ((List.dropWhile_sublist _).subset hx)
    revert hg
    generalize getValues { r with startTime := currentTimeInSecond time } = samples
    simp only
    generalize r.values = l at h
    intro hg
    induction samples generalizing l with
    | nil => exact h
    | cons s t ih =>
      apply ih
      · exact values_insert (fun x hx => h x ((SkipList.delete_sublist _ _).subset hx)) (hg s (by simp))
      · exact fun x hx => hg x (List.mem_cons_of_mem _ hx)

theorem values_record {P : Int → Prop} {r : EDR} (h : ∀ x ∈ r.values, P x.value) {prio w : F64} {value : Int} (hv : P value) :
    ∀ x ∈ (record r prio value w).state.values, P x.value := by
  unfold record
  simp only
  split
  · exact values_insert h hv
  · split
    · exact h
    · split
      · exact h
      · split
        · intro x hx
          rcases SkipList.mem_overwrite hx with hx | ⟨e, he, rfl⟩
          · exact h x hx
          · exact hv
        · exact values_insert (fun x hx => h x ((SkipList.delete_sublist _ _).subset hx)) hv

/-! ## Sizes -/

/-- What holds as long as no key is NaN. -/
structure InvB (r : EDR) (n : Int) : Prop where
  sorted : SkipList.Sorted r.values
  keys : KeysNonNeg r.values
  le_size : (r.values.length : Int) ≤ r.size
  le_count : (r.values.length : Int) ≤ r.count
  count_le : r.count ≤ n

theorem loop_sizes (hA : A.Lawful) {f : F64} (hf : f ≠ .nan) (hf0 : ¬ F64.eq f (.fin 0)) (hfi : ∀ s, f ≠ .inf s)
    (samples : List WeightedSample) (l : SkipList) (hs : SkipList.Sorted samples) (hl : SkipList.Sorted l)
    (hm : ∀ s ∈ samples, ∃ e ∈ l, e.key = s.key) :
    SkipList.Sorted (rescaleLoop A f samples l) ∧ (rescaleLoop A f samples l).length ≤ l.length := by
  induction samples generalizing l with
  | nil => exact ⟨hl, le_rfl⟩
  | cons s t ih =>
    obtain ⟨e, he, hk⟩ := hm s (by simp)
    obtain ⟨hlen, hkeep⟩ := SkipList.length_delete hl he hk
    have hd : SkipList.Sorted (SkipList.delete s l) := SkipList.sorted_sublist hl (SkipList.delete_sublist _ _)
    have hsk : (scale A f s).key ≠ .nan := F64.mul_ne_nan hA.rnd (hs.2 s (by simp)) hf hf0 hfi
    have hp := List.pairwise_cons.1 hs.1
    obtain ⟨h1, h2⟩ := ih (SkipList.insert (scale A f s) (SkipList.delete s l))
      ⟨hp.2, fun x hx => hs.2 x (List.mem_cons_of_mem _ hx)⟩ (SkipList.sorted_insert hd hsk) (by
        intro x hx
        obtain ⟨e', he', hk'⟩ := hm x (List.mem_cons_of_mem _ hx)
        have hne : e'.key ≠ s.key := by
          intro h
          have := hp.1 x hx
          rw [← hk', h] at this
          exact F64.lt_irrefl _ this
        obtain ⟨y, hy, hyk⟩ := SkipList.key_mem_insert (s := scale A f s) hd hsk (hkeep e' he' hne)
        exact ⟨y, hy, hyk.trans hk'⟩)
    refine ⟨h1, le_trans h2 ?_⟩
    have := SkipList.length_insert_le (scale A f s) (SkipList.delete s l)
    omega

theorem factor_ne_nan (hA : A.Lawful) (a : ℚ) (old new : Int) : scalingFactor A (.fin a) old new ≠ .nan := by
  unfold scalingFactor
  obtain ⟨q, hq⟩ := hA.ints _ (i64_in (new - old))
  rw [hq]
  exact hA.not_nan _ (hA.rnd.not_nan _)

theorem weight_ne_nan (hA : A.Lawful) (a : ℚ) {t : Int} (ht : InI64 t) : weight A (.fin a) t ≠ .nan := by
  unfold weight
  obtain ⟨q, hq⟩ := hA.ints _ ht
  rw [hq]
  exact hA.not_nan _ (hA.rnd.not_nan _)

theorem invB_rescaleLocked (hA : A.Lawful) {r : EDR} {n : Int} (h : InvB r n) {a : ℚ} (ha : r.alpha = .fin a) (hsz : 0 ≤ r.size) (hn : n < 9223372036854775808)
    (time : Int) (hn0 : 0 ≤ n) (hfi : scalingFactor A r.alpha r.startTime (currentTimeInSecond time) ≠ .inf false) :
    InvB (rescaleLocked A r time) n := by
  unfold rescaleLocked
  simp only
  have hg : getValues { r with startTime := currentTimeInSecond time } = r.values := getValues_eq (by exact h.keys)
  rw [hg]
  have hfn : (scalingFactor A r.alpha r.startTime (currentTimeInSecond time)).NonNeg := hA.nonneg _
  have hfnan : scalingFactor A r.alpha r.startTime (currentTimeInSecond time) ≠ .nan := by rw [ha]; exact factor_ne_nan hA a _ _
  revert hfi hfn hfnan
  generalize scalingFactor A r.alpha r.startTime (currentTimeInSecond time) = f
  intro hfi hfn hfnan
  by_cases hz : F64.eq f (.fin 0)
  · rw [if_pos hz]; exact ⟨by simp [SkipList.Sorted], by simp [KeysNonNeg], by simpa using hsz, by simp, hn0⟩
  · rw [if_neg hz]
    have hfi' : ∀ s, f ≠ .inf s := by
      intro s
      cases s
      · exact hfi
      · rintro rfl; simp [F64.NonNeg, F64.lt] at hfn
    obtain ⟨h1, h2⟩ := loop_sizes hA hfnan hz hfi' r.values r.values h.sorted h.sorted (fun s hs => ⟨s, hs, rfl⟩)
    have h3 := h.le_size
    have h4 := h.le_count
    have h5 := h.count_le
    have hi : i64 ((rescaleLoop A f r.values r.values).length : Int) = (rescaleLoop A f r.values r.values).length := by
      apply i64_of_in; unfold InI64; omega
    refine ⟨h1, nonneg_loop hA.rnd hfn _ _ h.keys h.keys, ?_, ?_, ?_⟩
    · simp only; omega
    · simp only; omega
    · simp only; omega

theorem invB_record {r : EDR} {n : Int} (h : InvB r n) (hsz : 1 ≤ r.size) (hn : n + 1 < 9223372036854775808) {prio w : F64} (hp : prio.NonNeg)
    (hp' : prio ≠ .nan) (value : Int) : InvB (record r prio value w).state (n + 1) := by
  have hg : getValues { r with count := i64 (r.count + 1) } = r.values := getValues_eq (by exact h.keys)
  have h3 := h.le_size
  have h4 := h.le_count
  have h5 := h.count_le
  have hi : i64 (r.count + 1) = r.count + 1 := by apply i64_of_in; unfold InI64; omega
  rw [hi] at hg
  unfold record
  simp only [hi, hg]
  by_cases h1 : r.count + 1 ≤ r.size
  · rw [if_pos h1]
    have := SkipList.length_insert_le ⟨prio, value, w⟩ r.values
    refine ⟨SkipList.sorted_insert h.sorted hp', nonneg_insert h.keys hp, ?_, ?_, ?_⟩ <;> simp only [Res.state] <;> omega
  · rw [if_neg h1]
    cases hv : r.values with
    | nil =>
      simp only
      rw [hv] at h3 h4
      simp only [List.length_nil] at h3 h4
      refine ⟨by simp [SkipList.Sorted], by simp [KeysNonNeg], ?_, ?_, ?_⟩ <;> simp only [Res.state, List.length_nil] <;> omega
    | cons first t =>
      have hk := h.keys
      have hs := h.sorted
      rw [hv] at hk hs h3 h4
      simp only
      split
      · refine ⟨hs, hk, ?_, ?_, ?_⟩ <;> simp only [Res.state] <;> omega
      · split
        · have := SkipList.length_overwrite ⟨prio, value, w⟩ (first :: t)
          refine ⟨SkipList.sorted_overwrite hs, nonneg_overwrite hk, ?_, ?_, ?_⟩ <;> simp only [Res.state] <;> omega
        · have := SkipList.length_insert_le ⟨prio, value, w⟩ (SkipList.delete first (first :: t))
          have hd := SkipList.delete_sublist first (first :: t)
          rw [SkipList.delete_head] at *
          simp only [List.length_cons] at *
          refine ⟨SkipList.sorted_insert (SkipList.sorted_sublist hs hd) hp', nonneg_insert (nonneg_sublist hk hd) hp, ?_, ?_, ?_⟩ <;>
            simp only [Res.state] <;> omega

/-! ## Histories -/

theorem rescaleLocked_frame (r : EDR) (time : Int) : (rescaleLocked A r time).alpha = r.alpha ∧ (rescaleLocked A r time).size = r.size ∧
    (rescaleLocked A r time).startTime = currentTimeInSecond time ∧ (rescaleLocked A r time).nextScaleTime = r.nextScaleTime := by
  unfold rescaleLocked
  simp only
  split <;> exact ⟨rfl, rfl, rfl, rfl⟩

theorem rescale_frame (r : EDR) (tick time : Int) : (rescaleIfNeeded A r tick time).alpha = r.alpha ∧ (rescaleIfNeeded A r tick time).size = r.size ∧
    ((rescaleIfNeeded A r tick time).startTime = r.startTime ∨ (rescaleIfNeeded A r tick time).startTime = currentTimeInSecond time) := by
  unfold rescaleIfNeeded
  split
  · obtain ⟨h1, h2, h3, -⟩ := rescaleLocked_frame (A := A) { r with nextScaleTime := i64 (tick + rescaleThreshold) } time
    exact ⟨h1, h2, Or.inr h3⟩
  · exact ⟨rfl, rfl, Or.inl rfl⟩

theorem record_frame (r : EDR) (prio : F64) (value : Int) (w : F64) : (record r prio value w).state.alpha = r.alpha ∧
    (record r prio value w).state.size = r.size ∧ (record r prio value w).state.startTime = r.startTime ∧
    (record r prio value w).state.nextScaleTime = r.nextScaleTime := by
  unfold record
  simp only
  split
  · exact ⟨rfl, rfl, rfl, rfl⟩
  · split
    · exact ⟨rfl, rfl, rfl, rfl⟩
    · split
      · exact ⟨rfl, rfl, rfl, rfl⟩
      · split <;> exact ⟨rfl, rfl, rfl, rfl⟩

theorem step_frame (r : EDR) (o : Op) : (step A r o).state.alpha = r.alpha ∧ (step A r o).state.size = r.size := by
  cases o with
  | updateN env v =>
    simp only [step, updateN]
    obtain ⟨h1, h2, -⟩ := record_frame (rescaleIfNeeded A r env.tick env.scaleTime)
      (priority A (weight A (rescaleIfNeeded A r env.tick env.scaleTime).alpha
        (i64 (currentTimeInSecond env.time - (rescaleIfNeeded A r env.tick env.scaleTime).startTime))) env.u) v
      (weight A (rescaleIfNeeded A r env.tick env.scaleTime).alpha
        (i64 (currentTimeInSecond env.time - (rescaleIfNeeded A r env.tick env.scaleTime).startTime)))
    obtain ⟨h3, h4, -⟩ := rescale_frame (A := A) r env.tick env.scaleTime
    exact ⟨h1.trans h3, h2.trans h4⟩
  | getSnapshot tick t =>
    obtain ⟨h3, h4, -⟩ := rescale_frame (A := A) r tick t
    exact ⟨h3, h4⟩

theorem invA_step (hA : A.Lawful) {r : EDR} (h : InvA r) (hsz : 1 ≤ r.size) (o : Op) (hu : ∀ u ∈ draws [o], u.NonNeg) :
    InvA (step A r o).state ∧ (step A r o).panicked = false := by
  cases o with
  | updateN env v =>
    have h1 := invA_rescale hA h env.tick env.scaleTime
    have h2 := (rescale_frame (A := A) r env.tick env.scaleTime).2.1
    exact invA_record h1 (by omega) (F64.nonNeg_div hA.rnd (hA.nonneg _) (hu env.u (by simp [draws]))) v
  | getSnapshot tick t => exact ⟨invA_rescale hA h tick t, rfl⟩

theorem draws_append (h h' : List Op) : draws (h ++ h') = draws h ++ draws h' := by
  induction h with
  | nil => rfl
  | cons o h ih => cases o <;> simp [draws, ih]

theorem invA_run (hA : A.Lawful) (h : List Op) (r : EDR) (hr : InvA r) (hsz : 1 ≤ r.size) (hu : ∀ u ∈ draws h, u.NonNeg) :
    InvA (run A r h) ∧ (run A r h).size = r.size := by
  induction h generalizing r with
  | nil => exact ⟨hr, rfl⟩
  | cons o h ih =>
    have hu' : ∀ u ∈ draws [o] ++ draws h, u.NonNeg := by rw [← draws_append]; exact hu
    have hs := (step_frame (A := A) r o).2
    obtain ⟨h1, -⟩ := invA_step hA hr hsz o fun u hu => hu' u (by simp [hu])
    obtain ⟨h2, h3⟩ := ih (step A r o).state h1 (by omega) fun u hu => hu' u (by simp [hu])
    exact ⟨h2, h3.trans hs⟩

theorem invB_rescale (hA : A.Lawful) {r : EDR} {n : Int} (h : InvB r n) {a : ℚ} (ha : r.alpha = .fin a) (hsz : 0 ≤ r.size)
    (hn : n < 9223372036854775808) (hn0 : 0 ≤ n) (tick time : Int)
    (hfi : scalingFactor A r.alpha r.startTime (currentTimeInSecond time) ≠ .inf false) : InvB (rescaleIfNeeded A r tick time) n := by
  unfold rescaleIfNeeded
  split
  · exact invB_rescaleLocked hA (r := { r with nextScaleTime := i64 (tick + rescaleThreshold) }) ⟨h.sorted, h.keys, h.le_size, h.le_count, h.count_le⟩
      ha hsz hn time hn0 hfi
  · exact h

end EDR
end GoMetrics
