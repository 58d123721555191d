import Mathlib.Data.List.Range
import Mathlib.Data.List.Nodup
import Mathlib.Data.Nat.Factorial.Basic
/-! # Specification: sequences of random positions

The position for the k-th update (k = 1, 2, ...) is any number below k; `draws n` lists every sequence for n updates. -/
namespace GoMetrics

/-- All sequences of `n` positions. -/
def draws : Nat → List (List Nat)
  | 0 => [[]]
  | n + 1 => (draws n).flatMap fun s => (List.range (n + 1)).map fun p => s ++ [p]

/-- `draws n` contains exactly the sequences whose k-th entry (counted from 0) is at most k, ... -/
theorem mem_draws (n : Nat) (s : List Nat) : s ∈ draws n ↔ s.length = n ∧ ∀ (k p : Nat), s[k]? = some p → p ≤ k := by
  induction n generalizing s with
  | zero =>
    simp only [draws, List.mem_singleton]
    constructor
    · rintro rfl; simp
    · rintro ⟨h, _⟩; exact List.length_eq_zero_iff.1 h
  | succ n ih =>
    simp only [draws, List.mem_flatMap, List.mem_map, List.mem_range]
    constructor
    · rintro ⟨t, ht, p, hp, rfl⟩
      obtain ⟨h1, h2⟩ := (ih t).1 ht
      refine ⟨by simp [h1], fun k q hk => ?_⟩
      by_cases hkl : k < t.length
      · rw [List.getElem?_append_left hkl] at hk; exact h2 k q hk
      · rw [List.getElem?_append_right (by omega)] at hk
        have : k - t.length = 0 := by
          by_contra hne
          rw [List.getElem?_eq_none (by simp; omega)] at hk; simp at hk
        rw [this] at hk; simp at hk; omega
    · rintro ⟨h1, h2⟩
      obtain ⟨t, p, rfl⟩ : ∃ t p, s = t ++ [p] := by
        have hne : s ≠ [] := by rintro rfl; simp at h1
        exact ⟨s.dropLast, s.getLast hne, (List.dropLast_append_getLast hne).symm⟩
      simp only [List.length_append, List.length_singleton] at h1
      refine ⟨t, (ih t).2 ⟨by omega, fun k q hk => ?_⟩, p, ?_, rfl⟩
      · have hkl : k < t.length := by
          by_contra hc; rw [List.getElem?_eq_none (by omega)] at hk; simp at hk
        exact h2 k q (by rw [List.getElem?_append_left hkl]; exact hk)
      · have := h2 t.length p (by simp)
        omega

/-- ... each once. -/
theorem nodup_draws (n : Nat) : (draws n).Nodup := by
  induction n with
  | zero => simp [draws]
  | succ n ih =>
    rw [draws, List.nodup_flatMap]
    refine ⟨fun s _ => List.Nodup.map (fun p q h => by simpa using h) List.nodup_range, ?_⟩
    refine List.Pairwise.imp_of_mem ?_ ih
    intro s t _ _ hne
    simp only [Function.onFun, List.disjoint_left, List.mem_map, not_exists, not_and]
    rintro x ⟨p, _, rfl⟩ q _ h
    exact hne (List.append_inj_left' h.symm rfl)

theorem length_draws (n : Nat) : (draws n).length = n.factorial := by
  induction n with
  | zero => rfl
  | succ n ih => rw [draws, List.length_flatMap]; simp [ih, Nat.factorial, Nat.mul_comm]

end GoMetrics
