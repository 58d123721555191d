import Mathlib.Data.List.Nodup
import Mathlib.Data.List.Basic
import Mathlib.Algebra.Order.Ring.Nat
import Mathlib.Algebra.BigOperators.Group.List.Basic
import Mathlib.Tactic.Ring
/-! # Specification for C52: all the words a random source could deliver -/
namespace GoMetrics

/-- All lists of `k` words below `M`. -/
def wordLists (M : Nat) : Nat → List (List Nat)
  | 0 => [[]]
  | k + 1 => (List.range M).flatMap fun r => (wordLists M k).map (r :: ·)

/-- All tables of `m` rows of `k` words below `M` each. -/
def wordTables (M k : Nat) : Nat → List (List (List Nat))
  | 0 => [[]]
  | m + 1 => (wordTables M k m).flatMap fun t => (wordLists M k).map fun row => t ++ [row]

/-- `wordLists M k` contains exactly the lists of `k` numbers below `M`, ... -/
theorem mem_wordLists (M k : Nat) (w : List Nat) : w ∈ wordLists M k ↔ w.length = k ∧ ∀ r ∈ w, r < M := by
  induction k generalizing w with
  | zero =>
    simp only [wordLists, List.mem_singleton]
    constructor
    · rintro rfl; simp
    · rintro ⟨h, _⟩; exact List.length_eq_zero_iff.1 h
  | succ k ih =>
    simp only [wordLists, List.mem_flatMap, List.mem_map, List.mem_range]
    constructor
    · rintro ⟨r, hr, t, ht, rfl⟩
      obtain ⟨h1, h2⟩ := (ih t).1 ht
      exact ⟨by simp [h1], by simpa using ⟨hr, h2⟩⟩
    · rintro ⟨h1, h2⟩
      cases w with
      | nil => simp at h1
      | cons r t => exact ⟨r, h2 r (by simp), t, (ih t).2 ⟨by simpa using h1, fun x hx => h2 x (by simp [hx])⟩, rfl⟩

/-- ... each once, ... -/
theorem nodup_wordLists (M k : Nat) : (wordLists M k).Nodup := by
  induction k with
  | zero => simp [wordLists]
  | succ k ih =>
    rw [wordLists, List.nodup_flatMap]
    refine ⟨fun r _ => ih.map fun a b h => by simpa using h, ?_⟩
    refine List.nodup_range.imp fun {a b} hab => ?_
    simp only [Function.onFun, List.disjoint_left, List.mem_map, not_exists, not_and]
    rintro _ ⟨x, _, rfl⟩ y _ h
    simp only [List.cons.injEq] at h
    exact hab h.1.symm

/-- ... M^k in all. -/
theorem length_wordLists (M k : Nat) : (wordLists M k).length = M ^ k := by
  induction k with
  | zero => rfl
  | succ k ih =>
    rw [wordLists, List.length_flatMap]
    simp only [List.length_map, ih, List.map_const', List.sum_replicate, List.length_range, Nat.nsmul_eq_mul]
    rw [pow_succ, Nat.mul_comm]

/-- `wordTables M k m` contains exactly the tables of `m` rows of `k` numbers below `M`, ... -/
theorem mem_wordTables (M k m : Nat) (t : List (List Nat)) :
    t ∈ wordTables M k m ↔ t.length = m ∧ ∀ w ∈ t, w.length = k ∧ ∀ r ∈ w, r < M := by
  induction m generalizing t with
  | zero =>
    simp only [wordTables, List.mem_singleton]
    constructor
    · rintro rfl; simp
    · rintro ⟨h, _⟩; exact List.length_eq_zero_iff.1 h
  | succ m ih =>
    simp only [wordTables, List.mem_flatMap, List.mem_map]
    constructor
    · rintro ⟨s, hs, w, hw, rfl⟩
      obtain ⟨h1, h2⟩ := (ih s).1 hs
      refine ⟨by simp [h1], fun x hx => ?_⟩
      rw [List.mem_append, List.mem_singleton] at hx
      rcases hx with hx | rfl
      · exact h2 x hx
      · exact (mem_wordLists M k _).1 hw
    · rintro ⟨h1, h2⟩
      rcases List.eq_nil_or_concat t with rfl | ⟨s, w, rfl⟩
      · simp at h1
      · rw [List.concat_eq_append] at h1 h2 ⊢
        exact ⟨s, (ih s).2 ⟨by simpa using h1, fun x hx => h2 x (by simp [hx])⟩, w, (mem_wordLists M k w).2 (h2 w (by simp)), rfl⟩

/-- ... each once, ... -/
theorem nodup_wordTables (M k m : Nat) : (wordTables M k m).Nodup := by
  induction m with
  | zero => simp [wordTables]
  | succ m ih =>
    rw [wordTables, List.nodup_flatMap]
    refine ⟨fun t _ => (nodup_wordLists M k).map fun a b h => by simpa using h, ?_⟩
    refine ih.imp fun {a b} hab => ?_
    simp only [Function.onFun, List.disjoint_left, List.mem_map, not_exists, not_and]
    rintro _ ⟨x, _, rfl⟩ y _ h
    exact hab (List.append_inj' h rfl).1.symm

/-- ... M^(k m) in all. -/
theorem length_wordTables (M k m : Nat) : (wordTables M k m).length = (M ^ k) ^ m := by
  induction m with
  | zero => rfl
  | succ m ih =>
    rw [wordTables, List.length_flatMap]
    simp only [List.length_map, length_wordLists, List.map_const', List.sum_replicate, ih, Nat.nsmul_eq_mul]
    rw [pow_succ]

end GoMetrics
