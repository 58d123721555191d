import Verif.Model.Handed
/-! # C102 — what callers change by writing to what they were given: the slice of `GetEnableMetrics` -/
namespace GoMetrics
namespace Handed

/-! ## Specification -/

/-- Which of the slices the program holds it made itself (`true`) and which it got from `GetEnableMetrics` (`false`), in order. -/
def ownSlices (h : List SliceAct) : List Bool := h.foldl (fun o a => match a with
  | .make _ => o ++ [true]
  | .getEnableMetrics i => if i < o.length then o ++ [false] else o
  | .write _ _ _ => o) []

/-- The program writes only to slices it made itself. -/
def WritesOwn (h : List SliceAct) : Prop := ∀ h1 h2 i j v, h = h1 ++ .write i j v :: h2 → (ownSlices h1)[i]? ≠ some false

/-! ## Proofs -/

/-- What stays true: the slices held exist, and `allMetrics` is none of the program's own. -/
structure SInv (h : List SliceAct) : Prop where
  len : (ownSlices h).length = (runSlices h).held.length
  valid : ∀ i a : Nat, (runSlices h).held[i]? = some a → a < (runSlices h).arrays.length
  own : ∀ i : Nat, (ownSlices h)[i]? = some true → (runSlices h).held[i]? ≠ some 0
  pos : 0 < (runSlices h).arrays.length

theorem ownSlices_snoc (h : List SliceAct) (a : SliceAct) : ownSlices (h ++ [a]) = match a with
  | .make _ => ownSlices h ++ [true]
  | .getEnableMetrics i => if i < (ownSlices h).length then ownSlices h ++ [false] else ownSlices h
  | .write _ _ _ => ownSlices h := by
  unfold ownSlices; rw [List.foldl_append]; rfl

theorem runSlices_snoc (h : List SliceAct) (a : SliceAct) : runSlices (h ++ [a]) = sliceAct (runSlices h) a := by
  unfold runSlices; rw [List.foldl_append]; rfl

theorem getElem?_snoc {α : Type} (l : List α) (x : α) (i : Nat) (y : α) (h : (l ++ [x])[i]? = some y) :
    (i < l.length ∧ l[i]? = some y) ∨ (i = l.length ∧ y = x) := by
  by_cases hi : i < l.length
  · left; rw [List.getElem?_append_left hi] at h; exact ⟨hi, h⟩
  · right
    rw [List.getElem?_append_right (by omega)] at h
    cases hn : i - l.length with
    | zero => rw [hn] at h; simp at h; exact ⟨by omega, h.symm⟩
    | succ n => rw [hn] at h; simp at h

theorem sinv (h : List SliceAct) : SInv h := by
  induction h using List.reverseRecOn with
  | nil => exact ⟨rfl, by intro i a h; simp [runSlices, startSlices] at h, by intro i h; simp [ownSlices] at h, by decide⟩
  | append_singleton h a H =>
    obtain ⟨h1, h2, h3, h4⟩ := H
    cases a with
    | make content =>
      refine ⟨?_, ?_, ?_, ?_⟩
      · rw [ownSlices_snoc, runSlices_snoc]; simp [sliceAct, h1]
      · intro i b hb
        rw [runSlices_snoc] at hb ⊢
        simp only [sliceAct] at hb ⊢
        rcases getElem?_snoc _ _ _ _ hb with ⟨-, hb⟩ | ⟨-, rfl⟩
        · have := h2 _ _ hb; simp only [List.length_append, List.length_cons, List.length_nil]; omega
        · simp
      · intro i hi
        rw [ownSlices_snoc] at hi
        rw [runSlices_snoc]
        simp only [sliceAct] at hi ⊢
        intro hc
        rcases getElem?_snoc _ _ _ _ hc with ⟨hl, hc⟩ | ⟨-, hz⟩
        · refine h3 i ?_ hc
          rw [List.getElem?_append_left (by omega)] at hi; exact hi
        · omega
      · rw [runSlices_snoc]; simp [sliceAct]
    | getEnableMetrics i =>
      cases hb : (runSlices h).held[i]? with
      | none =>
        have hil : ¬ i < (ownSlices h).length := by
          rw [h1]; intro hlt; rw [List.getElem?_eq_getElem hlt] at hb; cases hb
        have e1 : runSlices (h ++ [.getEnableMetrics i]) = runSlices h := by rw [runSlices_snoc]; simp only [sliceAct, hb]
        have e2 : ownSlices (h ++ [.getEnableMetrics i]) = ownSlices h := by rw [ownSlices_snoc]; simp only [if_neg hil]
        exact ⟨by rw [e1, e2]; exact h1, by rw [e1]; exact h2, by rw [e1, e2]; exact h3, by rw [e1]; exact h4⟩
      | some a =>
        have hil : i < (ownSlices h).length := by
          rw [h1]; by_contra hlt; rw [List.getElem?_eq_none (by omega)] at hb; cases hb
        have e1 : runSlices (h ++ [.getEnableMetrics i]) =
            { (getEnableMetrics (runSlices h) a).1 with held := (runSlices h).held ++ [(getEnableMetrics (runSlices h) a).2] } := by
          rw [runSlices_snoc]; simp only [sliceAct, hb]
        have e2 : ownSlices (h ++ [.getEnableMetrics i]) = ownSlices h ++ [false] := by rw [ownSlices_snoc]; simp only [if_pos hil]
        have hg : (runSlices h).arrays.length ≤ (getEnableMetrics (runSlices h) a).1.arrays.length ∧
            (getEnableMetrics (runSlices h) a).2 < (getEnableMetrics (runSlices h) a).1.arrays.length := by
          unfold getEnableMetrics
          have := h2 _ _ hb
          split
          · simp
          · split
            · exact ⟨Nat.le_refl _, h4⟩
            · exact ⟨Nat.le_refl _, this⟩
        refine ⟨by rw [e1, e2]; simp [h1], ?_, ?_, by rw [e1]; show 0 < (getEnableMetrics (runSlices h) a).1.arrays.length; omega⟩
        · intro k b hk
          rw [e1] at hk ⊢
          simp only at hk ⊢
          rcases getElem?_snoc _ _ _ _ hk with ⟨-, hk⟩ | ⟨-, rfl⟩
          · have := h2 _ _ hk; omega
          · exact hg.2
        · intro k hk
          rw [e2] at hk
          rw [e1]
          rcases getElem?_snoc _ _ _ _ hk with ⟨hl, hk⟩ | ⟨-, hz⟩
          · simp only
            rw [List.getElem?_append_left (by omega)]
            exact h3 k hk
          · cases hz
    | write i j v =>
      have e2 : ownSlices (h ++ [.write i j v]) = ownSlices h := by rw [ownSlices_snoc]
      have e1 : (runSlices (h ++ [.write i j v])).held = (runSlices h).held ∧
          (runSlices (h ++ [.write i j v])).arrays.length = (runSlices h).arrays.length := by
        rw [runSlices_snoc]; simp only [sliceAct]
        split <;> simp
      exact ⟨by rw [e2, e1.1]; exact h1, by rw [e1.1, e1.2]; exact h2, by rw [e2, e1.1]; exact h3, by rw [e1.2]; exact h4⟩

theorem all_intact (h : List SliceAct) (hw : WritesOwn h) : (runSlices h).read 0 = MetricConfig.allMetrics := by
  induction h using List.reverseRecOn with
  | nil => rfl
  | append_singleton h a ih =>
    have ih := ih (fun h1 h2 i j v e => hw h1 (h2 ++ [a]) i j v (by rw [e]; simp))
    obtain ⟨h1, h2, h3, h4⟩ := sinv h
    rw [runSlices_snoc]
    cases a with
    | make content =>
      simp only [sliceAct, Slices.read] at ih ⊢
      rw [List.getElem?_append_left h4]; exact ih
    | getEnableMetrics i =>
      simp only [sliceAct]
      cases hb : (runSlices h).held[i]? with
      | none => exact ih
      | some a =>
        simp only [Slices.read] at ih ⊢
        unfold getEnableMetrics
        split
        · simp only; rw [List.getElem?_append_left h4]; exact ih
        · split <;> exact ih
    | write i j v =>
      simp only [sliceAct]
      cases hb : (runSlices h).held[i]? with
      | none => exact ih
      | some a =>
        have hne : a ≠ 0 := by
          have hil : i < (ownSlices h).length := by
            rw [h1]; by_contra hlt; rw [List.getElem?_eq_none (by omega)] at hb; cases hb
          have hnf := hw h [] i j v rfl
          have ht : (ownSlices h)[i]? = some true := by
            rw [List.getElem?_eq_getElem hil] at hnf ⊢
            cases hx : (ownSlices h)[i] with
            | true => rfl
            | false => rw [hx] at hnf; exact absurd rfl hnf
          have := h3 i ht
          rw [hb] at this
          intro hz; subst hz; exact this rfl
        simp only [Slices.read, List.getElem?_modify, if_neg hne, Option.map_eq_map, Option.map_id'] at ih ⊢
        exact ih

end Handed

open Handed

/-- **C102.** `GetEnableMetrics` and programs that write only to slices they made themselves: whatever else they do, it returns what C45 says - both kinds of metric for a configuration
that lists `all`, otherwise what the configuration lists. -/
theorem C102_enable_metrics (h : List SliceAct) (hw : WritesOwn h) (enables : Nat) :
    ((getEnableMetrics (runSlices h) enables).1).read (getEnableMetrics (runSlices h) enables).2 =
      MetricConfig.getEnableMetrics { enables := (runSlices h).read enables } := by
  unfold getEnableMetrics MetricConfig.getEnableMetrics
  by_cases h1 : ((runSlices h).read enables).length = 0
  · rw [if_pos h1, if_pos h1]
    simp [Slices.read]
  · rw [if_neg h1, if_neg h1]
    by_cases h2 : ((runSlices h).read enables).any MetricConfig.equalFoldAll = true
    · rw [if_pos h2, if_pos h2]; exact all_intact h hw
    · rw [if_neg h2, if_neg h2]

/-- A program that makes a configuration with `ALL`, asks, and changes its own list afterwards. -/
example : WritesOwn [.make [[65, 76, 76]], .getEnableMetrics 0, .write 0 0 [98]] ∧
    (runSlices [.make [[65, 76, 76]], .getEnableMetrics 0, .write 0 0 [98]]).held = [1, 0] ∧
    (runSlices [.make [[65, 76, 76]], .getEnableMetrics 0, .write 0 0 [98]]).arrays = [MetricConfig.allMetrics, [[98]]] := by
  refine ⟨?_, by decide, by decide⟩
  intro h1 h2 i j v e
  match h1, e with
  | [], e => simp at e
  | [_], e => simp at e
  | [_, _], e =>
    simp only [List.cons_append, List.nil_append, List.cons.injEq, SliceAct.write.injEq] at e
    obtain ⟨rfl, rfl, ⟨rfl, -⟩, -⟩ := e
    decide
  | _ :: _ :: _ :: h1, e => simp at e

/-- **C102.** The slice for `all` is one slice for everybody: after any history, whoever writes to the slice that `GetEnableMetrics` gave him for one configuration that lists `all`
changes what it returns for every other. -/
theorem C102_all_is_shared (h : List SliceAct) (i : Nat) (a a2 : Nat) (hi : (runSlices h).held[i]? = some a)
    (hall : ((runSlices h).read a).any MetricConfig.equalFoldAll = true) (j : Nat) (v : GoStr) :
    let s := sliceAct (sliceAct (runSlices h) (.getEnableMetrics i)) (.write (runSlices h).held.length j v)
    (s.read a2).any MetricConfig.equalFoldAll = true →
      (getEnableMetrics s a2).1.read (getEnableMetrics s a2).2 = ((runSlices h).read 0).set j v := by
  intro s hall2
  have hs1 : sliceAct (runSlices h) (.getEnableMetrics i) = { runSlices h with held := (runSlices h).held ++ [0] } := by
    simp only [sliceAct, hi]
    have hne : ¬ ((runSlices h).read a).length = 0 := by
      intro hz; rw [List.length_eq_zero_iff.1 hz] at hall; simp at hall
    unfold getEnableMetrics
    rw [if_neg hne, if_pos hall]
  have hs : s = { arrays := (runSlices h).arrays.modify 0 (fun l => l.set j v), held := (runSlices h).held ++ [0] } := by
    show sliceAct (sliceAct (runSlices h) (.getEnableMetrics i)) _ = _
    rw [hs1]
    simp only [sliceAct, List.getElem?_append_right (Nat.le_refl _), Nat.sub_self, List.getElem?_cons_zero]
  have hne2 : ¬ (s.read a2).length = 0 := by
    intro hz; rw [List.length_eq_zero_iff.1 hz] at hall2; simp at hall2
  unfold getEnableMetrics
  rw [if_neg hne2, if_pos hall2, hs]
  simp only [Slices.read, List.getElem?_modify, if_true]
  have hpos := (sinv h).pos
  rw [List.getElem?_eq_getElem hpos]
  rfl

/-- **C102.** So a configuration that lists `all` does not always get both kinds. -/
theorem C102_enable_metrics_refuted : ¬ ∀ (h : List SliceAct) (i : Nat) (enables : Nat), (runSlices h).held[i]? = some enables →
    ((getEnableMetrics (runSlices h) enables).1).read (getEnableMetrics (runSlices h) enables).2 =
      MetricConfig.getEnableMetrics { enables := (runSlices h).read enables } := by
  intro H
  have := H [.make [[97, 108, 108]], .make [[65, 76, 76]], .getEnableMetrics 0, .write 2 0 [120]] 1 2 (by decide)
  revert this
  decide

end GoMetrics
