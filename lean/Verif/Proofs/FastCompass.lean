import Verif.Spec.FastCompass
import Verif.Proofs.BucketHistory
/-! # FastCompass lemmas -/
namespace GoMetrics
open Spec
namespace FastCompass

theorem string_length_eq_zero (s : String) : s.length = 0 ↔ s = "" := by
  constructor
  · intro h; exact String.length_eq_zero_iff.1 h
  · rintro rfl; rfl

theorem invalid_iff (r : Rec) : (r.duration < 0 ∨ r.subCategory.length = 0) ↔ validRec r = false := by
  unfold validRec
  rw [string_length_eq_zero]
  by_cases h1 : r.duration < 0 <;> by_cases h2 : r.subCategory = "" <;> simp [h1, h2] <;> omega

/-- The `UpdateN` calls one category receives. -/
def opsOf (cat : String) (h : List Rec) : List (Int × BucketCounter.Op) :=
  (h.filter (fun r => validRec r && decide (r.subCategory = cat))).map
    (fun r => (r.t, .updateN (packed r.duration)))

theorem admitted_append (limit : Int) (h : List Rec) (r : Rec) :
    admitted limit (h ++ [r]) =
      if validRec r = true ∧ r.subCategory ∉ admitted limit h ∧ ((admitted limit h).length : Int) < limit
      then admitted limit h ++ [r.subCategory] else admitted limit h := by
  unfold admitted
  rw [List.foldl_append]
  rfl

theorem opsOf_append (cat : String) (h : List Rec) (r : Rec) :
    opsOf cat (h ++ [r]) = opsOf cat h ++
      if validRec r = true ∧ r.subCategory = cat then [(r.t, .updateN (packed r.duration))] else [] := by
  unfold opsOf
  rw [List.filter_append, List.map_append]
  congr 1
  by_cases hv : validRec r = true <;> by_cases hc : r.subCategory = cat <;> simp [hv, hc]

/-- No valid call for a category that was never admitted while there was room. -/
theorem run_spec (I : Int) (N : Nat) (limit : Int) (h : List Rec) :
    (run (new I N limit) h).maxSubCategoryCount = limit ∧
    (run (new I N limit) h).bucketInterval = I ∧
    (run (new I N limit) h).numberOfBuckets = N ∧
    (run (new I N limit) h).subCategories.WF ∧
    (run (new I N limit) h).subCategories.keys = admitted limit h ∧
    (∀ cat, cat ∈ admitted limit h → ∃ t0, (run (new I N limit) h).subCategories.get? cat =
      some (BucketCounter.run (BucketCounter.new I N t0 false) (opsOf cat h))) ∧
    (∀ cat, cat ∉ admitted limit h → opsOf cat h = [] ∨ limit ≤ (admitted limit h).length) := by
  induction h using List.reverseRecOn with
  | nil =>
    refine ⟨rfl, rfl, rfl, GoMap.wf_nil, rfl, ?_, ?_⟩
    · intro cat h; simp [admitted] at h
    · intro cat _; left; rfl
  | append_singleton h r ih =>
    obtain ⟨i1, i2, i3, i4, i5, i6, i7⟩ := ih
    have hrun : run (new I N limit) (h ++ [r]) = ((run (new I N limit) h).record r).state := by simp [run]
    rw [hrun, admitted_append]
    generalize run (new I N limit) h = fc at *
    have hlen : fc.subCategories.length = (admitted limit h).length := by
      rw [← i5]; simp [GoMap.keys]
    by_cases hv : validRec r = true
    · have hninv : ¬ (r.duration < 0 ∨ r.subCategory.length = 0) := by
        rw [invalid_iff, hv]; simp
      unfold record
      rw [if_neg hninv]
      by_cases hmem : r.subCategory ∈ admitted limit h
      · obtain ⟨t0, hget⟩ := i6 _ hmem
        rw [hget]
        simp only [Res.lift_state]
        rw [if_neg (by tauto)]
        have hupd : (BucketCounter.updateN (BucketCounter.run (BucketCounter.new I N t0 false)
            (opsOf r.subCategory h)) r.t (packed r.duration)).state =
            BucketCounter.run (BucketCounter.new I N t0 false) (opsOf r.subCategory (h ++ [r])) := by
          rw [opsOf_append, if_pos ⟨hv, rfl⟩, BucketCounter.run_append]; rfl
        refine ⟨i1, i2, i3, GoMap.wf_set i4 _ _, ?_, ?_, ?_⟩
        · have : ∀ (m : GoMap String BucketCounter) (k : String) (v : BucketCounter), k ∈ m.keys →
              (m.set k v).keys = m.keys := by
            intro m k v
            induction m with
            | nil => simp [GoMap.keys]
            | cons p t ih =>
              obtain ⟨a, b⟩ := p
              intro hk
              by_cases ha : a = k
              · simp [GoMap.set, GoMap.keys, ha]
              · have hk' : k ∈ GoMap.keys t := by
                  simp only [GoMap.keys, List.map_cons, List.mem_cons] at hk
                  rcases hk with hk | hk
                  · exact absurd hk.symm ha
                  · exact hk
                have := ih hk'
                simp only [GoMap.keys] at this
                simp [GoMap.set, GoMap.keys, ha, this]
          rw [this _ _ _ (by rw [i5]; exact hmem), i5]
        · intro cat hcat
          by_cases hc : r.subCategory = cat
          · subst hc
            exact ⟨t0, by rw [GoMap.get?_set_self, hupd]⟩
          · obtain ⟨t1, h1⟩ := i6 cat hcat
            refine ⟨t1, ?_⟩
            rw [GoMap.get?_set_ne _ _ hc, h1, opsOf_append, if_neg (by tauto), List.append_nil]
        · intro cat hcat
          have : r.subCategory ≠ cat := by rintro rfl; exact hcat hmem
          rw [opsOf_append, if_neg (by tauto), List.append_nil]
          exact i7 cat hcat
      · have hget : fc.subCategories.get? r.subCategory = none := by
          rw [GoMap.get?_eq_none_iff, i5]; exact hmem
        rw [hget]
        simp only
        by_cases hfull : (fc.subCategories.length : Int) ≥ fc.maxSubCategoryCount
        · rw [if_pos hfull]
          rw [hlen, i1] at hfull
          rw [if_neg (by intro hh; omega)]
          refine ⟨i1, i2, i3, i4, i5, ?_, ?_⟩
          · intro cat hcat
            have : r.subCategory ≠ cat := by rintro rfl; exact hmem hcat
            rw [opsOf_append, if_neg (by tauto), List.append_nil]
            exact i6 cat hcat
          · intro cat _; exact Or.inr hfull
        · rw [if_neg hfull]
          rw [hlen, i1] at hfull
          rw [if_pos ⟨hv, hmem, by omega⟩]
          have hnew : BucketCounter.newImpl fc.bucketInterval fc.numberOfBuckets r.t0 false =
              some (BucketCounter.new I N r.t0 false) := by
            unfold BucketCounter.newImpl
            rw [i2, i3, if_neg (by omega)]; simp
          rw [hnew]
          simp only [Res.lift_state]
          have hops : opsOf r.subCategory h = [] := by
            rcases i7 _ hmem with h1 | h1
            · exact h1
            · omega
          refine ⟨i1, i2, i3, GoMap.wf_set i4 _ _, ?_, ?_, ?_⟩
          · have : ∀ (m : GoMap String BucketCounter) (k : String) (v : BucketCounter), k ∉ m.keys →
                (m.set k v).keys = m.keys ++ [k] := by
              intro m k v
              induction m with
              | nil => simp [GoMap.keys, GoMap.set]
              | cons p t ih =>
                obtain ⟨a, b⟩ := p
                intro hk
                simp only [GoMap.keys, List.map_cons, List.mem_cons, not_or] at hk
                have ha : ¬ a = k := fun e => hk.1 e.symm
                have := ih hk.2
                simp only [GoMap.keys] at this
                simp [GoMap.set, GoMap.keys, ha, this]
            rw [this _ _ _ (by rw [i5]; exact hmem), i5]
          · intro cat hcat
            by_cases hc : r.subCategory = cat
            · subst hc
              refine ⟨r.t0, ?_⟩
              rw [GoMap.get?_set_self, opsOf_append, if_pos ⟨hv, rfl⟩, hops]
              rfl
            · rcases List.mem_append.1 hcat with hcat | hcat
              · obtain ⟨t1, h1⟩ := i6 cat hcat
                refine ⟨t1, ?_⟩
                rw [GoMap.get?_set_ne _ _ hc, h1, opsOf_append, if_neg (by tauto), List.append_nil]
              · rw [List.mem_singleton] at hcat
                exact absurd hcat.symm hc
          · intro cat hcat
            simp only [List.mem_append, List.mem_singleton, not_or] at hcat
            have hne : r.subCategory ≠ cat := fun e => hcat.2 e.symm
            rw [opsOf_append, if_neg (by tauto), List.append_nil]
            rcases i7 cat hcat.1 with h1 | h1
            · exact Or.inl h1
            · omega
    · have hinv : r.duration < 0 ∨ r.subCategory.length = 0 := by
        rw [invalid_iff]; simpa using hv
      unfold record
      rw [if_pos hinv, if_neg (by tauto)]
      refine ⟨i1, i2, i3, i4, i5, ?_, ?_⟩
      · intro cat hcat
        rw [opsOf_append, if_neg (by tauto), List.append_nil]
        exact i6 cat hcat
      · intro cat hcat
        rw [opsOf_append, if_neg (by tauto), List.append_nil]
        exact i7 cat hcat

theorem get?_mapValues (f : Int → Int) (m : GoMap Int Int) (k : Int) :
    (mapValues f m).get? k = (m.get? k).map f := by
  induction m with
  | nil => rfl
  | cons p t ih =>
    obtain ⟨a, b⟩ := p
    unfold mapValues at *
    simp only [List.map_cons, GoMap.get?]
    by_cases h : a = k
    · simp [h]
    · simp [h, ih]

/-- A getter reports, per category, the transformed query of that category's counter. -/
theorem collect_spec (f : Int → Int) (clock : String → Int) (s : Int) (subs : GoMap String BucketCounter)
    (hall : ∀ e ∈ subs, (e.2.getBucketCountsSince (clock e.1) s).isSome = true) :
    ∃ m, collect f clock s subs = some m ∧ m.keys = subs.keys ∧
      ∀ cat, m.get? cat = (subs.get? cat).bind (fun bc =>
        (bc.getBucketCountsSince (clock cat) s).map (mapValues f)) := by
  induction subs with
  | nil => exact ⟨[], rfl, rfl, by simp⟩
  | cons p t ih =>
    obtain ⟨a, b⟩ := p
    obtain ⟨m, h1, h2, h3⟩ := ih (fun e he => hall e (List.mem_cons_of_mem _ he))
    have hb := hall (a, b) (List.mem_cons_self ..)
    simp only at hb
    obtain ⟨bk, hbk⟩ := Option.isSome_iff_exists.1 hb
    refine ⟨(a, mapValues f bk) :: m, by simp [collect, hbk, h1], ?_, ?_⟩
    · simp only [GoMap.keys] at h2 ⊢
      simp [h2]
    · intro cat
      by_cases h : a = cat
      · subst h; simp [GoMap.get?, hbk]
      · simp only [GoMap.get?, h, if_false]; exact h3 cat

end FastCompass
end GoMetrics
