import Verif.Props.Compass
import Verif.Props.FastCompass
/-! # C85: `LastUpdateTime` of compasses and fast compasses

`intervalStart I t` (Spec/Buckets.lean) is the start in seconds of the interval of the clock reading `t`. -/
namespace GoMetrics
namespace Spec
open FastCompass

/-- The latest interval start, in seconds, among the clock readings `ts`; −1 if there is none. -/
def latestStart (I : Int) (ts : List Int) : Int := (ts.map (intervalStart I)).foldl max (-1)

/-- What `LastUpdateTime` says of something created at `t0` and updated at the readings `ts`. -/
def lastUpdate (I t0 : Int) (ts : List Int) : Int := if latestStart I ts ≤ 0 then t0 else latestStart I ts

/-- The clock readings of the valid calls for a category. -/
def timesOf (cat : String) (h : List Rec) : List Int := (recordsOf cat h).map Prod.fst

/-- When the counter of a category was created: during the first valid call for it. -/
def createdAt (cat : String) (h : List Rec) : Int :=
  match h.find? (fun r => validRec r && decide (r.subCategory = cat)) with
  | some r => r.t0
  | none => 0

end Spec
open Spec

namespace FastCompass

theorem updateN_init (b : BucketCounter) (t n : Int) : (b.updateN t n).state.initTimestamp = b.initTimestamp := by
  simpa [BucketCounter.run, BucketCounter.step] using BucketCounter.run_init b [(t, .updateN n)]

theorem opsOf_nil_iff (cat : String) (h : List Rec) :
    opsOf cat h = [] ↔ h.find? (fun r => validRec r && decide (r.subCategory = cat)) = none := by
  unfold opsOf
  simp [List.find?_eq_none, List.filter_eq_nil_iff]

/-- When each counter was created. -/
theorem run_created (I : Int) (N : Nat) (limit : Int) (h : List Rec) (cat : String) (bc : BucketCounter)
    (hb : (run (new I N limit) h).subCategories.get? cat = some bc) :
    ∃ r, h.find? (fun r => validRec r && decide (r.subCategory = cat)) = some r ∧ bc.initTimestamp = r.t0 := by
  induction h using List.reverseRecOn generalizing bc with
  | nil => simp [run, new, GoMap.get?] at hb
  | append_singleton h r ih =>
    have hs := run_spec I N limit h
    have hrun : run (new I N limit) (h ++ [r]) = ((run (new I N limit) h).record r).state := by simp [run]
    rw [hrun] at hb
    generalize hfc : run (new I N limit) h = fc at *
    obtain ⟨i1, i2, i3, i4, i5, i6, i7⟩ := hs
    have old : ∀ bc, fc.subCategories.get? cat = some bc →
        ∃ r', (h ++ [r]).find? (fun r => validRec r && decide (r.subCategory = cat)) = some r' ∧ bc.initTimestamp = r'.t0 := by
      intro bc hbc
      obtain ⟨r', h1, h2⟩ := ih bc hbc
      exact ⟨r', by rw [List.find?_append, h1]; rfl, h2⟩
    by_cases hv : validRec r = true
    · have hninv : ¬ (r.duration < 0 ∨ r.subCategory.length = 0) := by rw [invalid_iff, hv]; simp
      unfold record at hb
      rw [if_neg hninv] at hb
      cases hg : fc.subCategories.get? r.subCategory with
      | some b0 =>
        rw [hg] at hb
        simp only [Res.lift_state] at hb
        by_cases hc : r.subCategory = cat
        · rw [hc, GoMap.get?_set_self] at hb
          obtain rfl := Option.some.inj hb
          rw [hc] at hg
          obtain ⟨r', h1, h2⟩ := old b0 hg
          exact ⟨r', h1, by rw [updateN_init, h2]⟩
        · rw [GoMap.get?_set_ne _ _ hc] at hb
          exact old bc hb
      | none =>
        rw [hg] at hb
        simp only at hb
        by_cases hfull : (fc.subCategories.length : Int) ≥ fc.maxSubCategoryCount
        · rw [if_pos hfull] at hb; exact old bc hb
        · rw [if_neg hfull] at hb
          have hnew : BucketCounter.newImpl fc.bucketInterval fc.numberOfBuckets r.t0 false =
              some (BucketCounter.new I N r.t0 false) := by
            unfold BucketCounter.newImpl
            rw [i2, i3, if_neg (by omega)]; simp
          rw [hnew] at hb
          simp only [Res.lift_state] at hb
          by_cases hc : r.subCategory = cat
          · rw [hc, GoMap.get?_set_self] at hb
            obtain rfl := Option.some.inj hb
            have hmem : cat ∉ admitted limit h := by
              rw [← i5, ← hc]; exact (GoMap.get?_eq_none_iff _ _).1 hg
            have hlen : fc.subCategories.length = (admitted limit h).length := by
              rw [← i5]; simp [GoMap.keys]
            have hn : opsOf cat h = [] := by
              rcases i7 cat hmem with h1 | h1
              · exact h1
              · rw [hlen, i1] at hfull; omega
            refine ⟨r, ?_, ?_⟩
            · rw [List.find?_append, (opsOf_nil_iff cat h).1 hn]
              simp [hv, hc]
            · rw [updateN_init]; rfl
          · rw [GoMap.get?_set_ne _ _ hc] at hb
            exact old bc hb
    · have hinv : r.duration < 0 ∨ r.subCategory.length = 0 := by rw [invalid_iff]; simpa using hv
      unfold record at hb
      rw [if_pos hinv] at hb
      exact old bc hb

private theorem fold_max (l : GoMap String BucketCounter) (acc : Int) :
    let x := l.foldl (fun result e => if result < e.2.lastUpdateTime then e.2.lastUpdateTime else result) acc
    acc ≤ x ∧ (∀ e ∈ l, e.2.lastUpdateTime ≤ x) ∧ (x = acc ∨ ∃ e ∈ l, x = e.2.lastUpdateTime) := by
  induction l generalizing acc with
  | nil => simp
  | cons a l ih =>
    simp only [List.foldl_cons]
    obtain ⟨h1, h2, h3⟩ := ih (if acc < a.2.lastUpdateTime then a.2.lastUpdateTime else acc)
    generalize List.foldl _ _ l = x at *
    by_cases hlt : acc < a.2.lastUpdateTime
    · rw [if_pos hlt] at h1 h3
      refine ⟨by omega, ?_, ?_⟩
      · intro e he
        rcases List.mem_cons.1 he with rfl | he
        · exact h1
        · exact h2 e he
      · rcases h3 with h3 | ⟨e, he, h3⟩
        · exact Or.inr ⟨a, by simp, h3⟩
        · exact Or.inr ⟨e, by simp [he], h3⟩
    · rw [if_neg hlt] at h1 h3
      refine ⟨h1, ?_, ?_⟩
      · intro e he
        rcases List.mem_cons.1 he with rfl | he
        · omega
        · exact h2 e he
      · rcases h3 with h3 | ⟨e, he, h3⟩
        · exact Or.inl h3
        · exact Or.inr ⟨e, by simp [he], h3⟩

end FastCompass

open FastCompass in
/-- **C85, fast compass.** After every history, `LastUpdateTime` is the largest of 0 and, over the categories in use, what a bucket
counter says that was created during the category's first call and updated at its valid calls; calls that were ignored (negative duration,
empty category, over the limit) do not show. -/
theorem C85_fast_compass (interval : Int) (N : Nat) (limit : Int) (hI : 1000000000 ≤ interval) (h : List Rec) :
    let x := (run (new interval N limit) h).lastUpdateTime
    0 ≤ x ∧
    (∀ cat ∈ admitted limit h, lastUpdate (interval / 1000000000) (createdAt cat h) (timesOf cat h) ≤ x) ∧
    (x = 0 ∨ ∃ cat ∈ admitted limit h, x = lastUpdate (interval / 1000000000) (createdAt cat h) (timesOf cat h)) := by
  obtain ⟨-, -, -, i4, i5, i6, -⟩ := run_spec interval N limit h
  have hone : ∀ cat bc, (run (new interval N limit) h).subCategories.get? cat = some bc →
      bc.lastUpdateTime = lastUpdate (interval / 1000000000) (createdAt cat h) (timesOf cat h) := by
    intro cat bc hbc
    obtain ⟨r, h1, h2⟩ := run_created interval N limit h cat bc hbc
    have hadm : cat ∈ admitted limit h := by rw [← i5]; exact (GoMap.mem_keys_iff _ _).2 ⟨bc, hbc⟩
    obtain ⟨t0, ht0⟩ := i6 cat hadm
    rw [ht0] at hbc
    obtain rfl := Option.some.inj hbc
    rw [BucketCounter.run_init] at h2
    rw [C09_last_update interval N t0 false hI]
    have h3 : t0 = createdAt cat h := by simp only [createdAt, h1]; exact h2
    have h4 : (opsOf cat h).foldl (fun m c => max m (intervalStart (interval / 1000000000) c.1)) (-1) =
        latestStart (interval / 1000000000) (timesOf cat h) := by
      simp only [opsOf, latestStart, timesOf, recordsOf, List.map_map, List.foldl_map, Function.comp]
    simp only [h4, h3, lastUpdate]
  obtain ⟨a1, a2, a3⟩ := fold_max (run (new interval N limit) h).subCategories 0
  refine ⟨a1, ?_, ?_⟩
  · intro cat hcat
    obtain ⟨t0, ht0⟩ := i6 cat hcat
    rw [← hone cat _ ht0]
    exact a2 (cat, _) (GoMap.mem_of_get? ht0)
  · rcases a3 with a3 | ⟨⟨cat, bc⟩, he, a3⟩
    · exact Or.inl a3
    · refine Or.inr ⟨cat, ?_, ?_⟩
      · rw [← i5]; exact List.mem_map.2 ⟨_, he, rfl⟩
      · rw [← hone cat bc (GoMap.get?_of_mem i4 he)]; exact a3

open FastCompass in
/-- Two categories, one ignored call: 120, the start in seconds of the latest interval of any of them. -/
example :
    let h : List Rec := [⟨5, 61000, 3000000, "ok"⟩, ⟨0, 125000, 1000000, "err"⟩, ⟨0, 90000, 1000000, "ok"⟩, ⟨0, 600000, -1, "ok"⟩,
      ⟨0, 600000, 1, "more"⟩]
    (run (new 60000000000 10 2) h).lastUpdateTime = 120 ∧ admitted 2 h = ["ok", "err"] ∧
    lastUpdate 60 (createdAt "ok" h) (timesOf "ok" h) = 60 ∧ lastUpdate 60 (createdAt "err" h) (timesOf "err" h) = 120 := by
  refine ⟨?_, ?_, ?_, ?_⟩ <;> decide

open FastCompass in
/-- **C85.** A fast compass nobody has used reports 0, not its creation time. -/
theorem C85_fast_compass_unused (interval : Int) (N : Nat) (limit : Int) : (new interval N limit).lastUpdateTime = 0 := rfl

open Compass in
/-- **C85, compass.** After every history, `LastUpdateTime` is what a bucket counter says that was created when the compass was and
updated at every `Update` and `UpdateWithError` call (also those that panicked), whatever the reservoir. -/
theorem C85_compass {σ X : Type} (R : Rounding) (S : ReservoirImpl σ X) (r0 : σ) (n : Nat) (I maxErr maxAdd : Int) (ne : NewEnv)
    (hI : 1000000000 ≤ I) (h : List (Env X × Op)) :
    (run R S (new r0 n I maxErr maxAdd ne) h).lastUpdateTime =
      lastUpdate (I / 1000000000) ne.tTotal ((records h).map fun e => e.1.tTotal) := by
  rw [Compass.lastUpdateTime, (basic_run R S r0 n I maxErr maxAdd ne (by omega) h).total, C09_last_update I n ne.tTotal true hI]
  simp only [totalOps, lastUpdate, latestStart, List.foldl_map, List.map_map, Function.comp]

open Compass in
/-- Reading a rate is not an update; a call whose error code is over the limit is, although it panics. -/
example : (run .exact quietReservoir (new () 2 60000000000 0 0 ⟨5, 0, 0⟩)
    [(envAt 61000, .update 1), (envAt 500000, .readRate), (envAt 190000, .updateWithError 2 true "b" "")]).lastUpdateTime = 180 := by
  decide

end GoMetrics
