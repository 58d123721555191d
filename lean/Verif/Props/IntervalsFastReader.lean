import Verif.Model.FastCompassReader
import Verif.Props.IntervalsReader
import Verif.Props.IntervalsFast
import Verif.Props.FastCompassReader
/-! # C123: a getter that runs beside `Record` calls -/
namespace GoMetrics
open Spec FastCompass
namespace FastCompassConc

theorem watch_snoc (I : Int) (N : Nat) (limit start : Int) (cat : String) (es : List WatchEv) (e : WatchEv) :
    watch I N limit start cat (es ++ [e]) = watchStep start cat (watch I N limit start cat es) e := by simp [watch]

/-- The events of the `Record` calls. -/
def recordEvents {T : Type} (es : List (Ev (Arg ⊕ Empty) Int ⊕ T)) : List (Ev (Arg ⊕ Empty) Int) := es.filterMap Sum.getLeft?

theorem watch_pool (I : Int) (N : Nat) (limit start : Int) (cat : String) (es : List WatchEv) :
    (watch I N limit start cat es).1 = after I N limit (recordEvents es) := by
  induction es using List.reverseRecOn with
  | nil => rfl
  | append_singleton es e ih =>
    rw [watch_snoc]
    have ha : ∀ l, recordEvents (es ++ l) = recordEvents es ++ recordEvents l := fun l => by simp [recordEvents]
    rw [ha]
    cases e with
    | inl e => simp only [watchStep, ih, after]; simp [recordEvents, Machine.run_snoc]
    | inr t =>
      rw [show recordEvents [Sum.inr t] = [] from rfl, List.append_nil, ← ih]
      simp only [watchStep]
      split <;> rfl

theorem begunRecords_eq {T : Type} (es : List (Ev (Arg ⊕ Empty) Int ⊕ T)) : begunRecords es = (AppConc.begun (recordEvents es)).filterMap Sum.getLeft? := by
  induction es with
  | nil => rfl
  | cons e es ih =>
    cases e with
    | inr t => exact ih
    | inl e =>
      cases e with
      | step i x => simpa [begunRecords, recordEvents, AppConc.begun] using ih
      | spawn a =>
        cases a with
        | inr e => exact e.elim
        | inl a => simpa [begunRecords, recordEvents, AppConc.begun] using ih

/-- What one category's counter and the query see of all this is a run of the counter with a query beside it. -/
theorem watch_projects (I : Int) (N : Nat) (limit start : Int) (cat : String) (es : List WatchEv) :
    match (watch I N limit start cat es).1.shared.obj.subCategories.get? cat with
    | none => (watch I N limit start cat es).2 = .clock
    | some b => ∃ t0 es', BucketCounter.watch I N t0 false start es' = (BucketCounter.after I N t0 false (BucketCounter.updates es'), (watch I N limit start cat es).2) ∧
        Wit I N (watch I N limit start cat es).1.calls cat b t0 (BucketCounter.updates es') := by
  induction es using List.reverseRecOn with
  | nil => rfl
  | append_singleton es e ih =>
    rw [watch_snoc]
    cases e with
    | inr t =>
      simp only [watchStep]
      cases hg : (watch I N limit start cat es).1.shared.obj.subCategories.get? cat with
      | none =>
        rw [hg] at ih
        simp only [hg]
        exact ih
      | some b =>
        rw [hg] at ih
        simp only [hg]
        obtain ⟨t0, es', h1, h2⟩ := ih
        have e : BucketCounter.updates (es' ++ [.inr t]) = BucketCounter.updates es' := by simp [BucketCounter.updates]
        refine ⟨t0, es' ++ [.inr t], ?_, by rw [e]; exact h2⟩
        rw [BucketCounter.watch_snoc, h1, e]
        simp only [BucketCounter.watchStep]
        rw [h2.1]
    | inl e =>
      have hgrow := grow_snoc I N limit (recordEvents es) e
      have hcat := catInv_run I N limit (recordEvents es ++ [e])
      have hafter : after I N limit (recordEvents es ++ [e]) = guarded.machine.apply (watch I N limit start cat es).1 e := by
        rw [watch_pool]; unfold after; rw [Machine.run_snoc]
      rw [hafter] at hcat
      rw [← watch_pool I N limit start cat] at hgrow
      simp only [watchStep]
      cases hg : (watch I N limit start cat es).1.shared.obj.subCategories.get? cat with
      | none =>
        rw [hg] at ih
        dsimp only at ih
        cases hg' : (guarded.machine.apply (watch I N limit start cat es).1 e).shared.obj.subCategories.get? cat with
        | none => exact ih
        | some b =>
          obtain ⟨t0, es', hw⟩ := hcat.cats cat b hg'
          have hu : BucketCounter.updates (es'.map Sum.inl) = es' := by
            unfold BucketCounter.updates
            rw [List.filterMap_map]
            exact List.filterMap_some ..
          refine ⟨t0, es'.map .inl, ?_, by rw [hu]; exact hw⟩
          have : ∀ l : List (Ev Int Int), BucketCounter.watch I N t0 false start (l.map .inl) = (BucketCounter.after I N t0 false l, .clock) := by
            intro l
            induction l using List.reverseRecOn with
            | nil => rfl
            | append_singleton l a ihl =>
              rw [List.map_append, List.map_singleton, BucketCounter.watch_snoc, ihl]
              simp only [BucketCounter.watchStep, BucketCounter.after, Machine.run_snoc]
          rw [this, hu, ih]
      | some b =>
        rw [hg] at ih
        obtain ⟨t0, es', h1, h2⟩ := ih
        obtain ⟨d, b', h3, h4⟩ := hgrow cat b t0 _ hg h2
        rw [h3]
        have hu : BucketCounter.updates (es' ++ d.map Sum.inl) = BucketCounter.updates es' ++ d := by
          unfold BucketCounter.updates
          rw [List.filterMap_append, List.filterMap_map]
          congr 1
          exact List.filterMap_some ..
        refine ⟨t0, es' ++ d.map .inl, ?_, by rw [hu]; exact h4⟩
        have : ∀ l : List (Ev Int Int), BucketCounter.watch I N t0 false start (es' ++ l.map .inl) =
            (BucketCounter.after I N t0 false (BucketCounter.updates es' ++ l), (BucketCounter.watch I N t0 false start es').2) := by
          intro l
          induction l using List.reverseRecOn with
          | nil => simp [h1]
          | append_singleton l a ihl =>
            rw [List.map_append, List.map_singleton, ← List.append_assoc, BucketCounter.watch_snoc, ihl]
            simp only [BucketCounter.watchStep, BucketCounter.after, ← List.append_assoc, Machine.run_snoc]
        rw [this, hu, h1]

end FastCompassConc
open FastCompassConc (durations begunRecords)

/-- **C123.** A getter beside `Record` calls: whatever the interleaving of its loads, at a category, with the small steps of any number of calls, as long as fewer than 2^26 calls with that
category and 2^38 milliseconds in them were begun, each value it gets for an interval decodes to the number and the summed milliseconds of a part of these calls; an interval begins at a whole second, not before
the start asked for; and the parts do not overlap. -/
theorem C123_query (interval : Int) (N : Nat) (limit start : Int) (cat : String) (es : List FastCompassConc.WatchEv) (m : GoMap Int Int)
    (h : (FastCompassConc.watch interval N limit start cat es).2 = .done m) :
    let ms := durations cat (begunRecords es)
    (ms.length : Int) < 2 ^ 26 → ms.sum < 2 ^ 38 →
    ∃ part : Int → List Int,
      (∀ k v, m.get? k = some v → countOf v = (part k).length ∧ rtOf v = (part k).sum ∧ start ≤ k ∧ ∃ second, k = 1000 * second) ∧
      ∀ ks : List Int, ks.Nodup → (∀ k ∈ ks, ∃ v, m.get? k = some v) → (ks.map part).flatten.Subperm ms := by
  intro ms hn hs
  have hp := FastCompassConc.watch_projects interval N limit start cat es
  cases hg : (FastCompassConc.watch interval N limit start cat es).1.shared.obj.subCategories.get? cat with
  | none => rw [hg] at hp; dsimp only at hp; rw [h] at hp; simp at hp
  | some b =>
    rw [hg] at hp
    dsimp only at hp
    obtain ⟨t0, es', h1, h2⟩ := hp
    obtain ⟨es'', g1, g2, g3⟩ := C122_query_covers interval N t0 false start es'
    rw [h1] at g1 g2
    obtain ⟨part, p1, p2⟩ := C122_query interval N t0 false start es'' m (g2.trans h)
    replace p1 := fun k v hk => p1 k v hk (Or.inr g3)
    replace p2 := fun (ks : List Int) (hk : ks.Nodup) (hks : ∀ k ∈ ks, ∃ v, m.get? k = some v) => p2 ks hk fun k hk' => ⟨Or.inr g3, hks k hk'⟩
    rw [g1] at p2
    have hargs := FastCompassConc.calls_args interval N limit (FastCompassConc.recordEvents es)
    rw [← FastCompassConc.watch_pool interval N limit start cat, ← FastCompassConc.begunRecords_eq] at hargs
    have hsub : ∀ ks : List Int, ks.Nodup → (∀ k ∈ ks, ∃ v, m.get? k = some v) → (ks.map part).flatten.Subperm (ms.map fun x => 2 ^ 38 + x) := by
      intro ks hk hks
      refine (p2 ks hk hks).trans (((List.filter_sublist).map _).subperm.trans (h2.2.1.trans ?_))
      have := FastCompassConc.amounts_subperm cat (FastCompassConc.watch interval N limit start cat es).1.calls
      rwa [hargs] at this
    obtain ⟨part', q1, q2⟩ := packed_decode (G := fun _ => True) (fun ks hk hks => hsub ks hk fun k hk' => (hks k hk').2) (fun k v hk _ => p1 k v hk)
      (FastCompassConc.durations_nonneg cat _) hn hs
    exact ⟨part', fun k v hk => q1 k v hk trivial, fun ks hk hks => q2 ks hk fun k hk' => ⟨trivial, hks k hk'⟩⟩

namespace FastCompassConc
/-- Two `Record`s of 3 ms and 4 ms for "ok" and one of 5 ms for "err"; the query for "ok" begins when the first is through, and loads the count while the second has not added yet, but has the lock. -/
def beside : List WatchEv :=
  [.inl (.spawn (.inl ⟨3000000, "ok"⟩)), .inl (.spawn (.inl ⟨5000000, "err"⟩)), .inl (.spawn (.inl ⟨4000000, "ok"⟩))] ++ List.replicate 20 (.inl (.step 0 61000)) ++
    List.replicate 5 (.inr 62000) ++ List.replicate 20 (.inl (.step 1 61000)) ++ List.replicate 5 (.inl (.step 2 62000)) ++ List.replicate 8 (.inr 0) ++ List.replicate 20 (.inl (.step 2 62000))
end FastCompassConc

/-- The hypotheses are met, and the query gets part of what was recorded: one call of 3 ms. -/
example : (FastCompassConc.watch 60000000000 3 10 0 "ok" FastCompassConc.beside).2 = .done [(60000, packed 3000000)] ∧
    countOf (packed 3000000) = 1 ∧ rtOf (packed 3000000) = 3 ∧ durations "ok" (begunRecords FastCompassConc.beside) = [3, 4] ∧
    (FastCompassConc.watch 60000000000 3 10 0 "ok" FastCompassConc.beside).1.shared.obj.getMethodRtPerCategorySince (fun _ => 62000) 0 =
      some [("ok", [(60000, 7)]), ("err", [(60000, 5)])] := by decide +kernel

end GoMetrics
