import Verif.Model.FastCompassReaderWild
import Verif.Props.IntervalsFastReader
/-! # C123: a getter beside `Record` calls whose loads may return anything that was there -/
namespace GoMetrics
open Spec FastCompass
namespace BucketCounter

/-- The buckets as they are now are among the states so far. -/
theorem now_past (interval : Int) (N : Nat) (t0 : Int) (u : Bool) (s : Int) (es) :
    (wildWatch interval N t0 u s es).pool.shared.heap ∈ (wildWatch interval N t0 u s es).past := by
  induction es using List.reverseRecOn with
  | nil => exact List.mem_singleton.2 rfl
  | append_singleton es e ih =>
    rw [wildWatch_snoc]
    cases e with
    | inl e => simp [wildWatchStep]
    | inr t => exact ih

/-- Calls under a lock, after which the query has seen no more than before. -/
theorem wild_extend (interval : Int) (N : Nat) (t0 : Int) (u : Bool) (s : Int) (es' us) (h : (wildWatch interval N t0 u s es').pool = after interval N t0 u us) (d : List (Ev Int Int)) :
    ∃ d' : List (Ev Int Seen), (wildWatch interval N t0 u s (es' ++ d'.map .inl)).pool = after interval N t0 u (us ++ d) ∧
      (wildWatch interval N t0 u s (es' ++ d'.map .inl)).query = (wildWatch interval N t0 u s es').query ∧
      ∀ h ∈ (wildWatch interval N t0 u s es').past, h ∈ (wildWatch interval N t0 u s (es' ++ d'.map .inl)).past := by
  induction d using List.reverseRecOn with
  | nil => exact ⟨[], by simpa using h, by simp, by simp⟩
  | append_singleton d e ih =>
    obtain ⟨d', h1, h2, h3⟩ := ih
    have hok := (cinv_run N _ (sharedOk_new interval N t0 u) (us ++ d)).shared
    change SharedOk N (after interval N t0 u (us ++ d)).shared at hok
    rw [← List.append_assoc]
    have key : ∃ e', wild.apply (wildWatch interval N t0 u s (es' ++ d'.map .inl)).pool e' = after interval N t0 u (us ++ d ++ [e]) := by
      rw [h1]
      unfold after at hok ⊢
      rw [Machine.run_snoc]
      generalize conc.run _ (us ++ d) = p at *
      cases e with
      | spawn a => exact ⟨.spawn a, rfl⟩
      | step i x =>
        refine ⟨.step i ⟨x, p.shared.latestBucket, false, p.shared.buckets.current⟩, ?_⟩
        cases hc : p.calls[i]? with
        | none => simp only [Machine.apply, hc]
        | some c =>
          simp only [Machine.apply, hc]
          show Pool.mk (wildStep _ _ c).1 (p.calls.set i (wildStep _ _ c).2) = Pool.mk (callStep _ _ c).1 (p.calls.set i (callStep _ _ c).2)
          rw [wild_fresh hok]
    obtain ⟨e', he⟩ := key
    refine ⟨d' ++ [e'], ?_⟩
    rw [List.map_append, List.map_singleton, ← List.append_assoc, wildWatch_snoc]
    exact ⟨he, h2, fun h hh => List.mem_append_left _ (h3 h hh)⟩

/-- The same load of a count, from another list of states. -/
theorem wildRead_past (s : Int) (b : BucketCounter) (past past' : List BHeap) (x : Looked) (hp : ∀ h ∈ past, h ∈ past') (c : ReadPC) :
    ∃ x' : Looked, x'.blank = x.blank ∧ wildReadStep s b past' x' c = wildReadStep s b past x c := by
  have : ∃ n : Nat, (past'[n]?).getD b.heap = (past[x.age]?).getD b.heap := by
    cases hx : past[x.age]? with
    | none => exact ⟨past'.length, by simp⟩
    | some h =>
      obtain ⟨n, hn⟩ := List.mem_iff_getElem?.1 (hp h (List.mem_of_getElem? hx))
      exact ⟨n, by simp [hn]⟩
  obtain ⟨n, hn⟩ := this
  refine ⟨{ x with age := n }, rfl, ?_⟩
  have hs : Looked.shown { x with age := n } b = x.shown b := rfl
  cases c with
  | counts now todo r =>
    cases todo with
    | nil => rfl
    | cons p todo => simp only [wildReadStep, hs, hn]
  | _ => rfl

end BucketCounter
namespace FastCompassConc

theorem wildWatch_snoc (I : Int) (N : Nat) (limit start : Int) (cat : String) (es) (e) :
    wildWatch I N limit start cat (es ++ [e]) = wildWatchStep start cat (wildWatch I N limit start cat es) e := by simp [wildWatch]

theorem wildWatch_pool (I : Int) (N : Nat) (limit start : Int) (cat : String) (es) : (wildWatch I N limit start cat es).pool = after I N limit (recordEvents es) := by
  induction es using List.reverseRecOn with
  | nil => rfl
  | append_singleton es e ih =>
    rw [wildWatch_snoc]
    have ha : ∀ l, recordEvents (es ++ l) = recordEvents es ++ recordEvents l := fun l => by simp [recordEvents]
    rw [ha]
    cases e with
    | inl e => simp only [wildWatchStep, ih, after]; simp [recordEvents, Machine.run_snoc]
    | inr t =>
      rw [show recordEvents [Sum.inr t] = [] from rfl, List.append_nil, ← ih]
      simp only [wildWatchStep]
      split <;> rfl

/-- What one category's counter and the query see of all this is a run of the counter with a query beside it. -/
theorem wild_projects (I : Int) (N : Nat) (limit start : Int) (cat : String) (V : Prop) (es : List (Ev (Arg ⊕ Empty) Int ⊕ BucketCounter.Looked))
    (hV : V → ∀ x, .inr x ∈ es → x.blank = false) :
    match (wildWatch I N limit start cat es).pool.shared.obj.subCategories.get? cat with
    | none => (wildWatch I N limit start cat es).query = .clock ∧ (wildWatch I N limit start cat es).past = []
    | some b => ∃ t0 us es', (BucketCounter.wildWatch I N t0 false start es').pool = BucketCounter.after I N t0 false us ∧
        (BucketCounter.wildWatch I N t0 false start es').query = (wildWatch I N limit start cat es).query ∧
        (∀ h ∈ (wildWatch I N limit start cat es).past, h ∈ (BucketCounter.wildWatch I N t0 false start es').past) ∧
        Wit I N (wildWatch I N limit start cat es).pool.calls cat b t0 us ∧ (V → ∀ x, .inr x ∈ es' → x.blank = false) := by
  induction es using List.reverseRecOn with
  | nil => exact ⟨rfl, rfl⟩
  | append_singleton es e ih =>
    replace ih := ih fun v x hx => hV v x (by simp [hx])
    rw [wildWatch_snoc]
    cases e with
    | inr x =>
      simp only [wildWatchStep]
      cases hg : (wildWatch I N limit start cat es).pool.shared.obj.subCategories.get? cat with
      | none =>
        rw [hg] at ih
        simp only [hg]
        exact ih
      | some b =>
        rw [hg] at ih
        simp only [hg]
        obtain ⟨t0, us, es', h1, h2, h3, h4, h5⟩ := ih
        obtain ⟨x', hx1, hx2⟩ := BucketCounter.wildRead_past start b _ _ x h3 (wildWatch I N limit start cat es).query
        refine ⟨t0, us, es' ++ [.inr x'], ?_, ?_, ?_, h4, ?_⟩
        · rw [BucketCounter.wildWatch_snoc]; exact h1
        · rw [BucketCounter.wildWatch_snoc]
          simp only [BucketCounter.wildWatchStep]
          rw [h2, h1, h4.1, hx2]
        · rw [BucketCounter.wildWatch_snoc]; exact h3
        · intro v y hy
          rcases List.mem_append.1 hy with hy | hy
          · exact h5 v y hy
          · obtain rfl : y = x' := by simpa using hy
            rw [hx1]
            exact hV v x (by simp)
    | inl e =>
      have hgrow := grow_snoc I N limit (recordEvents es) e
      have hcat := catInv_run I N limit (recordEvents es ++ [e])
      have hafter : after I N limit (recordEvents es ++ [e]) = guarded.machine.apply (wildWatch I N limit start cat es).pool e := by
        rw [wildWatch_pool]; unfold after; rw [Machine.run_snoc]
      rw [hafter] at hcat
      rw [← wildWatch_pool I N limit start cat] at hgrow
      simp only [wildWatchStep]
      cases hg : (wildWatch I N limit start cat es).pool.shared.obj.subCategories.get? cat with
      | none =>
        rw [hg] at ih
        dsimp only at ih
        cases hg' : (guarded.machine.apply (wildWatch I N limit start cat es).pool e).shared.obj.subCategories.get? cat with
        | none => exact ih
        | some b =>
          obtain ⟨t0, us, hw⟩ := hcat.cats cat b hg'
          obtain ⟨d', g1, g2, -⟩ := BucketCounter.wild_extend I N t0 false start [] [] rfl us
          refine ⟨t0, us, d'.map .inl, by simpa using g1, ?_, ?_, hw, ?_⟩
          · rw [ih.1]; exact g2
          · intro h hh
            rw [ih.2] at hh
            obtain rfl : h = b.heap := by simpa using hh
            have := BucketCounter.now_past I N t0 false start (d'.map .inl)
            rw [show (BucketCounter.wildWatch I N t0 false start (d'.map .inl)).pool = _ from by simpa using g1, hw.1] at this
            exact this
          · intro v x hx
            simp at hx
      | some b =>
        rw [hg] at ih
        obtain ⟨t0, us, es', h1, h2, h3, h4, h5⟩ := ih
        obtain ⟨d, b', g3, g4⟩ := hgrow cat b t0 _ hg h4
        rw [g3]
        obtain ⟨d', k1, k2, k3⟩ := BucketCounter.wild_extend I N t0 false start es' us h1 d
        refine ⟨t0, us ++ d, es' ++ d'.map .inl, k1, k2.trans h2, ?_, g4, ?_⟩
        · intro h hh
          rcases List.mem_append.1 hh with hh | hh
          · exact k3 h (h3 h hh)
          · obtain rfl := List.mem_singleton.1 hh
            have := BucketCounter.now_past I N t0 false start (es' ++ d'.map .inl)
            rw [k1, g4.1] at this
            exact this
        · intro v x hx
          exact h5 v x (by simpa using hx)

end FastCompassConc
open FastCompassConc (durations begunRecords)

/-- **C123.** So it is (`C123_query`) whatever the loads of the getter return: the ring may look like any ring, counts may be those at some earlier moment, timestamps may not be visible (then an interval said
to begin at 0 is excepted). -/
theorem C123_query_any_loads (interval : Int) (N : Nat) (limit start : Int) (cat : String) (es : List (Ev (FastCompassConc.Arg ⊕ Empty) Int ⊕ BucketCounter.Looked)) (m : GoMap Int Int)
    (h : (FastCompassConc.wildWatch interval N limit start cat es).query = .done m) :
    let ms := durations cat (begunRecords es)
    let told (k : Int) := k ≠ 0 ∨ ∀ x, .inr x ∈ es → x.blank = false
    (ms.length : Int) < 2 ^ 26 → ms.sum < 2 ^ 38 →
    ∃ part : Int → List Int,
      (∀ k v, m.get? k = some v → told k → countOf v = (part k).length ∧ rtOf v = (part k).sum ∧ start ≤ k ∧ ∃ second, k = 1000 * second) ∧
      ∀ ks : List Int, ks.Nodup → (∀ k ∈ ks, told k ∧ ∃ v, m.get? k = some v) → (ks.map part).flatten.Subperm ms := by
  intro ms told hn hs
  have hp := FastCompassConc.wild_projects interval N limit start cat (∀ x, .inr x ∈ es → x.blank = false) es id
  cases hg : (FastCompassConc.wildWatch interval N limit start cat es).pool.shared.obj.subCategories.get? cat with
  | none => rw [hg] at hp; dsimp only at hp; rw [h] at hp; simp at hp
  | some b =>
    rw [hg] at hp
    dsimp only at hp
    obtain ⟨t0, us, es', h1, h2, -, h4, h5⟩ := hp
    obtain ⟨part, p1, p2⟩ := C122_query interval N t0 false start es' m (h2.trans h)
    have ht : ∀ k, told k → k ≠ 0 ∨ ∀ x, .inr x ∈ es' → x.blank = false := fun k hk => hk.imp_right h5
    rw [h1] at p2
    have hargs := FastCompassConc.calls_args interval N limit (FastCompassConc.recordEvents es)
    rw [← FastCompassConc.wildWatch_pool interval N limit start cat, ← FastCompassConc.begunRecords_eq] at hargs
    have hsub : ∀ ks : List Int, ks.Nodup → (∀ k ∈ ks, told k ∧ ∃ v, m.get? k = some v) → (ks.map part).flatten.Subperm (ms.map fun x => 2 ^ 38 + x) := by
      intro ks hk hks
      refine (p2 ks hk fun k hk' => ⟨ht k (hks k hk').1, (hks k hk').2⟩).trans (((List.filter_sublist).map _).subperm.trans (h4.2.1.trans ?_))
      have := FastCompassConc.amounts_subperm cat (FastCompassConc.wildWatch interval N limit start cat es).pool.calls
      rwa [hargs] at this
    exact packed_decode hsub (fun k v hk h0 => p1 k v hk (ht k h0)) (FastCompassConc.durations_nonneg cat _) hn hs

/-- **C123.** The runs of `C123_query`, in which loads return what was stored last, are among these. -/
theorem C123_query_covers (interval : Int) (N : Nat) (limit start : Int) (cat : String) (es : List FastCompassConc.WatchEv) :
    ∃ es', (FastCompassConc.wildWatch interval N limit start cat es').pool = (FastCompassConc.watch interval N limit start cat es).1 ∧
      (FastCompassConc.wildWatch interval N limit start cat es').query = (FastCompassConc.watch interval N limit start cat es).2 ∧
      begunRecords es' = begunRecords es ∧ ∀ x, .inr x ∈ es' → x.blank = false := by
  induction es using List.reverseRecOn with
  | nil => exact ⟨[], rfl, rfl, rfl, by simp⟩
  | append_singleton es e ih =>
    obtain ⟨es', h1, h2, h4, h3⟩ := ih
    have hp := FastCompassConc.watch_projects interval N limit start cat es
    rw [FastCompassConc.watch_snoc]
    cases e with
    | inl e =>
      refine ⟨es' ++ [.inl e], ?_, ?_, ?_, ?_⟩
      · rw [FastCompassConc.wildWatch_snoc]; simp only [FastCompassConc.wildWatchStep, FastCompassConc.watchStep, h1]
      · rw [FastCompassConc.wildWatch_snoc]; exact h2
      · unfold begunRecords at h4 ⊢
        rw [List.filterMap_append, List.filterMap_append, h4]
        rcases e with (a | a) | _ <;> rfl
      · intro x hx
        exact h3 x (by simpa using hx)
    | inr t =>
      cases hg : (FastCompassConc.watch interval N limit start cat es).1.shared.obj.subCategories.get? cat with
      | none =>
        refine ⟨es', ?_, ?_, ?_, h3⟩
        · simp only [FastCompassConc.watchStep, hg]; exact h1
        · simp only [FastCompassConc.watchStep, hg]; exact h2
        · rw [h4]; simp [begunRecords]
      | some b =>
        rw [hg] at hp
        dsimp only at hp
        obtain ⟨t0, es0, -, hw⟩ := hp
        have hok := (BucketCounter.cinv_run N _ (BucketCounter.sharedOk_new interval N t0 false) (BucketCounter.updates es0)).shared
        change BucketCounter.SharedOk N (BucketCounter.after interval N t0 false (BucketCounter.updates es0)).shared at hok
        rw [hw.1] at hok
        have hr := BucketCounter.fresh_read (w := ⟨⟨b, []⟩, (FastCompassConc.wildWatch interval N limit start cat es').query, (FastCompassConc.wildWatch interval N limit start cat es').past⟩) hok start t
        refine ⟨es' ++ [.inr (BucketCounter.Looked.fresh ⟨⟨b, []⟩, (FastCompassConc.wildWatch interval N limit start cat es').query, (FastCompassConc.wildWatch interval N limit start cat es').past⟩ t)],
          ?_, ?_, ?_, ?_⟩
        · rw [FastCompassConc.wildWatch_snoc]
          simp only [FastCompassConc.wildWatchStep, FastCompassConc.watchStep, h1, hg]
        · rw [FastCompassConc.wildWatch_snoc]
          simp only [FastCompassConc.wildWatchStep, FastCompassConc.watchStep, h1, hg]
          rw [← h2]
          exact hr
        · rw [show begunRecords (es ++ [.inr t]) = begunRecords es from by simp [begunRecords], ← h4]
          simp [begunRecords]
        · intro x hx
          rcases List.mem_append.1 hx with hx | hx
          · exact h3 x hx
          · obtain rfl : x = _ := by simpa using hx
            rfl

namespace FastCompassConc
/-- Two `Record`s of 3 ms and 4 ms for "ok", one of 5 ms for "err"; all are through before the query for "ok" begins, but its load of the count returns an older one. -/
def stale : List (Ev (Arg ⊕ Empty) Int ⊕ BucketCounter.Looked) :=
  [.inl (.spawn (.inl ⟨3000000, "ok"⟩)), .inl (.spawn (.inl ⟨5000000, "err"⟩)), .inl (.spawn (.inl ⟨4000000, "ok"⟩))] ++ List.replicate 20 (.inl (.step 0 61000)) ++
    List.replicate 20 (.inl (.step 1 61000)) ++ List.replicate 20 (.inl (.step 2 62000)) ++ List.replicate 20 (.inr ⟨62000, ⟨[0, 4, 2, 3], 1⟩, false, true, 20⟩)
end FastCompassConc

/-- The hypotheses are met, and the query gets part of what was recorded. -/
example : (FastCompassConc.wildWatch 60000000000 3 10 0 "ok" FastCompassConc.stale).query = .done [(60000, packed 3000000)] ∧
    durations "ok" (begunRecords FastCompassConc.stale) = [3, 4] ∧ (∀ x, .inr x ∈ FastCompassConc.stale → x.blank = false) := by
  refine ⟨by decide +kernel, by decide +kernel, fun x hx => ?_⟩
  simp [FastCompassConc.stale] at hx
  rw [hx]

end GoMetrics
