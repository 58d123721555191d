import Verif.Model.BucketReaderWild
import Verif.Proofs.Intervals
import Verif.Props.BucketReader
/-! # C122: a query that runs beside the calls -/
namespace GoMetrics
open Spec
namespace BucketCounter

theorem wildWatch_snoc (interval : Int) (N : Nat) (t0 : Int) (u : Bool) (s : Int) (es) (e) :
    wildWatch interval N t0 u s (es ++ [e]) = wildWatchStep s (wildWatch interval N t0 u s es) e := by simp [wildWatch]

theorem wildWatch_pool (interval : Int) (N : Nat) (t0 : Int) (u : Bool) (s : Int) (es) :
    (wildWatch interval N t0 u s es).pool = wildAfter interval N t0 u (wildUpdates es) := by
  induction es using List.reverseRecOn with
  | nil => rfl
  | append_singleton es e ih =>
    rw [wildWatch_snoc]
    have ha : ∀ l, wildUpdates (es ++ l) = wildUpdates es ++ wildUpdates l := fun l => by simp [wildUpdates]
    rw [ha]
    cases e with
    | inl e => simp only [wildWatchStep, ih, wildAfter]; simp [wildUpdates, Machine.run_snoc]
    | inr t => simp only [wildWatchStep, ih]; rw [show wildUpdates [Sum.inr t] = [] from rfl, List.append_nil]

theorem at_addAt_ts (h : BHeap) (p : Nat) (n : Int) (q : Nat) : ((addAt h p n).at q).timestamp = (h.at q).timestamp := by
  unfold addAt BHeap.at
  rw [List.getElem?_modify]
  cases hq : h[q]? with
  | none => simp
  | some b => by_cases hpq : p = q <;> simp [hpq]

/-- Buckets stay, and keep their timestamps. -/
theorem wildStep_grows (b : BucketCounter) (e : Seen) (c : Call) :
    b.heap.length ≤ (wildStep b e c).1.heap.length ∧ ∀ q < b.heap.length, ((wildStep b e c).1.heap.at q).timestamp = (b.heap.at q).timestamp := by
  unfold wildStep
  split
  · exact ⟨le_refl _, fun _ _ => rfl⟩
  · obtain ⟨n, pc⟩ := c
    cases pc with
    | cas ts old =>
      simp only [callStep]
      split
      · refine ⟨by simp, fun q hq => ?_⟩
        unfold BHeap.at
        simp only [List.getElem?_append_left hq]
      · exact ⟨le_refl _, fun _ _ => rfl⟩
    | add ts p => exact ⟨le_of_eq (length_addAt _ _ _).symm, fun q _ => at_addAt_ts _ _ _ _⟩
    | start =>
      simp only [callStep, bumpTotal]
      split <;> exact ⟨le_refl _, fun _ _ => rfl⟩
    | clock => simp only [callStep]; split <;> exact ⟨le_refl _, fun _ _ => rfl⟩
    | load ts => simp only [callStep]; split <;> exact ⟨le_refl _, fun _ _ => rfl⟩
    | _ => exact ⟨le_refl _, fun _ _ => rfl⟩

/-- What was added to a bucket stays there. -/
theorem addedTo_grows (p : Pool BucketCounter Call) (e : Ev Int Seen) (q : Nat) : (addedTo q p.calls).Sublist (addedTo q (wild.apply p e).calls) := by
  cases e with
  | spawn a =>
    simp only [Machine.apply, addedTo, List.filter_append, List.map_append]
    exact List.sublist_append_left _ _
  | step i x =>
    cases hc : p.calls[i]? with
    | none => simp only [Machine.apply, hc]; exact List.Sublist.refl _
    | some c =>
      obtain ⟨pre, post, h1, -, h2⟩ := wild.apply_step_eq (x := x) hc
      rw [h2, h1]
      change (addedTo q (pre ++ c :: post)).Sublist (addedTo q (pre ++ (wildStep p.shared x c).2 :: post))
      unfold addedTo
      simp only [List.filter_append, List.map_append]
      refine List.Sublist.append (List.Sublist.refl _) ?_
      obtain ⟨n, pc⟩ := c
      by_cases hd : ∃ ts p, pc = .done ts p
      · obtain ⟨ts, p', rfl⟩ := hd
        have : (wildStep p.shared x ⟨n, .done ts p'⟩).2 = ⟨n, .done ts p'⟩ := rfl
        rw [this]
      · rw [List.filter_cons_of_neg (by cases pc <;> simp_all)]
        rw [List.filter_cons]
        refine List.Sublist.map _ ?_
        split_ifs
        · exact (List.Sublist.refl _).cons _
        · exact List.Sublist.refl _

/-- The query's pointers. -/
def ReadPC.Within (n : Nat) : ReadPC → Prop
  | .slots _ _ _ _ acc => ∀ q ∈ acc, q < n
  | .counts _ todo _ => ∀ q ∈ todo, q < n
  | _ => True

/-- What it has collected. -/
def ReadPC.found : ReadPC → GoMap Int Int
  | .counts _ _ r => r
  | .done r => r
  | _ => []

/-- `V`: every load of the query sees the timestamps of the buckets. -/
structure WatchInv (V : Prop) (s : Int) (w : Watched) : Prop where
  pos : 0 < w.pool.shared.heap.length
  now : ∀ q, (w.pool.shared.heap.at q).count = i64 (addedTo q w.pool.calls).sum
  past : ∀ h ∈ w.past, ∀ q, ∃ l : List Int, l.Sublist (addedTo q w.pool.calls) ∧ (h.at q).count = i64 l.sum
  within : w.query.Within w.pool.shared.heap.length
  found : ∀ k v, w.query.found.get? k = some v → k ≠ 0 ∨ V → s ≤ k ∧
    ∃ q < w.pool.shared.heap.length, k = 1000 * (w.pool.shared.heap.at q).timestamp ∧ ∃ l : List Int, l.Sublist (addedTo q w.pool.calls) ∧ v = i64 l.sum

theorem ReadPC.Within.mono {n m : Nat} (h : n ≤ m) {c : ReadPC} (hc : c.Within n) : c.Within m := by
  cases c <;> first | trivial | exact fun q hq => lt_of_lt_of_le (hc q hq) h

theorem slot_shown (x : Looked) (b : BucketCounter) (hb : 0 < b.heap.length) (i : Nat) : (x.shown b).buckets.slot i < b.heap.length := by
  unfold Looked.shown Deque.slot
  simp only [List.getElem?_map]
  cases x.view.queue[i]? with
  | none => exact hb
  | some q => exact Nat.mod_lt _ hb

theorem watch_inv (interval : Int) (N : Nat) (t0 : Int) (u : Bool) (s : Int) (V : Prop) (es : List (Ev Int Seen ⊕ Looked)) (hV : V → ∀ x, .inr x ∈ es → x.blank = false) :
    WatchInv V s (wildWatch interval N t0 u s es) := by
  induction es using List.reverseRecOn with
  | nil =>
    have h0 := C107_bucket_exact interval N t0 u []
    refine ⟨?_, h0, ?_, trivial, ?_⟩
    · exact lt_of_le_of_lt (Nat.zero_le _) (C107_in_range interval N t0 u []).1
    · intro h hh q
      obtain rfl := List.mem_singleton.1 hh
      exact ⟨_, List.Sublist.refl _, h0 q⟩
    · intro k v hk
      simp [wildWatch, ReadPC.found] at hk
  | append_singleton es e ih =>
    replace ih := ih fun v x hx => hV v x (by simp [hx])
    rw [wildWatch_snoc]
    cases e with
    | inl e =>
      have hnow := C107_bucket_exact interval N t0 u (wildUpdates (es ++ [.inl e]))
      simp only at hnow
      rw [← wildWatch_pool interval N t0 u s, wildWatch_snoc] at hnow
      generalize wildWatch interval N t0 u s es = w at *
      have hg : w.pool.shared.heap.length ≤ (wild.apply w.pool e).shared.heap.length ∧
          ∀ q < w.pool.shared.heap.length, ((wild.apply w.pool e).shared.heap.at q).timestamp = (w.pool.shared.heap.at q).timestamp := by
        cases e with
        | spawn a => exact ⟨le_refl _, fun _ _ => rfl⟩
        | step i x =>
          cases hc : w.pool.calls[i]? with
          | none => simp only [Machine.apply, hc]; exact ⟨le_refl _, fun _ _ => trivial⟩
          | some c => simp only [Machine.apply, hc]; exact wildStep_grows _ _ _
      have ha := addedTo_grows w.pool e
      refine ⟨lt_of_lt_of_le ih.pos hg.1, hnow, ?_, ih.within.mono hg.1, ?_⟩
      · intro h hh q
        rcases List.mem_append.1 hh with hh | hh
        · obtain ⟨l, h1, h2⟩ := ih.past h hh q
          exact ⟨l, h1.trans (ha q), h2⟩
        · obtain rfl := List.mem_singleton.1 hh
          exact ⟨_, List.Sublist.refl _, hnow q⟩
      · intro k v hk h0
        obtain ⟨h1, q, hq, h2, l, h3, h4⟩ := ih.found k v hk h0
        exact ⟨h1, q, lt_of_lt_of_le hq hg.1, by rw [h2]; simp only [wildWatchStep]; rw [hg.2 q hq], l, h3.trans (ha q), h4⟩
    | inr x =>
      generalize wildWatch interval N t0 u s es = w at *
      obtain ⟨pool, query, past⟩ := w
      have hslot := slot_shown x pool.shared ih.pos
      have key : (wildReadStep s pool.shared past x query).Within pool.shared.heap.length ∧
          ∀ k v, (wildReadStep s pool.shared past x query).found.get? k = some v → k ≠ 0 ∨ V → s ≤ k ∧
            ∃ q < pool.shared.heap.length, k = 1000 * (pool.shared.heap.at q).timestamp ∧ ∃ l : List Int, l.Sublist (addedTo q pool.calls) ∧ v = i64 l.sum := by
        have hw := ih.within
        have hf := ih.found
        simp only at hw hf
        cases query with
        | clock =>
          simp only [wildReadStep, readStep]
          split <;> exact ⟨trivial, fun k v hk => by simp [ReadPC.found] at hk⟩
        | pos now => exact ⟨trivial, fun k v hk => by simp [wildReadStep, readStep, ReadPC.found] at hk⟩
        | again now a => exact ⟨trivial, fun k v hk => by simp [wildReadStep, readStep, ReadPC.found] at hk⟩
        | startTs now a c => exact ⟨fun q hq => by simp at hq, fun k v hk => by simp [wildReadStep, readStep, ReadPC.found] at hk⟩
        | slots now st first second acc =>
          have hacc : ∀ i, ∀ q ∈ acc ++ [(x.shown pool.shared).buckets.slot i], q < pool.shared.heap.length := by
            intro i q hq
            rcases List.mem_append.1 hq with hq | hq
            · exact hw q hq
            · rw [List.mem_singleton.1 hq]; exact hslot i
          cases first with
          | cons i first => exact ⟨hacc i, fun k v hk => by simp [wildReadStep, readStep, ReadPC.found] at hk⟩
          | nil =>
            cases second with
            | cons i second =>
              refine ⟨?_, fun k v hk => by simp [wildReadStep, readStep, ReadPC.found] at hk⟩
              simp only [wildReadStep, readStep]
              split
              · exact hacc i
              · exact hw
            | nil => exact ⟨hw, fun k v hk => by simp [wildReadStep, readStep, ReadPC.found] at hk⟩
        | counts now todo result =>
          cases todo with
          | nil => exact ⟨trivial, hf⟩
          | cons p todo =>
            refine ⟨fun q hq => hw q (by simp [hq]), ?_⟩
            intro k v hk h0
            simp only [wildReadStep, ReadPC.found] at hk
            split at hk
            · rename_i hcond
              rw [GoMap.get?_set] at hk
              split at hk
              · rename_i hkey
                have hb : x.blank = false := by
                  cases hb : x.blank with
                  | false => rfl
                  | true =>
                    exfalso
                    rcases h0 with h0 | h0
                    swap
                    · exact absurd (hV h0 x (by simp)) (by simp [hb])
                    apply h0
                    rw [← hkey]
                    have hp := hw p (by simp)
                    simp [Looked.shown, hb, BHeap.at, List.getElem?_eq_getElem hp]
                simp only [Looked.shown, hb, Bool.false_eq_true, if_false] at hkey hcond
                refine ⟨hkey ▸ hcond.1, p, hw p (by simp), hkey.symm, ?_⟩
                simp only [Option.some.injEq] at hk
                rw [← hk]
                cases hx : past[x.age]? with
                | none => exact ⟨_, List.Sublist.refl _, ih.now p⟩
                | some h => exact ih.past h (List.mem_of_getElem? hx) p
              · exact hf k v hk h0
            · exact hf k v hk h0
        | done r => exact ⟨trivial, hf⟩
        | panicked => exact ⟨trivial, fun k v hk => by simp [wildReadStep, readStep, ReadPC.found] at hk⟩
      exact ⟨ih.pos, ih.now, ih.past, key.1, key.2⟩

theorem flatten_sublist {ι α : Type} (f g : ι → List α) (l : List ι) (h : ∀ i ∈ l, (f i).Sublist (g i)) : (l.map f).flatten.Sublist (l.map g).flatten := by
  induction l with
  | nil => exact List.Sublist.refl _
  | cons i l ih => exact (h i (by simp)).append (ih fun j hj => h j (by simp [hj]))

/-- What was added to different buckets. -/
theorem added_parts (ks : List Int) (hnd : ks.Nodup) (q : Int → Nat) (hq : ∀ k ∈ ks, ∀ k' ∈ ks, q k = q k' → k = k') (cs : List Call) :
    (ks.map fun k => addedTo (q k) cs).flatten.Subperm (cs.map Call.n) := by
  have := parts_subperm (fun (i : Nat) (c : Call) => match c.pc with
    | .done _ p => decide (p = i)
    | _ => false) (by
      intro i j a h1 h2
      cases hpc : a.pc <;> simp only [hpc, decide_eq_true_eq, Bool.false_eq_true] at h1 h2
      omega) (ks.map q) (List.Nodup.map_on (fun k hk k' hk' e => hq k hk k' hk' e) hnd) cs
  have h2 := subperm_map Call.n this
  rw [List.map_flatten, List.map_map, List.map_map] at h2
  exact h2
end BucketCounter
open BucketCounter

/-- **C122.** A query `GetBucketCountsSince(start)` that runs, load by load, beside any number of calls, whatever the plain loads of all of them return: each interval it reports begins at a whole
second, not before `start`, its number is the int64 sum of the arguments of some of the calls that have returned, and no call is in two intervals. (But for an interval said to begin at 0
if some load of a timestamp by the query found it not visible yet: that is what it looks like.) -/
theorem C122_query (interval : Int) (N : Nat) (t0 : Int) (u : Bool) (start : Int) (es : List (Ev Int Seen ⊕ Looked)) (m : GoMap Int Int)
    (h : (wildWatch interval N t0 u start es).query = .done m) :
    let calls := (wildWatch interval N t0 u start es).pool.calls.filter fun c => match c.pc with
      | .done _ _ => true
      | _ => false
    let told (k : Int) := k ≠ 0 ∨ ∀ x, .inr x ∈ es → x.blank = false
    ∃ part : Int → List Int,
      (∀ k v, m.get? k = some v → told k → v = i64 (part k).sum ∧ start ≤ k ∧ ∃ second, k = 1000 * second) ∧
      ∀ ks : List Int, ks.Nodup → (∀ k ∈ ks, told k ∧ ∃ v, m.get? k = some v) → (ks.map part).flatten.Subperm (calls.map Call.n) := by
  classical
  intro calls told
  have hi := (watch_inv interval N t0 u start (∀ x, .inr x ∈ es → x.blank = false) es id).found
  change ∀ k v, _ → told k → _ at hi
  rw [h] at hi
  simp only [ReadPC.found] at hi
  have hcalls : ∀ q, addedTo q (wildWatch interval N t0 u start es).pool.calls = addedTo q calls := by
    intro q
    show (List.filter _ _).map _ = (List.filter _ (List.filter _ _)).map _
    rw [List.filter_filter]
    congr 1
    apply List.filter_congr
    intro c _
    cases c.pc <;> simp
  simp only [hcalls] at hi
  clear_value calls told
  generalize (wildWatch interval N t0 u start es).pool.shared = b at *
  have hex : ∀ k, ∃ (q : Nat) (l : List Int), ∀ v, m.get? k = some v → told k → start ≤ k ∧ k = 1000 * (b.heap.at q).timestamp ∧ l.Sublist (addedTo q calls) ∧ v = i64 l.sum := by
    intro k
    by_cases h0 : told k
    swap
    · exact ⟨0, [], fun v hv h => absurd h h0⟩
    cases hk : m.get? k with
    | none => exact ⟨0, [], fun v hv => by simp at hv⟩
    | some v =>
      obtain ⟨h1, q, -, h2, l, h3, h4⟩ := hi k v hk h0
      exact ⟨q, l, fun v' hv' _ => by simp only [Option.some.injEq] at hv'; exact ⟨h1, h2, h3, hv' ▸ h4⟩⟩
  choose q l hq using hex
  refine ⟨l, fun k v hk h0 => ⟨(hq k v hk h0).2.2.2, (hq k v hk h0).1, _, (hq k v hk h0).2.1⟩, fun ks hnd hks => ?_⟩
  refine (flatten_sublist l (fun k => addedTo (q k) calls) ks fun k hk => ?_).subperm.trans (added_parts ks hnd q (fun k hk k' hk' e => ?_) calls)
  · obtain ⟨h0, v, hv⟩ := hks k hk
    exact (hq k v hv h0).2.2.1
  · obtain ⟨h0, v, hv⟩ := hks k hk
    obtain ⟨h0', v', hv'⟩ := hks k' hk'
    rw [(hq k v hv h0).2.1, (hq k' v' hv' h0').2.1, e]

namespace BucketCounter

/-- What a step of the query finds if every load returns what was stored last. -/
def Looked.fresh (w : Watched) (t : Int) : Looked where
  clock := t
  view := w.pool.shared.buckets
  blank := false
  pass := match w.query with
    | .counts now (p :: _) _ => decide ((w.pool.shared.heap.at p).timestamp ≤ now)
    | _ => true
  age := w.past.length

theorem fresh_shown {N : Nat} {w : Watched} (h : SharedOk N w.pool.shared) (t : Int) : (Looked.fresh w t).shown w.pool.shared = w.pool.shared := by
  have e : w.pool.shared.buckets.queue.map (· % w.pool.shared.heap.length) = w.pool.shared.buckets.queue := by
    conv_rhs => rw [← List.map_id w.pool.shared.buckets.queue]
    exact List.map_congr_left fun q hq => Nat.mod_eq_of_lt (h.slots q hq)
  unfold Looked.shown Looked.fresh
  simp only [Bool.false_eq_true, if_false, e]

theorem fresh_read {N : Nat} {w : Watched} (h : SharedOk N w.pool.shared) (s t : Int) :
    wildReadStep s w.pool.shared w.past (Looked.fresh w t) w.query = readStep s w.pool.shared t w.query := by
  have hs := fresh_shown h t
  have hc : (Looked.fresh w t).clock = t := rfl
  cases hq : w.query with
  | counts now todo result =>
    cases todo with
    | nil => rfl
    | cons p todo =>
      have hp : (Looked.fresh w t).pass = decide ((w.pool.shared.heap.at p).timestamp ≤ now) := by simp only [Looked.fresh, hq]
      have ha : w.past[(Looked.fresh w t).age]? = none := List.getElem?_eq_none (le_refl _)
      simp only [wildReadStep, readStep, hs, ha, hp, Option.getD_none, collect, decide_eq_true_eq]
  | _ => simp only [wildReadStep, hs, hc]

end BucketCounter

/-- **C122.** The runs of C81, in which loads return what was stored last, are among these, and every load of the query finds the timestamps. -/
theorem C122_query_covers (interval : Int) (N : Nat) (t0 : Int) (u : Bool) (start : Int) (es : List WatchEv) :
    ∃ es', (wildWatch interval N t0 u start es').pool = (watch interval N t0 u start es).1 ∧
      (wildWatch interval N t0 u start es').query = (watch interval N t0 u start es).2 ∧ ∀ x, .inr x ∈ es' → x.blank = false := by
  induction es using List.reverseRecOn with
  | nil => exact ⟨[], rfl, rfl, by simp⟩
  | append_singleton es e ih =>
    obtain ⟨es', h1, h2, h3⟩ := ih
    have hok := (cinv_run N _ (sharedOk_new interval N t0 u) (updates es)).shared
    change SharedOk N (after interval N t0 u (updates es)).shared at hok
    rw [← watch_pool interval N t0 u start, ← h1] at hok
    rw [watch_snoc]
    cases e with
    | inl e =>
      have key : ∃ e', wild.apply (wildWatch interval N t0 u start es').pool e' = conc.apply (watch interval N t0 u start es).1 e := by
        rw [← h1]
        generalize (wildWatch interval N t0 u start es').pool = p at *
        cases e with
        | spawn a => exact ⟨.spawn a, rfl⟩
        | step i x =>
          refine ⟨.step i ⟨x, p.shared.latestBucket, false, p.shared.buckets.current⟩, ?_⟩
          cases hc : p.calls[i]? with
          | none => simp only [Machine.apply, hc]
          | some c =>
            simp only [Machine.apply, hc]
            show Pool.mk (wildStep _ _ c).1 (p.calls.set i (wildStep _ _ c).2) = Pool.mk (callStep _ _ c).1 (p.calls.set i (callStep _ _ c).2)
            rw [wild_fresh hok]
      obtain ⟨e', he⟩ := key
      refine ⟨es' ++ [.inl e'], ?_, ?_, ?_⟩
      · rw [wildWatch_snoc]; exact he
      · rw [wildWatch_snoc]; exact h2
      · intro x hx
        exact h3 x (by simpa using hx)
    | inr t =>
      refine ⟨es' ++ [.inr (Looked.fresh (wildWatch interval N t0 u start es') t)], ?_, ?_, ?_⟩
      · rw [wildWatch_snoc]; exact h1
      · rw [wildWatch_snoc]
        simp only [wildWatchStep, watchStep]
        rw [fresh_read hok, h1, h2]
      · intro x hx
        rcases List.mem_append.1 hx with hx | hx
        · exact h3 x hx
        · obtain rfl : x = _ := by simpa using hx
          rfl

/-- Two calls in one interval, and a third that does not see the timestamp of the bucket of the first two and makes another one for it; a query beside them, which finds the first of the two buckets
in the ring, and of its two counts, 5 and 12, the older one. -/
example :
    let es : List (Ev Int Seen ⊕ Looked) :=
      (alone 0 5 ⟨60000, 0, false, 0⟩).map .inl ++ (alone 1 7 ⟨60000, 4, false, 1⟩).map .inl ++
      List.replicate 3 (.inr ⟨120000, ⟨[0, 4, 2, 3], 1⟩, false, true, 0⟩) ++ (alone 2 3 ⟨60000, 4, true, 1⟩).map .inl ++
      List.replicate 12 (.inr ⟨120000, ⟨[0, 4, 2, 3], 1⟩, false, true, 10⟩)
    let w := wildWatch 60000000000 3 0 true 1 es
    w.query = .done [(60000, 5)] ∧ w.pool.shared.getCount = 15 ∧ w.pool.shared.heap.drop 4 = [⟨60, 12⟩, ⟨60, 3⟩] := by
  decide +kernel

end GoMetrics
