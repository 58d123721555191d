import Verif.Model.BucketReader
import Verif.Props.BucketsConc
/-! # C81 — a query beside concurrent `UpdateN` calls

Every theorem quantifies over every schedule `es` of any number of `UpdateN` calls and the steps of one query, interleaved between single loads and
stores, with any clock readings. -/
namespace GoMetrics
open Spec BucketCounter
namespace BucketCounter

/-- The query has begun: it has read the clock and got `now`. -/
def Begun (interval : Int) (es : List WatchEv) (now : Int) : Prop :=
  ∃ pre t post, es = pre ++ .inr t :: post ∧ (∀ e ∈ pre, e.isLeft = true) ∧ alignTimestamp interval t = some now

theorem Begun.append {interval es now} (h : Begun interval es now) (es' : List WatchEv) : Begun interval (es ++ es') now := by
  obtain ⟨pre, t, post, rfl, h1, h2⟩ := h
  exact ⟨pre, t, post ++ es', by simp, h1, h2⟩

theorem watch_snoc (interval : Int) (N : Nat) (t0 : Int) (u : Bool) (s : Int) (es : List WatchEv) (e : WatchEv) :
    watch interval N t0 u s (es ++ [e]) = watchStep s (watch interval N t0 u s es) e := by simp [watch]

theorem updates_append (es es' : List WatchEv) : updates (es ++ es') = updates es ++ updates es' := by simp [updates]

theorem watch_pool (interval : Int) (N : Nat) (t0 : Int) (u : Bool) (s : Int) (es : List WatchEv) :
    (watch interval N t0 u s es).1 = after interval N t0 u (updates es) := by
  induction es using List.reverseRecOn with
  | nil => rfl
  | append_singleton es e ih =>
    rw [watch_snoc, updates_append]
    cases e with
    | inl e => simp only [watchStep, ih, after]; simp [updates, Machine.run_snoc]
    | inr t => simp only [watchStep, ih]; rw [show updates [(Sum.inr t : WatchEv)] = [] from rfl, List.append_nil]

theorem interval_after (interval : Int) (N : Nat) (t0 : Int) (u : Bool) (es : List (Ev Int Int)) :
    (after interval N t0 u es).shared.interval = interval := by
  unfold after
  apply inv_run_start (Inv := fun p => p.shared.interval = interval) N _ (sharedOk_new interval N t0 u)
  · rfl
  · intro s cs a _ h; exact h
  · intro s pre c post x _ h
    simp only [(callStep_const s x c).2]; exact h

theorem ext_after (interval : Int) (N : Nat) (t0 : Int) (u : Bool) (es es' : List (Ev Int Int)) :
    Ext (after interval N t0 u es).shared (after interval N t0 u (es ++ es')).shared := by
  induction es' using List.reverseRecOn with
  | nil => rw [List.append_nil]; exact Ext.refl _
  | append_singleton es' e ih =>
    rw [← List.append_assoc]
    have hc := cinv_run N _ (sharedOk_new interval N t0 u) (es ++ es')
    unfold after at *
    rw [Machine.run_snoc]
    generalize conc.run (Machine.start (new interval N t0 u)) (es ++ es') = p at *
    have step : Ext p.shared (conc.apply p e).shared := by
      cases e with
      | spawn a => exact Ext.refl _
      | step i x =>
        cases h : p.calls[i]? with
        | none => simp only [Machine.apply, h]; exact Ext.refl _
        | some c =>
          obtain ⟨pre, post, h1, _, h2⟩ := conc.apply_step_eq (x := x) h
          rw [h2]
          exact (callStep_ok (t := x) hc.shared (hc.calls c (by rw [h1]; simp))).2.1
    exact ⟨le_trans ih.len step.len, fun q hq => (step.ts q (lt_of_lt_of_le hq ih.len)).trans (ih.ts q hq), step.qlen.trans ih.qlen⟩

/-- An entry of the answer is right: at a moment after the query began, a bucket with that timestamp held that count. -/
def Good (interval : Int) (N : Nat) (t0 : Int) (u : Bool) (s : Int) (es : List WatchEv) (now k v : Int) : Prop :=
  ∃ ts p es1, es1 <+: es ∧ Begun interval es1 now ∧ k = 1000 * ts ∧ s ≤ k ∧ ts ≤ now ∧
    p < (after interval N t0 u (updates es1)).shared.heap.length ∧ (after interval N t0 u (updates es1)).shared.heap.at p = ⟨ts, v⟩

theorem Good.append {interval N t0 u s es now k v} (h : Good interval N t0 u s es now k v) (es' : List WatchEv) :
    Good interval N t0 u s (es ++ es') now k v := by
  obtain ⟨ts, p, es1, h1, h2⟩ := h
  exact ⟨ts, p, es1, h1.trans (List.prefix_append _ _), h2⟩

/-- The invariant of the query. -/
def ReadOk (interval : Int) (N : Nat) (t0 : Int) (u : Bool) (s : Int) (es : List WatchEv) : ReadPC → Prop
  | .clock => ∀ e ∈ es, e.isLeft = true
  | .pos now => Begun interval es now
  | .again now sp => Begun interval es now ∧ sp ≤ N
  | .startTs now sp _ => Begun interval es now ∧ sp ≤ N
  | .slots now _ first second acc => Begun interval es now ∧ acc.length + first.length + second.length ≤ N ∧
      ∀ p ∈ acc, p < (after interval N t0 u (updates es)).shared.heap.length
  | .counts now todo result => Begun interval es now ∧ result.length + todo.length ≤ N ∧ result.WF ∧
      (∀ p ∈ todo, p < (after interval N t0 u (updates es)).shared.heap.length) ∧
      ∀ k v, result.get? k = some v → Good interval N t0 u s es now k v
  | .done result => ∃ now, Begun interval es now ∧ result.length ≤ N ∧ result.WF ∧
      ∀ k v, result.get? k = some v → Good interval N t0 u s es now k v
  | .panicked => wholeSeconds interval = 0

theorem loops_length (sp N : Nat) (h : sp ≤ N) : (Deque.loop1 sp N sp).length + (Deque.loop2 sp N).length ≤ N := by
  have h1 : ∀ i, i ≤ sp → (Deque.loop1 sp N i).length ≤ min (i + 1) (N - (sp - i)) := by
    intro i
    induction i with
    | zero => intro _; unfold Deque.loop1; split <;> simp <;> omega
    | succ i ih =>
      intro hi
      unfold Deque.loop1
      split
      · rw [List.length_cons]
        have := ih (by omega)
        omega
      · simp
  have h2 : ∀ i, (Deque.loop2 sp i).length ≤ i - (sp + 1) := by
    intro i
    induction i with
    | zero => simp [Deque.loop2]
    | succ i ih =>
      unfold Deque.loop2
      split
      · rw [List.length_cons]; omega
      · simp
  have := h1 sp le_rfl
  have := h2 N
  omega

theorem slot_lt {N : Nat} {b : BucketCounter} (h : SharedOk N b) (i : Nat) : b.buckets.slot i < b.heap.length := by
  unfold Deque.slot
  cases hi : b.buckets.queue[i]? with
  | none => have := h.len; simp; omega
  | some r => exact h.slots r (List.mem_of_getElem? hi)

theorem readOk_run (interval : Int) (N : Nat) (t0 : Int) (u : Bool) (s : Int) (es : List WatchEv) :
    ReadOk interval N t0 u s es (watch interval N t0 u s es).2 := by
  induction es using List.reverseRecOn with
  | nil => intro e he; simp at he
  | append_singleton es e ih =>
    rw [watch_snoc]
    have hpool := watch_pool interval N t0 u s es
    generalize watch interval N t0 u s es = st at ih hpool
    obtain ⟨p, pc⟩ := st
    simp only at hpool ih
    subst hpool
    cases e with
    | inl e =>
      have hupd : updates (es ++ [Sum.inl e]) = updates es ++ [e] := by simp [updates]
      have hext := (ext_after interval N t0 u (updates es) [e]).len
      simp only [watchStep]
      cases pc with
      | clock => intro x hx; rcases List.mem_append.1 hx with hx | hx
                 · exact ih x hx
                 · rw [List.mem_singleton.1 hx]; rfl
      | pos now => exact Begun.append ih _
      | again now sp => exact ⟨ih.1.append _, ih.2⟩
      | startTs now sp c => exact ⟨ih.1.append _, ih.2⟩
      | slots now st f g acc =>
        refine ⟨ih.1.append _, ih.2.1, fun q hq => ?_⟩
        rw [hupd]; exact lt_of_lt_of_le (ih.2.2 q hq) hext
      | counts now todo r =>
        refine ⟨ih.1.append _, ih.2.1, ih.2.2.1, fun q hq => ?_, fun k v h => (ih.2.2.2.2 k v h).append _⟩
        rw [hupd]; exact lt_of_lt_of_le (ih.2.2.2.1 q hq) hext
      | done r =>
        obtain ⟨now, h1, h2, h3, h4⟩ := ih
        exact ⟨now, h1.append _, h2, h3, fun k v h => (h4 k v h).append _⟩
      | panicked => exact ih
    | inr t =>
      have hupd : updates (es ++ [Sum.inr t]) = updates es := by simp [updates]
      have hc := (cinv_run N _ (sharedOk_new interval N t0 u) (updates es)).shared
      change SharedOk N (after interval N t0 u (updates es)).shared at hc
      have hint := interval_after interval N t0 u (updates es)
      simp only [watchStep]
      cases pc with
      | clock =>
        simp only [readStep, hint]
        cases ha : alignTimestamp interval t with
        | none =>
          unfold alignTimestamp at ha
          split at ha
          · assumption
          · simp at ha
        | some now => exact ⟨es, t, [], rfl, ih, ha⟩
      | pos now => exact ⟨Begun.append ih _, by have := hc.cur; omega⟩
      | again now sp => exact ⟨ih.1.append _, ih.2⟩
      | startTs now sp c =>
        refine ⟨ih.1.append _, ?_, by simp⟩
        rw [hc.qlen]
        simpa using loops_length sp N ih.2
      | slots now st f g acc =>
        obtain ⟨h1, h2, h3⟩ := ih
        cases f with
        | cons i f =>
          refine ⟨h1.append _, by simp at h2 ⊢; omega, fun q hq => ?_⟩
          rw [hupd]
          rcases List.mem_append.1 hq with hq | hq
          · exact h3 q hq
          · rw [List.mem_singleton.1 hq]; exact slot_lt hc i
        | nil =>
          cases g with
          | cons i g =>
            simp only [readStep]
            by_cases hts : ((after interval N t0 u (updates es)).shared.heap.at
                ((after interval N t0 u (updates es)).shared.buckets.slot i)).timestamp ≤ st
            · rw [if_pos hts]
              refine ⟨h1.append _, by simp at h2 ⊢; omega, fun q hq => ?_⟩
              rw [hupd]
              rcases List.mem_append.1 hq with hq | hq
              · exact h3 q hq
              · rw [List.mem_singleton.1 hq]; exact slot_lt hc i
            · rw [if_neg hts]
              refine ⟨h1.append _, by simp at h2 ⊢; omega, fun q hq => ?_⟩
              rw [hupd]; exact h3 q hq
          | nil =>
            refine ⟨h1.append _, by simp at h2 ⊢; omega, GoMap.wf_nil, fun q hq => ?_, fun k v h => by simp [GoMap.get?] at h⟩
            rw [hupd]; exact h3 q hq
      | counts now todo r =>
        obtain ⟨h1, h2, h3, h4, h5⟩ := ih
        cases todo with
        | nil => exact ⟨now, h1.append _, by simpa using h2, h3, fun k v h => (h5 k v h).append _⟩
        | cons q todo =>
          have hq := h4 q (by simp)
          simp only [readStep, collect]
          split
          · rename_i hin
            refine ⟨h1.append _, ?_, GoMap.wf_set h3 _ _, fun x hx => ?_, fun k v h => ?_⟩
            · have : ∀ (m : GoMap Int Int) k v, (m.set k v).length ≤ m.length + 1 := by
                intro m k v
                induction m with
                | nil => simp [GoMap.set]
                | cons e t ih => simp only [GoMap.set]; split <;> simp; omega
              have := this r (secondToMsRate * ((after interval N t0 u (updates es)).shared.heap.at q).timestamp)
                ((after interval N t0 u (updates es)).shared.heap.at q).count
              simp at h2; omega
            · rw [hupd]; exact h4 x (by simp [hx])
            · rw [GoMap.get?_set] at h
              split at h
              · rename_i hk
                refine ⟨((after interval N t0 u (updates es)).shared.heap.at q).timestamp, q, es, List.prefix_append _ _, h1, ?_, ?_, hin.2, hq, ?_⟩
                · rw [← hk]; rfl
                · rw [← hk]; exact hin.1
                · rw [← Option.some.inj h]
              · exact (h5 k v h).append _
          · refine ⟨h1.append _, by simp at h2; omega, h3, fun x hx => ?_, fun k v h => (h5 k v h).append _⟩
            rw [hupd]; exact h4 x (by simp [hx])
      | done r =>
        obtain ⟨now, h1, h2, h3, h4⟩ := ih
        exact ⟨now, h1.append _, h2, h3, fun k v h => (h4 k v h).append _⟩
      | panicked => exact ih

end BucketCounter

/-- **C81.** Whatever the interleaving, a query since `s > -1000` that has returned reports at most `N` intervals, all of them at or after `s` and not
after its own clock reading, and the value for each is exactly what, at some moment while the query was running, had been credited to that interval
by the calls that had returned — never a mixture. -/
theorem C81_sound (interval : Int) (N : Nat) (t0 : Int) (u : Bool) (s : Int) (hs : -1000 < s) (es : List WatchEv) (m : GoMap Int Int)
    (hm : (watch interval N t0 u s es).2 = .done m) :
    m.length ≤ N ∧ m.WF ∧ ∃ pre t post, es = pre ++ .inr t :: post ∧ (∀ e ∈ pre, e.isLeft = true) ∧
      ∀ k v, m.get? k = some v → ∃ ts post1 post2, k = 1000 * ts ∧ s ≤ k ∧ 0 ≤ ts ∧
        ts ≤ intervalStart (wholeSeconds interval) t ∧ post = post1 ++ post2 ∧
        v = i64 (amount (credits (after interval N t0 u (updates (pre ++ .inr t :: post1)))) ts) := by
  have h := readOk_run interval N t0 u s es
  rw [hm] at h
  obtain ⟨now, ⟨pre, t, post, rfl, h1, h2⟩, h3, h4, h5⟩ := h
  refine ⟨h3, h4, pre, t, post, rfl, h1, fun k v hk => ?_⟩
  obtain ⟨ts, p, es1, g1, g2, g3, g4, g5, g6, g7⟩ := h5 k v hk
  have hnow : now = intervalStart (wholeSeconds interval) t := by
    unfold alignTimestamp at h2
    split at h2
    · simp at h2
    · exact (Option.some.inj h2).symm
  -- `es1` contains the first step of the query
  have hes1 : ∃ post1 post2, es1 = pre ++ .inr t :: post1 ∧ post = post1 ++ post2 := by
    obtain ⟨pre', t', post', rfl, k1, -⟩ := g2
    obtain ⟨rest, hrest⟩ := g1
    have hpre : pre' = pre := by
      have hr : ∀ (a b : List WatchEv) (x y : Int) (c d : List WatchEv), (∀ e ∈ a, e.isLeft = true) → (∀ e ∈ b, e.isLeft = true) →
          a ++ .inr x :: c = b ++ .inr y :: d → a = b := by
        intro a
        induction a with
        | nil =>
          intro b x y c d _ hb h
          cases b with
          | nil => rfl
          | cons e b =>
            simp only [List.nil_append, List.cons_append, List.cons.injEq] at h
            have := hb e (by simp)
            rw [← h.1] at this; simp at this
        | cons e a ih =>
          intro b x y c d ha hb h
          cases b with
          | nil =>
            simp only [List.nil_append, List.cons_append, List.cons.injEq] at h
            have := ha e (by simp)
            rw [h.1] at this; simp at this
          | cons e' b =>
            simp only [List.cons_append, List.cons.injEq] at h
            rw [h.1, ih b x y c d (fun e he => ha e (by simp [he])) (fun e he => hb e (by simp [he])) h.2]
      refine hr pre' pre t' t (post' ++ rest) post k1 h1 ?_
      rw [← hrest]; simp
    subst hpre
    rw [List.append_assoc, List.append_cancel_left_eq, List.cons_append, List.cons.injEq] at hrest
    obtain ⟨h6, h7⟩ := hrest
    rw [h6]
    exact ⟨post', rest, rfl, h7.symm⟩
  obtain ⟨post1, post2, rfl, hpost⟩ := hes1
  have hc := cinv_run N _ (sharedOk_new interval N t0 u) (updates (pre ++ .inr t :: post1))
  have hsum := sumInv_run N interval t0 u (updates (pre ++ .inr t :: post1))
  have hpN : N < p := by
    by_contra hcon
    have := hc.shared.placeholder p (by omega)
    unfold tsOf at this
    change ((after interval N t0 u (updates (pre ++ .inr t :: post1))).shared.heap.at p).timestamp = -1 at this
    rw [g7] at this
    simp only at this
    omega
  have hreal := hc.shared.real p hpN g6
  have ham := amount_credits hc hsum g6 hpN
  change ((after interval N t0 u (updates (pre ++ .inr t :: post1))).shared.heap.at p).count =
    i64 (amount (credits (after interval N t0 u (updates (pre ++ .inr t :: post1))))
      ((after interval N t0 u (updates (pre ++ .inr t :: post1))).shared.heap.at p).timestamp) at ham
  change 0 ≤ ((after interval N t0 u (updates (pre ++ .inr t :: post1))).shared.heap.at p).timestamp at hreal
  rw [g7] at ham hreal
  exact ⟨ts, post1, post2, g3, g4, hreal, hnow ▸ g5, hpost, ham⟩

namespace BucketCounter
/-- Bucket `p` of counter `b` belongs under key `k` of the answer. -/
def Belongs (b : BucketCounter) (s now k : Int) (p : Nat) : Prop :=
  k = 1000 * b.tsOf p ∧ s ≤ k ∧ b.tsOf p ≤ now

theorem collect_isSome (b : BucketCounter) (s now : Int) (r : GoMap Int Int) (p : Nat) (k : Int) :
    ((collect b.heap s now r p).get? k).isSome = true ↔ (r.get? k).isSome = true ∨ Belongs b s now k p := by
  unfold collect Belongs secondToMsRate tsOf
  dsimp only
  split
  · rename_i h
    rw [GoMap.get?_set]
    split
    · rename_i hk; subst hk; exact ⟨fun _ => Or.inr ⟨rfl, h⟩, fun _ => rfl⟩
    · rename_i hk
      constructor
      · exact Or.inl
      · rintro (h' | ⟨h', -⟩)
        · exact h'
        · exact absurd h'.symm hk
  · rename_i h
    constructor
    · exact Or.inl
    · rintro (h' | ⟨rfl, h'⟩)
      · exact h'
      · exact absurd h' h

theorem foldl_isSome (b : BucketCounter) (s now : Int) (l : List Nat) (r : GoMap Int Int) (k : Int) :
    ((l.foldl (collect b.heap s now) r).get? k).isSome = true ↔ (r.get? k).isSome = true ∨ ∃ p ∈ l, Belongs b s now k p := by
  induction l generalizing r with
  | nil => simp
  | cons p l ih =>
    rw [List.foldl_cons, ih, collect_isSome]
    simp only [List.mem_cons, exists_eq_or_imp, or_assoc]

/-- Progress of a query on a ring that does not change; `b0` is the counter when the query began. -/
def ReadAll (b0 : BucketCounter) (s now : Int) : ReadPC → Prop
  | .clock => True
  | .pos now' => now' = now
  | .again now' sp => now' = now ∧ sp = b0.buckets.current
  | .startTs now' sp cur => now' = now ∧ sp = b0.buckets.current ∧ cur = b0.buckets.current
  | .slots now' st f g acc => now' = now ∧
      acc ++ f.map b0.buckets.slot ++ (g.map b0.buckets.slot).filter (fun p => (b0.heap.at p).timestamp ≤ st) =
        b0.buckets.getBucketList b0.heap
  | .counts now' todo r => now' = now ∧ (∀ p ∈ todo, p ∈ b0.buckets.getBucketList b0.heap) ∧
      ∀ k, (∃ p ∈ b0.buckets.getBucketList b0.heap, Belongs b0 s now k p) ↔ (r.get? k).isSome = true ∨ ∃ p ∈ todo, Belongs b0 s now k p
  | .done r => ∀ k, (∃ p ∈ b0.buckets.getBucketList b0.heap, Belongs b0 s now k p) ↔ (r.get? k).isSome = true
  | .panicked => True

theorem bucketList_lt {N : Nat} {b : BucketCounter} (h : SharedOk N b) : ∀ p ∈ b.buckets.getBucketList b.heap, p < b.heap.length := by
  intro p hp
  unfold Deque.getBucketList at hp
  rcases List.mem_append.1 hp with hq | hq
  · obtain ⟨i, _, rfl⟩ := List.mem_map.1 hq; exact slot_lt h i
  · obtain ⟨i, _, rfl⟩ := List.mem_map.1 (List.mem_filter.1 hq).1; exact slot_lt h i

/-- One step of the query on the same ring with the same timestamps. -/
theorem readAll_step {N : Nat} {b0 b : BucketCounter} (h0 : SharedOk N b0) (hb : b.buckets = b0.buckets) (he : Ext b0 b) (s now t : Int)
    (pc : ReadPC) (hpc : pc ≠ .clock) (h : ReadAll b0 s now pc) : ReadAll b0 s now (readStep s b t pc) := by
  have hts : ∀ i, (b.heap.at (b0.buckets.slot i)).timestamp = (b0.heap.at (b0.buckets.slot i)).timestamp :=
    fun i => he.ts _ (slot_lt h0 i)
  cases pc with
  | clock => exact absurd rfl hpc
  | pos now' => exact ⟨h, by rw [hb]⟩
  | again now' sp => exact ⟨h.1, h.2, by rw [hb]⟩
  | startTs now' sp cur =>
    obtain ⟨h1, rfl, rfl⟩ := h
    simp only [readStep, hb]
    refine ⟨h1, ?_⟩
    rw [hts]
    unfold Deque.getBucketList
    simp
  | slots now' st f g acc =>
    obtain ⟨h1, h2⟩ := h
    cases f with
    | cons i f =>
      refine ⟨h1, ?_⟩
      rw [← h2, hb]; simp
    | nil =>
      cases g with
      | cons i g =>
        simp only [readStep, hb, hts]
        refine ⟨h1, ?_⟩
        rw [← h2]
        simp only [List.map_nil, List.append_nil, List.map_cons, List.filter_cons, decide_eq_true_eq]
        split <;> simp
      | nil =>
        simp only [List.map_nil, List.append_nil, List.filter_nil] at h2
        refine ⟨h1, fun p hp => h2 ▸ hp, fun k => ?_⟩
        rw [h2]; simp [GoMap.get?]
  | counts now' todo r =>
    obtain ⟨rfl, h2, h3⟩ := h
    cases todo with
    | nil =>
      intro k
      rw [h3 k]; simp
    | cons p todo =>
      have hbel : ∀ k, Belongs b s now' k p ↔ Belongs b0 s now' k p := by
        intro k
        unfold Belongs
        rw [he.ts p (bucketList_lt h0 p (h2 p (by simp)))]
      refine ⟨rfl, fun q hq => h2 q (by simp [hq]), fun k => ?_⟩
      rw [h3 k, collect_isSome, hbel]
      simp only [List.mem_cons, exists_eq_or_imp, or_assoc]
  | done r => exact h
  | panicked => trivial

end BucketCounter

/-- **C81.** If no new bucket is linked into the ring while the query runs (updates of existing buckets may happen), it reports every interval that it
would have reported alone when it began, and no other: `hring` says that the ring is the same after every further event. -/
theorem C81_complete (interval : Int) (N : Nat) (t0 : Int) (u : Bool) (s : Int) (pre : List WatchEv) (t : Int) (post : List WatchEv)
    (hpre : ∀ e ∈ pre, e.isLeft = true)
    (hring : ∀ post1, post1 <+: post →
      (after interval N t0 u (updates (pre ++ .inr t :: post1))).shared.buckets = (after interval N t0 u (updates pre)).shared.buckets)
    (m m0 : GoMap Int Int) (hm : (watch interval N t0 u s (pre ++ .inr t :: post)).2 = .done m)
    (hm0 : (after interval N t0 u (updates pre)).shared.getBucketCountsSince t s = some m0) (k : Int) :
    (m.get? k).isSome = true ↔ (m0.get? k).isSome = true := by
  have hc := (cinv_run N _ (sharedOk_new interval N t0 u) (updates pre)).shared
  change SharedOk N (after interval N t0 u (updates pre)).shared at hc
  -- the sequential answer
  unfold getBucketCountsSince at hm0
  rw [interval_after] at hm0
  cases ha : alignTimestamp interval t with
  | none => rw [ha] at hm0; simp at hm0
  | some now =>
    rw [ha] at hm0
    simp only [Option.some.injEq] at hm0
    have hseq := foldl_isSome (after interval N t0 u (updates pre)).shared s now
      ((after interval N t0 u (updates pre)).shared.buckets.getBucketList (after interval N t0 u (updates pre)).shared.heap) [] k
    rw [hm0] at hseq
    -- the query up to its first step
    have hwait : ∀ es : List WatchEv, (∀ e ∈ es, e.isLeft = true) → (watch interval N t0 u s es).2 = .clock := by
      intro es
      induction es using List.reverseRecOn with
      | nil => intro _; rfl
      | append_singleton es e ih =>
        intro h
        rw [watch_snoc]
        cases e with
        | inl e => exact ih (fun x hx => h x (by simp [hx]))
        | inr t => have := h (.inr t) (by simp); simp at this
    have hfirst : (watch interval N t0 u s (pre ++ [.inr t])).2 = .pos now := by
      rw [watch_snoc]
      simp only [watchStep, hwait pre hpre, watch_pool, readStep, interval_after, ha]
    have key : ∀ post1, post1 <+: post →
        (watch interval N t0 u s (pre ++ .inr t :: post1)).2 ≠ .clock ∧
        ReadAll (after interval N t0 u (updates pre)).shared s now (watch interval N t0 u s (pre ++ .inr t :: post1)).2 := by
      intro post1
      induction post1 using List.reverseRecOn with
      | nil => intro _; rw [hfirst]; exact ⟨by simp, rfl⟩
      | append_singleton post1 e ih =>
        intro hp
        have hp1 : post1 <+: post := (List.prefix_append _ _).trans hp
        obtain ⟨i1, i2⟩ := ih hp1
        have e1 : pre ++ .inr t :: (post1 ++ [e]) = (pre ++ .inr t :: post1) ++ [e] := by simp
        rw [e1, watch_snoc]
        cases e with
        | inl e => exact ⟨i1, i2⟩
        | inr x =>
          simp only [watchStep]
          have hpool := watch_pool interval N t0 u s (pre ++ .inr t :: post1)
          have hext : Ext (after interval N t0 u (updates pre)).shared (after interval N t0 u (updates (pre ++ .inr t :: post1))).shared := by
            rw [updates_append]; exact ext_after interval N t0 u _ _
          rw [hpool]
          refine ⟨?_, readAll_step hc (hring post1 hp1) hext s now x _ i1 i2⟩
          cases hpc : (watch interval N t0 u s (pre ++ .inr t :: post1)).2 with
          | clock => exact absurd hpc i1
          | slots n st f g acc => cases f <;> [(cases g <;> simp [readStep]); simp [readStep]]
          | counts n todo r => cases todo <;> simp [readStep]
          | _ => simp [readStep]
    have := (key post List.prefix_rfl).2
    rw [hm] at this
    rw [hseq, ← this k]
    simp [GoMap.get?]

namespace BucketCounter
/-- A complete `UpdateN(1)` at clock reading `t`, as call number `i`. -/
def whole (i : Nat) (t : Int) : List WatchEv := .inl (.spawn 1) :: List.replicate 10 (.inl (.step i t))

/-- A counter for 3 intervals of 10 s. Intervals 10, 20, 30 and 40 are credited in turn: `current` is 0, the slots hold 40, 10, 20, 30. Then an
update in interval 50 begins, and a query; between the query's two loads of `current` the update moves `current` on to slot 1, where interval 10
still is. -/
def overtaken : List WatchEv :=
  whole 0 10000 ++ whole 1 20000 ++ whole 2 30000 ++ whole 3 40000 ++
    [.inl (.spawn 1), .inl (.step 4 50000), .inl (.step 4 50000), .inl (.step 4 0), .inl (.step 4 0), .inl (.step 4 0),
     .inr 50000, .inr 0, .inl (.step 4 0)] ++ List.replicate 8 (.inr 0)

/-- The rest of the update. -/
def overtakenRest : List WatchEv := List.replicate 3 (.inl (.step 4 0))
end BucketCounter

/-- **C81 refuted in general.** Without that proviso a query may miss intervals that are among the newest ones before, during and after it: here a query
run alone when it begins reports the intervals 20, 30 and 40, and one at the end 30, 40 and 50; but the query itself reports only 40. -/
theorem C81_complete_refuted :
    (watch 10000000000 3 0 true 0 overtaken).2 = .done [(40000, 1)] ∧
    (watch 10000000000 3 0 true 0 (overtaken.take 50)).1.shared.getBucketCountsSince 50000 0 = some [(40000, 1), (30000, 1), (20000, 1)] ∧
    (watch 10000000000 3 0 true 0 (overtaken ++ overtakenRest)).1.shared.getBucketCountsSince 50000 0 =
      some [(50000, 1), (40000, 1), (30000, 1)] := by decide +kernel

namespace BucketCounter
/-- A query during which an existing bucket is updated twice: once before and once after its count is loaded. -/
def beside : List WatchEv :=
  whole 0 10000 ++ whole 1 20000 ++ [.inl (.spawn 1), .inl (.spawn 1), .inr 21000, .inr 0, .inr 0] ++ List.replicate 10 (.inl (.step 2 21000)) ++
    List.replicate 7 (.inr 0) ++ List.replicate 10 (.inl (.step 3 22000)) ++ List.replicate 2 (.inr 0)
end BucketCounter

/-- The hypotheses of `C81_sound` and `C81_complete` are met; the answer has the first update and not the second. -/
example : (watch 10000000000 3 0 true 0 beside).2 = .done [(20000, 2), (10000, 1)] ∧
    (watch 10000000000 3 0 true 0 beside).1.shared.getBucketCountsSince 21000 0 = some [(20000, 3), (10000, 1)] ∧
    (∀ n ≤ 22, (after 10000000000 3 0 true (updates (beside.take (25 + n)))).shared.buckets =
      (after 10000000000 3 0 true (updates (beside.take 24))).shared.buckets) := by decide +kernel

end GoMetrics
