import Verif.Props.Stale
/-! # C101, bucket counter: who is credited where, and what is lost -/
namespace GoMetrics
open Spec BucketCounter

/-- The memory at a moment, after one more step. -/
theorem Aged.at_push {S : Type} (m : Aged S) (s : S) (t : Nat) :
    (⟨s, m.now :: m.past⟩ : Aged S).at t = if m.past.length < t then s else m.at t := by
  unfold Aged.at
  by_cases h : m.past.length < t
  · rw [if_pos h]
    simp only [List.length_cons]
    rw [Nat.sub_eq_zero_of_le (by omega)]; rfl
  · rw [if_neg h]
    simp only [List.length_cons]
    rw [show m.past.length + 1 - t = (m.past.length - t) + 1 by omega, List.getD_cons_succ]
    rw [List.getD_eq_getElem?_getD, List.getD_eq_getElem?_getD, List.getElem?_eq_getElem (by simp)]
    rfl

namespace BucketCounter

/-- What a call has at hand, and may still come to see. `own` is when it last swapped the pointer to the latest bucket. -/
def Holds (N : Nat) (m : Aged BucketCounter) (own : Nat) (c : Call) : Prop :=
  match c.pc with
  | .cas _ old => old ≤ m.now.latestBucket
  | .reload _ => ∀ t, own ≤ t → N < (m.at t).latestBucket
  | .q1 _ q => N < q
  | .q2 _ q _ => N < q
  | .q3 _ q => N < q
  | .q4 _ q _ => N < q
  | .add ts q => N < q ∨ (q = 0 ∧ ts ≤ -1)
  | .done ts q => N < q ∨ (q = 0 ∧ ts ≤ -1)
  | _ => True

/-- Everything needed, of the machine with old values. -/
structure CreditInv (N : Nat) (p : Pool (Aged BucketCounter) (Call × (Loc → Nat))) : Prop where
  c : CInv N ⟨p.shared.now, p.calls.map Prod.fst⟩
  old : ∀ b ∈ p.shared.all, OldOk N b p.shared.now ∧ b.latestBucket ≤ p.shared.now.latestBucket
  made : ∀ q, N < q → q < p.shared.now.heap.length → ∃ d ∈ p.calls, d.1.reading = some (p.shared.now.tsOf q)
  holds : ∀ d ∈ p.calls, Holds N p.shared (d.2 .latest) d.1

theorem SharedOk.latest_cases {N : Nat} {b : BucketCounter} (h : SharedOk N b) : N < b.latestBucket ∨ b.latestBucket = 0 := by
  have := h.latest
  have := h.len
  split at * <;> omega

/-- One step never moves the pointer back, and keeps what the calls hold. -/
theorem Holds.push {N : Nat} {m : Aged BucketCounter} {own : Nat} {c : Call} {b : BucketCounter} (h : Holds N m own c) (hb : m.now.latestBucket ≤ b.latestBucket) :
    Holds N ⟨b, m.now :: m.past⟩ own c := by
  unfold Holds at *
  cases hc : c.pc <;> simp only [hc] at h ⊢ <;> try exact h
  · exact le_trans h hb
  · intro t ht
    rw [Aged.at_push]
    split
    · have := h (m.past.length) 
      by_cases ho : own ≤ m.past.length
      · have := h _ ho
        rw [Aged.at_now _ _ le_rfl] at this
        omega
      · have := h t ht
        rw [Aged.at_now _ _ (by omega)] at this
        omega
    · exact h t ht

theorem reading_step (b : BucketCounter) (x : Int) (c : Call) (r : Int) (h : c.reading = some r) : (callStep b x c).2.reading = some r := by
  obtain ⟨n, pc⟩ := c
  cases pc <;> simp only [Call.reading, reduceCtorEq] at h <;> simp only [callStep] <;> (try split) <;> simpa [Call.reading] using h

theorem creditInv_run (interval : Int) (N : Nat) (t0 : Int) (u : Bool) (es : List (Ev Int (Int × Nat))) :
    CreditInv N ((footprint.stale conc racy).run (Machine.start ⟨new interval N t0 u, []⟩) es) := by
  apply (footprint.stale conc racy).inv_run (CreditInv N)
  · intro m cs a h
    refine ⟨?_, h.old, ?_, ?_⟩
    · have := cinv_spawn a h.c
      simpa [Footprint.stale, conc] using this
    · intro q h1 h2
      obtain ⟨d, hd, hr⟩ := h.made q h1 h2
      exact ⟨d, by simp [hd], hr⟩
    · intro d hd
      rcases List.mem_append.1 hd with hd | hd
      · exact h.holds d hd
      · obtain rfl := List.mem_singleton.1 hd; trivial
  · rintro m pre ⟨c, own⟩ post ⟨x, t⟩ h
    have hsh := h.c.shared
    have hcok : CallOk m.now c := h.c.calls c (by simp)
    have hhold : Holds N m (own .latest) c := h.holds (c, own) (by simp)
    simp only at hsh
    simp only [Footprint.stale]
    by_cases hl : footprint.loads racy m.now c = true
    · simp only [if_pos hl]
      generalize hs' : m.at (max t (footprint.earliest racy own m.now c)) = s'
      have hmem : s' ∈ m.all := hs' ▸ m.at_mem _
      obtain ⟨hold, hle⟩ := h.old s' hmem
      obtain ⟨k1, -⟩ := stale_callOk x hsh hold hcok hl
      have hread : ∀ r, c.reading = some r → (callStep s' x c).2.reading = some r := fun r => reading_step s' x c r
      refine ⟨⟨hsh, ?_⟩, ?_, ?_, ?_⟩
      · intro d hd
        simp only [List.map_append, List.map_cons, List.mem_append, List.mem_cons] at hd
        rcases hd with hd | hd | hd
        · exact h.c.calls d (by simp only [List.map_append, List.mem_append]; exact Or.inl hd)
        · rw [hd]; exact k1
        · exact h.c.calls d (by simp only [List.map_append, List.map_cons, List.mem_append, List.mem_cons]; exact Or.inr (Or.inr hd))
      · intro b hb
        simp only [Aged.all, List.mem_cons] at hb
        refine h.old b ?_
        rcases hb with rfl | rfl | hb
        · exact List.mem_cons_self
        · exact List.mem_cons_self
        · exact List.mem_cons_of_mem _ hb
      · intro q h1 h2
        obtain ⟨d, hd, hr⟩ := h.made q h1 h2
        simp only [List.mem_append, List.mem_cons] at hd
        rcases hd with hd | rfl | hd
        · exact ⟨d, by simp [hd], hr⟩
        · exact ⟨_, List.mem_append_right _ List.mem_cons_self, hread _ hr⟩
        · exact ⟨d, by simp [hd], hr⟩
      · intro d hd
        simp only [List.mem_append, List.mem_cons] at hd
        rcases hd with hd | hd | hd
        · exact (h.holds d (by simp [hd])).push le_rfl
        · subst hd
          have hown : footprint.touched own (m.past.length + 1) m.now c .latest = own .latest := by
            unfold Footprint.touched
            rw [if_neg]
            obtain ⟨n, pc⟩ := c
            rcases loads_at hl with ⟨ts, rfl⟩ | ⟨ts, rfl⟩ | ⟨ts, p, rfl⟩ | ⟨ts, p, rfl⟩ <;> simp [footprint, accesses, rd]
          simp only [hown]
          obtain ⟨n, pc⟩ := c
          rcases loads_at hl with ⟨ts, hpc⟩ | ⟨ts, hpc⟩ | ⟨ts, p, hpc⟩ | ⟨ts, p, hpc⟩ <;> simp only at hpc <;> subst hpc
          · simp only [conc, callStep]
            split
            · exact hle
            · rename_i hg
              rcases hold.ok.latest_cases with hN | h0
              · exact Or.inl hN
              · refine Or.inr ⟨h0, ?_⟩
                have := hold.ok.placeholder 0 (by omega)
                unfold tsOf at this
                rw [h0, this] at hg
                omega
          · refine Or.inl ?_
            show N < s'.latestBucket
            rw [← hs']
            refine hhold _ ?_
            simp [Footprint.earliest, footprint, accesses, racy, rd]
          · exact hhold
          · exact hhold
        · exact (h.holds d (by simp [hd])).push le_rfl
    · simp only [if_neg hl]
      obtain ⟨g1, g2, -⟩ := callStep_ok (t := x) hsh hcok
      have hci := cinv_step x (pre := pre.map Prod.fst) (post := post.map Prod.fst) (c := c) (s := m.now) (by simpa using h.c)
      have hmono : m.now.latestBucket ≤ (callStep m.now x c).1.latestBucket := by
        have a1 := hsh.latest; have a2 := hsh.len; have a3 := g1.latest; have a4 := g2.len
        split at a1 <;> split at a3 <;> omega
      have hmono' : (callStep m.now x c).1.tsOf (callStep m.now x c).1.latestBucket ≥ m.now.tsOf m.now.latestBucket := by
        rw [← g2.ts _ hsh.latest_lt]
        exact g1.le_latest _ (lt_of_lt_of_le hsh.latest_lt g2.len)
      refine ⟨?_, ?_, ?_, ?_⟩
      · simpa [conc] using hci
      · intro b hb
        simp only [Aged.all, List.mem_cons] at hb
        rcases hb with rfl | hb
        · exact ⟨⟨g1, Ext.refl _, le_rfl⟩, le_rfl⟩
        · obtain ⟨o1, o2⟩ := h.old b (by simpa [Aged.all] using hb)
          exact ⟨⟨o1.ok, o1.ext.trans g2, o1.latest.trans hmono'⟩, o2.trans hmono⟩
      · intro q h1 h2
        by_cases hq : q < m.now.heap.length
        · obtain ⟨d, hd, hr⟩ := h.made q h1 hq
          have e : (callStep m.now x c).1.tsOf q = m.now.tsOf q := g2.ts q hq
          simp only [List.mem_append, List.mem_cons] at hd
          show ∃ d ∈ (_ : List (Call × (Loc → Nat))), d.1.reading = some ((callStep m.now x c).1.tsOf q)
          rw [e]
          rcases hd with hd | rfl | hd
          · exact ⟨d, by simp [hd], hr⟩
          · exact ⟨_, List.mem_append_right _ List.mem_cons_self, reading_step m.now x _ _ hr⟩
          · exact ⟨d, by simp [hd], hr⟩
        · refine ⟨_, List.mem_append_right _ List.mem_cons_self, ?_⟩
          show (callStep m.now x c).2.reading = some ((callStep m.now x c).1.tsOf q)
          change q < (callStep m.now x c).1.heap.length at h2
          obtain ⟨n, pc⟩ := c
          cases pc with
          | cas ts old =>
            simp only [callStep] at h2 ⊢
            split at h2
            · rename_i hlo
              rw [if_pos hlo]
              simp only [List.length_append, List.length_singleton] at h2
              have : q = m.now.heap.length := by omega
              subst this
              simp [Call.reading, tsOf, BHeap.at_append_len]
            · simp only at h2; omega
          | start => simp only [callStep, bumpTotal_heap] at h2; omega
          | clock =>
            simp only [callStep] at h2
            split at h2 <;> (simp only at h2; omega)
          | load ts =>
            simp only [callStep] at h2
            split at h2 <;> (simp only at h2; omega)
          | add ts p => simp only [callStep, length_addAt] at h2; omega
          | _ => simp only [callStep] at h2; omega
      · intro d hd
        simp only [List.mem_append, List.mem_cons] at hd
        rcases hd with hd | hd | hd
        · exact (h.holds d (by simp [hd])).push hmono
        · subst hd
          obtain ⟨n, pc⟩ := c
          cases pc with
          | start => exact trivial
          | clock => simp only [conc, callStep]; split <;> exact trivial
          | load ts => exact absurd rfl hl
          | reload ts => exact absurd rfl hl
          | q1 ts p => exact absurd rfl hl
          | q3 ts p => exact absurd rfl hl
          | cas ts old =>
            have hown : footprint.touched own (m.past.length + 1) m.now ⟨n, .cas ts old⟩ .latest = m.past.length + 1 := by
              simp [Footprint.touched, footprint, accesses, awr]
            simp only [conc, callStep]
            split
            · have := hsh.len
              show N < m.now.heap.length
              omega
            · rename_i hlo
              simp only [hown]
              intro t ht
              rw [Aged.at_push, if_pos (by omega)]
              have h1 : old ≤ m.now.latestBucket := hhold
              rcases hsh.latest_cases with hN | h0
              · exact hN
              · omega
          | q2 ts p k => exact hhold
          | q4 ts p k => exact Or.inl hhold
          | add ts p => exact hhold
          | done ts p => exact hhold
          | panicked => exact trivial
        · exact (h.holds d (by simp [hd])).push hmono
  · refine ⟨⟨sharedOk_new interval N t0 u, by simp [Machine.start]⟩, ?_, ?_, by simp [Machine.start]⟩
    · intro b hb
      simp only [Machine.start, Aged.all, List.mem_singleton] at hb
      rw [hb]
      exact ⟨⟨sharedOk_new interval N t0 u, Ext.refl _, le_rfl⟩, le_rfl⟩
    · intro q h1 h2
      simp [Machine.start, new, Deque.newHeap] at h2; omega
end BucketCounter

/-- **C101, bucket counter (C13).** Even with old values a returned call is credited to the interval of a clock reading made by some call; or to the initial placeholder
`-1`, and then its own reading was negative. -/
theorem C101_credited_to_a_reading (interval : Int) (N : Nat) (t0 : Int) (u : Bool) (es : List (Ev Int (Int × Nat))) (c : Call)
    (hc : c ∈ (staleAfter interval N t0 u es).calls) (own k n : Int) (hown : c.reading = some own)
    (hcred : c.credit (staleAfter interval N t0 u es).shared = some (k, n)) :
    n = c.n ∧ ((∃ d ∈ (staleAfter interval N t0 u es).calls, d.reading = some k) ∨ (k = -1 ∧ own ≤ -1)) := by
  have h := creditInv_run interval N t0 u es
  unfold staleAfter Footprint.staleRun at *
  generalize (footprint.stale conc racy).run (Machine.start ⟨new interval N t0 u, []⟩) es = p at *
  simp only at hc hcred ⊢
  obtain ⟨d, hd, rfl⟩ := List.mem_map.1 hc
  have hh := h.holds d hd
  have hok := h.c.calls d.1 hc
  unfold Holds at hh
  unfold Call.credit at hcred
  unfold Call.reading at hown
  unfold CallOk at hok
  cases hpc : d.1.pc <;> simp only [hpc, reduceCtorEq] at hcred
  simp only [hpc, Option.some.injEq, Prod.mk.injEq] at hcred hown hh hok
  obtain ⟨hk, hn⟩ := hcred
  refine ⟨hn.symm, ?_⟩
  rcases hh with hN | ⟨h0, h1⟩
  · left
    obtain ⟨e, he, hr⟩ := h.made _ hN hok
    exact ⟨e.1, List.mem_map.2 ⟨e, he, rfl⟩, by rw [hr, ← hk]; rfl⟩
  · right
    have := h.c.shared.placeholder 0 (by omega)
    unfold tsOf at this
    simp only at this
    rw [h0, this] at hk
    exact ⟨hk.symm, by omega⟩

/-- **C101, bucket counter (C13).** If every clock reading made so far is in interval `lo` or later, every returned call is credited to `lo` or later. -/
theorem C101_lower_bound (interval : Int) (N : Nat) (t0 : Int) (u : Bool) (es : List (Ev Int (Int × Nat))) (lo : Int)
    (hall : ∀ d ∈ (staleAfter interval N t0 u es).calls, ∀ r, d.reading = some r → lo ≤ r) (c : Call) (hc : c ∈ (staleAfter interval N t0 u es).calls) (k n : Int)
    (hcred : c.credit (staleAfter interval N t0 u es).shared = some (k, n)) : lo ≤ k := by
  obtain ⟨own, hown⟩ : ∃ own, c.reading = some own := by
    unfold Call.credit at hcred
    cases hpc : c.pc <;> simp only [hpc, reduceCtorEq] at hcred
    exact ⟨_, by simp [Call.reading, hpc]; rfl⟩
  rcases (C101_credited_to_a_reading interval N t0 u es c hc own k n hown hcred).2 with ⟨d, hd, hr⟩ | ⟨_, h2⟩
  · exact hall d hd k hr
  · have := hall c hc own hown; omega

namespace BucketCounter
/-- Call 0 creates the bucket of interval 10 and returns. Then call 1 starts; it first believes the counter empty (its first load sees moment 0), fails to swap, reloads,
and adds to bucket 10. Call 2 creates the bucket of interval 20, but its load of the position sees moment 0. -/
def staleSchedule : List (Ev Int (Int × Nat)) :=
  [.spawn 1] ++ (List.replicate 9 (.step 0 (10000, 99))) ++
  [.spawn 2] ++ [.step 1 (10000, 0), .step 1 (10000, 0), .step 1 (0, 0), .step 1 (0, 0), .step 1 (0, 0), .step 1 (0, 0)] ++
  [.spawn 4] ++ [.step 2 (20000, 0), .step 2 (20000, 0), .step 2 (0, 99), .step 2 (0, 0), .step 2 (0, 0), .step 2 (0, 0), .step 2 (0, 0), .step 2 (0, 0), .step 2 (0, 0)]
end BucketCounter

/-- Non-vacuity of the theorems on bucket counters, and an execution with old values that no interleaving of up-to-date loads has: call 1 runs alone after call 0 has
returned, and still fails its swap. -/
example : (staleAfter 10000000000 5 0 true (staleSchedule.take 15)).calls = [⟨1, .done 10 6⟩, ⟨2, .reload 10⟩] ∧
    (staleAfter 10000000000 5 0 true staleSchedule).calls = [⟨1, .done 10 6⟩, ⟨2, .done 10 6⟩, ⟨4, .done 20 7⟩] ∧
    (staleAfter 10000000000 5 0 true staleSchedule).shared.getCount = 7 ∧
    ((staleAfter 10000000000 5 0 true staleSchedule).shared.heap.map Bucket.count).sum = 7 := by decide +kernel

/-- **C101.** What old values do break (C12): a bucket is lost although never two calls were inserting at once - each call even started after the one before
had returned. Interval 10 was credited 3, the counter has room for 5 buckets, and the query does not report it. -/
theorem C101_visible_refuted :
    AllReturned (staleAfter 10000000000 5 0 true staleSchedule) ∧
    (∀ k ∈ List.range (staleSchedule.length + 1), ((staleAfter 10000000000 5 0 true (staleSchedule.take k)).calls.filter (fun c => c.credit
      (staleAfter 10000000000 5 0 true (staleSchedule.take k)).shared = none)).length ≤ 1) ∧
    credits (staleAfter 10000000000 5 0 true staleSchedule) = [(10, 1), (10, 2), (20, 4)] ∧
    (staleAfter 10000000000 5 0 true staleSchedule).shared.getBucketCountsSince 25000 0 = some [(20000, 4)] := by
  refine ⟨?_, by decide +kernel, by decide +kernel, by decide +kernel⟩
  have h : (staleAfter 10000000000 5 0 true staleSchedule).calls = [⟨1, .done 10 6⟩, ⟨2, .done 10 6⟩, ⟨4, .done 20 7⟩] := by decide +kernel
  intro c hc
  rw [h] at hc
  simp only [List.mem_cons, List.not_mem_nil, or_false] at hc
  rcases hc with rfl | rfl | rfl <;> exact ⟨_, _, rfl⟩

end GoMetrics
