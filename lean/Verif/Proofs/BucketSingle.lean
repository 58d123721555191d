import Verif.Props.BucketsConc
/-! # Concurrent `UpdateN` when all clock readings are in one interval -/
namespace GoMetrics
namespace BucketCounter

/-- All readings were in the interval starting at `J`: at most one bucket was created, by the one call that was inside `addLast`, and every call that adds
adds to it. -/
structure Single (N : Nat) (J : Int) (p : Pool BucketCounter Call) : Prop where
  len : p.shared.heap.length ≤ N + 2
  ts : N + 1 < p.shared.heap.length → p.shared.tsOf (N + 1) = J
  none : p.shared.heap.length = N + 1 → busy p = 0
  one : busy p ≤ 1
  calls : ∀ c ∈ p.calls, match c.pc with
    | .load t => t = J
    | .cas t old => t = J ∧ old = 0
    | .reload t => t = J ∧ p.shared.heap.length = N + 2
    | .q1 t q => t = J ∧ q = N + 1
    | .q2 t q _ => t = J ∧ q = N + 1
    | .q3 t q => t = J ∧ q = N + 1
    | .q4 t q _ => t = J ∧ q = N + 1
    | .add t q => t = J ∧ q = N + 1
    | .done t q => t = J ∧ q = N + 1
    | _ => True

theorem single_step {N : Nat} {J : Int} (hJ : 0 ≤ J) {s : BucketCounter} {pre post : List Call} {c : Call} {x : Int}
    (hx : alignTimestamp s.interval x = some J) (hc : CInv N ⟨s, pre ++ c :: post⟩) (h : Single N J ⟨s, pre ++ c :: post⟩) :
    Single N J ⟨(callStep s x c).1, pre ++ (callStep s x c).2 :: post⟩ := by
  have hsh := hc.shared
  have hok := hc.calls c (by simp)
  simp only at hsh hok
  obtain ⟨g1, g2, g3⟩ := callStep_ok (t := x) hsh hok
  have hlen := hsh.len
  have h1 := h.len
  have h2 := h.ts
  have h3 := h.none
  have h4 := h.one
  have hcs := h.calls
  simp only at h1 h2 h3 hcs
  rw [busy_split] at h3 h4
  have hlat := hsh.latest
  -- how many calls are inside `addLast`, and the length of the heap
  have hmain : (callStep s x c).1.heap.length ≤ N + 2 ∧ ((callStep s x c).1.heap.length = N + 1 →
        busy ⟨(callStep s x c).1, pre ++ (callStep s x c).2 :: post⟩ = 0) ∧ busy ⟨(callStep s x c).1, pre ++ (callStep s x c).2 :: post⟩ ≤ 1 ∧
      (N + 1 < (callStep s x c).1.heap.length → (callStep s x c).1.tsOf (N + 1) = J) := by
    simp only [busy_split]
    by_cases hin : c.inAddLast = true
    · rw [if_pos hin] at h3 h4
      have hl : (callStep s x c).1.heap.length = s.heap.length := by
        unfold Call.inAddLast at hin
        unfold callStep
        cases hpc : c.pc <;> simp only [hpc] at hin ⊢ <;> first | rfl | (cases hin; done)
      have hb : (if (callStep s x c).2.inAddLast = true then 1 else 0) ≤ 1 := by split <;> omega
      refine ⟨by omega, fun e => ?_, by omega, fun e => ?_⟩
      · have := h3 (by omega); omega
      · rw [g2.ts _ (by omega)]; exact h2 (by omega)
    · have hin' : c.inAddLast = false := by simpa using hin
      rw [if_neg hin] at h3 h4
      rcases (callStep_outside (t := x) (b := s) hin').2 with ⟨k1, k2⟩ | ⟨⟨ts, k1⟩, k2⟩
      · rw [k1]
        refine ⟨by omega, fun e => ?_, by simpa using h4, fun e => ?_⟩
        · have := h3 (by omega); simpa using this
        · rw [g2.ts _ (by omega)]; exact h2 (by omega)
      · -- the CAS succeeds
        obtain ⟨t, old, hpc⟩ : ∃ t old, c.pc = .cas t old := by
          unfold callStep at k1
          cases hpc : c.pc with
          | cas t old => exact ⟨t, old, rfl⟩
          | clock => rw [hpc] at k1; simp only at k1; split at k1 <;> simp at k1
          | load t => rw [hpc] at k1; simp only at k1; split at k1 <;> simp at k1
          | _ => rw [hpc] at k1; simp [hpc] at k1
        have hcc := hcs c (by simp)
        simp only [hpc] at hcc
        obtain ⟨rfl, rfl⟩ := hcc
        have hl0 : s.latestBucket = 0 := by
          unfold callStep at k2
          simp only [hpc] at k2
          split at k2
          · assumption
          · simp only at k2; omega
        have hs1 : s.heap.length = N + 1 := by rw [hl0] at hlat; split at hlat <;> omega
        have hb0 := h3 hs1
        refine ⟨by omega, fun e => by omega, ?_, fun e => ?_⟩
        · have hb : (if (callStep s x c).2.inAddLast = true then 1 else 0) ≤ 1 := by split <;> omega
          omega
        · unfold callStep tsOf
          simp only [hpc, hl0, if_true]
          rw [← hs1, BHeap.at_append_len]
  obtain ⟨m1, m2, m3, m4⟩ := hmain
  refine ⟨m1, m4, m2, m3, ?_⟩
  intro d hd
  have hother : d ∈ pre ++ c :: post → match d.pc with
      | .load t => t = J
      | .cas t old => t = J ∧ old = 0
      | .reload t => t = J ∧ (callStep s x c).1.heap.length = N + 2
      | .q1 t q => t = J ∧ q = N + 1
      | .q2 t q _ => t = J ∧ q = N + 1
      | .q3 t q => t = J ∧ q = N + 1
      | .q4 t q _ => t = J ∧ q = N + 1
      | .add t q => t = J ∧ q = N + 1
      | .done t q => t = J ∧ q = N + 1
      | _ => True := by
    intro hd
    have := hcs d hd
    have hg := g2.len
    cases hpc : d.pc <;> simp only [hpc] at this ⊢ <;> first | exact this | exact ⟨this.1, by omega⟩
  have hd' : d ∈ pre ++ c :: post ∨ d = (callStep s x c).2 := by
    simp only [List.mem_append, List.mem_cons] at hd ⊢
    tauto
  rcases hd' with hd' | rfl
  · exact hother hd'
  · have hcc := hcs c (by simp)
    unfold callStep
    cases hpc : c.pc with
    | clock => simp only [hpc, hx]
    | load t =>
      simp only [hpc] at hcc ⊢
      subst hcc
      by_cases hg : t > (s.heap.at s.latestBucket).timestamp
      · rw [if_pos hg]
        refine ⟨rfl, ?_⟩
        change s.latestBucket = 0
        rw [hlat]
        split
        · rfl
        · exfalso
          have : s.latestBucket = N + 1 := by rw [hlat]; split <;> omega
          have := h2 (by omega)
          unfold tsOf at this
          rw [show s.latestBucket = N + 1 by assumption, this] at hg
          omega
      · rw [if_neg hg]
        refine ⟨rfl, ?_⟩
        change s.latestBucket = N + 1
        rw [hlat]
        split
        · exfalso
          have h0 : s.latestBucket = 0 := by rw [hlat]; split <;> omega
          have := hsh.placeholder 0 (by omega)
          unfold tsOf at this
          rw [h0, this] at hg
          omega
        · omega
    | cas t old =>
      simp only [hpc] at hcc ⊢
      obtain ⟨rfl, rfl⟩ := hcc
      by_cases hg : s.latestBucket = 0
      · rw [if_pos hg]
        refine ⟨rfl, ?_⟩
        change s.heap.length = N + 1
        rw [hg] at hlat; split at hlat <;> omega
      · rw [if_neg hg]
        refine ⟨rfl, ?_⟩
        change s.heap.length = N + 2
        split at hlat <;> omega
    | reload t =>
      simp only [hpc] at hcc ⊢
      refine ⟨hcc.1, ?_⟩
      have := hcc.2
      rw [hlat, if_neg (by omega)]; omega
    | _ => simp only [hpc] at hcc ⊢ <;> first | exact hcc | trivial

/-- All readings in one interval. -/
theorem single_run (interval : Int) (N : Nat) (t0 : Int) (u : Bool) (J : Int) (hJ : 0 ≤ J) (es : List (Ev Int Int))
    (hes : ∀ i x, Ev.step i x ∈ es → alignTimestamp interval x = some J) : Single N J (after interval N t0 u es) := by
  induction es using List.reverseRecOn with
  | nil =>
    refine ⟨?_, ?_, fun _ => rfl, Nat.zero_le _, fun c hc => by simp [after, Machine.run, Machine.start] at hc⟩
    · change (new interval N t0 u).heap.length ≤ N + 2
      simp [new, Deque.newHeap]
    · intro h
      change N + 1 < (new interval N t0 u).heap.length at h
      simp [new, Deque.newHeap] at h
  | append_singleton es e ih =>
    have ih := ih (fun i x h => hes i x (by simp [h]))
    have hint : (after interval N t0 u es).shared.interval = interval := by
      unfold after
      apply inv_run_start (Inv := fun p => p.shared.interval = interval) N _ (sharedOk_new interval N t0 u)
      · rfl
      · intro s cs a _ h; exact h
      · intro s pre c post x _ h
        simp only [(callStep_const s x c).2.1]; exact h
    have hc := cinv_run N _ (sharedOk_new interval N t0 u) es
    unfold after at *
    rw [Machine.run_snoc]
    generalize conc.run (Machine.start (new interval N t0 u)) es = p at *
    cases e with
    | spawn a =>
      have hb : busy (conc.apply p (.spawn a)) = busy p := by
        simp [busy, Machine.apply, conc, Call.inAddLast]
      refine ⟨ih.len, ih.ts, fun h => by rw [hb]; exact ih.none h, by rw [hb]; exact ih.one, ?_⟩
      intro d hd
      rcases List.mem_append.1 hd with hd | hd
      · exact ih.calls d hd
      · obtain rfl := List.mem_singleton.1 hd; trivial
    | step i x =>
      cases h : p.calls[i]? with
      | none => simp only [Machine.apply, h]; exact ih
      | some c =>
        obtain ⟨pre, post, h1, _, h2⟩ := conc.apply_step_eq (x := x) h
        rw [h2]
        obtain ⟨s, cs⟩ := p
        simp only at h1 hint
        subst h1
        exact single_step hJ (by rw [hint]; exact hes i x (by simp)) hc ih

/-- What the calls that returned have added. -/
def Call.got (c : Call) : Int :=
  match c.pc with
  | .done _ _ => c.n
  | _ => 0

theorem single_count {N : Nat} {J : Int} {p : Pool BucketCounter Call} (h : Single N J p) (hs : SumInv p) :
    (p.shared.heap.at (N + 1)).count = i64 (p.calls.map Call.got).sum := by
  rw [hs.bucket]
  congr 2
  apply List.map_congr_left
  intro c hc
  have := h.calls c hc
  unfold Call.amt Call.got
  cases hpc : c.pc <;> simp only [hpc] at this ⊢
  rw [if_pos this.2]

end BucketCounter
end GoMetrics
