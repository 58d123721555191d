import Verif.Model.BucketCounterWild
import Verif.Props.BucketsConc
/-! # Invariants of `UpdateN` with arbitrary loads -/
namespace GoMetrics
namespace BucketCounter

/-- Pointers and positions are valid. -/
def Held (b : BucketCounter) (c : Call) : Prop :=
  match c.pc with
  | .q1 _ p => p < b.heap.length
  | .q2 _ p k => p < b.heap.length ∧ k < b.buckets.queue.length
  | .q3 _ p => p < b.heap.length
  | .q4 _ p k => p < b.heap.length ∧ k < b.buckets.queue.length
  | .add _ p => p < b.heap.length
  | .done _ p => p < b.heap.length
  | _ => True

/-- The shared memory is well-formed. -/
structure Valid (N : Nat) (b : BucketCounter) : Prop where
  len : N + 1 ≤ b.heap.length
  latest : b.latestBucket < b.heap.length
  qlen : b.buckets.queue.length = N + 1
  cur : b.buckets.current < N + 1
  slots : ∀ p ∈ b.buckets.queue, p < b.heap.length

theorem SharedOk.valid {N : Nat} {b : BucketCounter} (h : SharedOk N b) : Valid N b := ⟨h.len, h.latest_lt, h.qlen, h.cur, h.slots⟩

theorem Valid.appears {N : Nat} {b : BucketCounter} (h : Valid N b) (e : Seen) : Valid N (b.appears e) := by
  have h1 := h.len
  have h2 := h.qlen
  have hl : (b.appears e).heap.length = b.heap.length := by unfold BucketCounter.appears; split <;> simp_all
  refine ⟨by rw [hl]; exact h1, ?_, h2, ?_, fun p hp => by rw [hl]; exact h.slots p hp⟩
  · rw [hl]; exact Nat.mod_lt _ (by omega)
  · show e.position % _ < _
    rw [h2]; exact Nat.mod_lt _ (by omega)

theorem appears_len (b : BucketCounter) (e : Seen) : (b.appears e).heap.length = b.heap.length := by
  unfold BucketCounter.appears; split <;> simp_all

/-- More buckets, as many slots. -/
structure Grown (b b' : BucketCounter) : Prop where
  len : b.heap.length ≤ b'.heap.length
  qlen : b'.buckets.queue.length = b.buckets.queue.length

theorem Held.grown {b b' : BucketCounter} (e : Grown b b') {c : Call} (h : Held b c) : Held b' c := by
  have h1 := e.len
  have h3 := e.qlen
  unfold Held at *
  cases hc : c.pc <;> simp only [hc] at h ⊢ <;> first | trivial | exact ⟨by omega, by omega⟩ | omega

theorem callStep_valid {N : Nat} {b : BucketCounter} {t : Int} {c : Call} (h : Valid N b) (hc : Held b c) :
    Valid N (callStep b t c).1 ∧ Grown b (callStep b t c).1 ∧ Held (callStep b t c).1 (callStep b t c).2 := by
  have h1 := h.len
  have h2 := h.latest
  have h3 := h.qlen
  have h4 := h.cur
  have h5 := h.slots
  obtain ⟨n, pc⟩ := c
  cases pc with
  | start =>
    have e1 := bumpTotal_heap b n
    have e2 := bumpTotal_latest b n
    have e3 := bumpTotal_buckets b n
    refine ⟨⟨?_, ?_, ?_, ?_, ?_⟩, ⟨?_, ?_⟩, trivial⟩ <;> simp only [callStep, e1, e2, e3] <;> first | assumption | exact le_rfl
  | clock =>
    simp only [callStep]
    split <;> exact ⟨h, ⟨le_rfl, rfl⟩, trivial⟩
  | load ts =>
    simp only [callStep]
    split
    · exact ⟨h, ⟨le_rfl, rfl⟩, trivial⟩
    · exact ⟨h, ⟨le_rfl, rfl⟩, h2⟩
  | cas ts old =>
    simp only [callStep]
    split
    · refine ⟨⟨?_, ?_, h3, h4, ?_⟩, ⟨?_, rfl⟩, ?_⟩
      · simp; omega
      · simp
      · intro p hp; have := h5 p hp; simp; omega
      · simp
      · show _ < _; simp
    · exact ⟨h, ⟨le_rfl, rfl⟩, trivial⟩
  | reload ts => exact ⟨h, ⟨le_rfl, rfl⟩, h2⟩
  | q1 ts p => exact ⟨h, ⟨le_rfl, rfl⟩, hc, Nat.mod_lt _ (by omega)⟩
  | q2 ts p k =>
    obtain ⟨hp, hk⟩ : p < b.heap.length ∧ k < b.buckets.queue.length := hc
    exact ⟨⟨h1, h2, h3, by show k < _; omega, h5⟩, ⟨le_rfl, rfl⟩, hp⟩
  | q3 ts p => exact ⟨h, ⟨le_rfl, rfl⟩, hc, by show b.buckets.current < b.buckets.queue.length; omega⟩
  | q4 ts p k =>
    obtain ⟨hp, hk⟩ : p < b.heap.length ∧ k < b.buckets.queue.length := hc
    refine ⟨⟨h1, h2, by simpa [callStep] using h3, h4, ?_⟩, ⟨le_rfl, by simp [callStep]⟩, hp⟩
    intro q hq
    rcases List.mem_or_eq_of_mem_set hq with hq | rfl
    · exact h5 q hq
    · exact hp
  | add ts p =>
    have hp : p < b.heap.length := hc
    refine ⟨⟨?_, ?_, h3, h4, ?_⟩, ⟨?_, rfl⟩, ?_⟩ <;> simp only [callStep, length_addAt] <;> first | assumption | exact le_rfl | skip
    show p < _
    rw [length_addAt]; exact hp
  | done ts p => exact ⟨h, ⟨le_rfl, rfl⟩, hc⟩
  | panicked => exact ⟨h, ⟨le_rfl, rfl⟩, trivial⟩

/-- A plain load changes nothing the sums depend on. -/
theorem load_amt {b : BucketCounter} {t : Int} {c : Call} (h : c.pc.plainLoad = true) :
    (∀ q, (callStep b t c).2.amt q = c.amt q) ∧ (callStep b t c).2.totalled = c.totalled ∧ (callStep b t c).2.credited = c.credited ∧
      (callStep b t c).2.n = c.n := by
  obtain ⟨n, pc⟩ := c
  cases pc with
  | load ts => simp only [callStep]; split <;> exact ⟨fun _ => rfl, rfl, rfl, rfl⟩
  | reload ts => exact ⟨fun _ => rfl, rfl, rfl, rfl⟩
  | q1 ts p => exact ⟨fun _ => rfl, rfl, rfl, rfl⟩
  | q3 ts p => exact ⟨fun _ => rfl, rfl, rfl, rfl⟩
  | _ => simp [PC.plainLoad] at h

theorem wildStep_valid {N : Nat} {b : BucketCounter} {e : Seen} {c : Call} (h : Valid N b) (hc : Held b c) :
    Valid N (wildStep b e c).1 ∧ Grown b (wildStep b e c).1 ∧ Held (wildStep b e c).1 (wildStep b e c).2 := by
  unfold wildStep
  split
  · refine ⟨h, ⟨le_rfl, rfl⟩, ?_⟩
    have hg : Grown b (b.appears e) := ⟨(appears_len b e).ge, rfl⟩
    obtain ⟨-, g, k⟩ := callStep_valid (t := e.clock) (h.appears e) (hc.grown hg)
    have e1 : (callStep (b.appears e) e.clock c).1 = b.appears e := by
      rename_i hl
      obtain ⟨n, pc⟩ := c
      cases pc with
      | load ts => simp only [callStep]; split <;> rfl
      | reload ts => rfl
      | q1 ts p => rfl
      | q3 ts p => rfl
      | _ => simp [PC.plainLoad] at hl
    rw [e1] at k
    exact k.grown ⟨(appears_len b e).le, rfl⟩
  · exact callStep_valid h hc

/-- For the sums only the bounds of pointers matter. -/
theorem callStep_bucket' (b : BucketCounter) (t : Int) (c : Call) (hc : Held b c) (q : Nat) (hin : InI64 (b.heap.at q).count) :
    ((callStep b t c).1.heap.at q).count = i64 ((b.heap.at q).count + ((callStep b t c).2.amt q - c.amt q)) := by
  by_cases hcas : ∃ ts old, c.pc = .cas ts old
  · obtain ⟨ts, old, hpc⟩ := hcas
    have h0 := i64_of_in hin
    unfold callStep
    simp only [hpc]
    split
    · simp only [Call.amt, hpc, sub_self, add_zero, h0]
      by_cases hq : q < b.heap.length
      · rw [BHeap.at_append_lt _ _ _ hq]
      · rw [BHeap.at_ge b.heap q (by omega)]
        by_cases hq' : q = b.heap.length
        · rw [hq', BHeap.at_append_len]; rfl
        · rw [BHeap.at_ge _ q (by simp; omega)]
    · simp [Call.amt, hpc, h0]
  · by_cases hadd : ∃ ts p, c.pc = .add ts p
    · obtain ⟨ts, p, hpc⟩ := hadd
      refine callStep_bucket b t c ?_ q hin
      simp only [CallOk, Held, hpc] at hc ⊢
      exact hc
    · have h0 := i64_of_in hin
      have e1 : (callStep b t c).1.heap = b.heap ∧ (callStep b t c).2.amt q = c.amt q := by
        obtain ⟨n, pc⟩ := c
        cases pc with
        | start => exact ⟨bumpTotal_heap b n, rfl⟩
        | clock => simp only [callStep]; split <;> exact ⟨rfl, rfl⟩
        | load ts => simp only [callStep]; split <;> exact ⟨rfl, rfl⟩
        | cas ts old => exact absurd ⟨ts, old, rfl⟩ hcas
        | add ts p => exact absurd ⟨ts, p, rfl⟩ hadd
        | _ => exact ⟨rfl, rfl⟩
      rw [e1.1, e1.2]; simp [h0]

/-- All that holds in every reachable state. -/
structure WInv (N : Nat) (u : Bool) (p : Pool BucketCounter Call) : Prop where
  valid : Valid N p.shared
  held : ∀ c ∈ p.calls, Held p.shared c
  sum : SumInv p
  heap : HeapSum p
  u : p.shared.updateTotalCount = u

theorem sum_addAt (l : List Bucket) (p : Nat) (n : Int) (hp : p < l.length) :
    i64 ((addAt l p n).map Bucket.count).sum = i64 ((l.map Bucket.count).sum + n) := by
  induction l generalizing p with
  | nil => simp at hp
  | cons x l ih =>
    cases p with
    | zero =>
      simp only [addAt, List.modify_zero_cons, List.map_cons, List.sum_cons]
      rw [i64_add_left]; congr 1; ring
    | succ p =>
      have := ih p (by simpa using hp)
      simp only [addAt, List.modify_succ_cons, List.map_cons, List.sum_cons] at this ⊢
      rw [← i64_add_right, this, i64_add_right]; congr 1; ring

theorem winv_load {N : Nat} {u : Bool} {s : BucketCounter} {pre post : List Call} {c c' : Call} (h : WInv N u ⟨s, pre ++ c :: post⟩) (hh : Held s c')
    (h1 : ∀ q, c'.amt q = c.amt q) (h2 : c'.totalled = c.totalled) (h3 : c'.credited = c.credited) : WInv N u ⟨s, pre ++ c' :: post⟩ := by
  refine ⟨h.valid, ?_, ⟨?_, ?_⟩, ?_, h.u⟩
  · intro d hd
    rcases List.mem_append.1 hd with hd | hd
    · exact h.held d (by simp [hd])
    · rcases List.mem_cons.1 hd with rfl | hd
      · exact hh
      · exact h.held d (by simp [hd])
  · intro q
    rw [h.sum.bucket q, sum_map_replace _ pre post c c', h1]; simp
  · have := h.sum.total
    simp only at this ⊢
    rw [this, sum_map_replace _ pre post c c', h2]; simp
  · have := h.heap
    unfold HeapSum at this ⊢
    simp only at this ⊢
    rw [this, sum_map_replace _ pre post c c', h3]; simp

theorem winv_callStep {N : Nat} {u : Bool} {s : BucketCounter} {pre post : List Call} {c : Call} (x : Int) (h : WInv N u ⟨s, pre ++ c :: post⟩) :
    WInv N u ⟨(callStep s x c).1, pre ++ (callStep s x c).2 :: post⟩ := by
  have hc : Held s c := h.held c (by simp)
  obtain ⟨k1, k2, k3⟩ := callStep_valid (t := x) h.valid hc
  refine ⟨k1, ?_, ⟨?_, ?_⟩, ?_, (callStep_const s x c).1.trans h.u⟩
  · intro d hd
    rcases List.mem_append.1 hd with hd | hd
    · exact (h.held d (by simp [hd])).grown k2
    · rcases List.mem_cons.1 hd with rfl | hd
      · exact k3
      · exact (h.held d (by simp [hd])).grown k2
  · intro q
    have hb := h.sum.bucket q
    simp only at hb
    show ((callStep s x c).1.heap.at q).count = _
    rw [callStep_bucket' s x c hc q (by rw [hb]; exact i64_in _), hb, i64_add_left, ← sum_map_replace _ pre post c (callStep s x c).2]
  · have ht := h.sum.total
    simp only at ht
    show (callStep s x c).1.getCount = _
    have hin : InI64 s.getCount := by
      rw [ht]; split
      · exact i64_in _
      · decide
    obtain ⟨k1, -⟩ := callStep_const s x c
    rw [callStep_count s x c hin]
    show _ = if (callStep s x c).1.updateTotalCount = true then _ else _
    rw [k1, ht]
    split
    · rw [i64_add_left, ← sum_map_replace _ pre post c (callStep s x c).2]
    · rfl
  · have hs := h.heap
    unfold HeapSum at hs ⊢
    simp only at hs ⊢
    rw [sum_map_replace _ pre post c (callStep s x c).2, ← i64_add_left, ← hs, i64_add_left]
    obtain ⟨n, pc⟩ := c
    cases pc with
    | start => simp [callStep, Call.credited]
    | clock => simp only [callStep]; split <;> simp [Call.credited]
    | load ts => simp only [callStep]; split <;> simp [Call.credited]
    | cas ts old => simp only [callStep]; split <;> simp [Call.credited]
    | add ts p =>
      simp only [callStep, Call.credited, sub_zero]
      exact sum_addAt _ _ _ hc
    | _ => simp [callStep, Call.credited]

theorem winv_run (interval : Int) (N : Nat) (t0 : Int) (u : Bool) (es : List (Ev Int Seen)) :
    WInv N u (wild.run (Machine.start (new interval N t0 u)) es) := by
  refine wild.inv_run (WInv N u) ?_ ?_ _ ?_ es
  · intro s cs a h
    refine ⟨h.valid, ?_, sumInv_spawn a h.sum, heapSum_spawn a h.heap, h.u⟩
    intro c hc
    rcases List.mem_append.1 hc with hc | hc
    · exact h.held c hc
    · obtain rfl := List.mem_singleton.1 hc; trivial
  · intro s pre c post x h
    show WInv N u ⟨(wildStep s x c).1, pre ++ (wildStep s x c).2 :: post⟩
    by_cases hl : c.pc.plainLoad = true
    · obtain ⟨-, -, k⟩ := wildStep_valid (e := x) h.valid (h.held c (by simp))
      unfold wildStep at k ⊢
      rw [if_pos hl] at k ⊢
      obtain ⟨k1, k2, k3, -⟩ := load_amt (b := s.appears x) (t := x.clock) hl
      exact winv_load h k k1 k2 k3
    · unfold wildStep
      rw [if_neg hl]
      exact winv_callStep x.clock h
  · exact ⟨(sharedOk_new interval N t0 u).valid, by simp [Machine.start], sumInv_start N interval t0 u, heapSum_start interval N t0 u, rfl⟩

/-- While all timestamps are visible, the buckets stay in order. -/
theorem cinv_wild {N : Nat} {s : BucketCounter} {pre post : List Call} {c : Call} (x : Seen) (hx : x.blank = false) (h : CInv N ⟨s, pre ++ c :: post⟩) :
    CInv N ⟨(wildStep s x c).1, pre ++ (wildStep s x c).2 :: post⟩ := by
  unfold wildStep
  by_cases hl : c.pc.plainLoad = true
  · rw [if_pos hl]
    refine ⟨h.shared, ?_⟩
    have hlen : x.latest % s.heap.length < s.heap.length := Nat.mod_lt _ (by have := h.shared.len; simp only at this; omega)
    have hq : x.position % s.buckets.queue.length < s.buckets.queue.length := Nat.mod_lt _ (by have := h.shared.qlen; simp only at this; omega)
    have hk : CallOk s (callStep (s.appears x) x.clock c).2 := by
      have hc : CallOk s c := h.calls c (by simp)
      have hap : (s.appears x).heap = s.heap := by unfold BucketCounter.appears; simp [hx]
      obtain ⟨n, pc⟩ := c
      cases pc with
      | load ts =>
        simp only [callStep, hap]
        split
        · rename_i hg
          exact ⟨hlen, hg⟩
        · exact hlen
      | reload ts => exact hlen
      | q1 ts p => exact ⟨hc.1, hc.2, Nat.mod_lt _ (by show 0 < s.buckets.queue.length; omega)⟩
      | q3 ts p => exact ⟨hc.1, hc.2, hq⟩
      | _ => simp [PC.plainLoad] at hl
    intro d hd
    rcases List.mem_append.1 hd with hd | hd
    · exact h.calls d (by simp [hd])
    · rcases List.mem_cons.1 hd with rfl | hd
      · exact hk
      · exact h.calls d (by simp [hd])
  · rw [if_neg hl]
    exact cinv_step x.clock h

/-- Every ordinary execution is one of these. -/
theorem wild_fresh {N : Nat} {s : BucketCounter} (h : SharedOk N s) (c : Call) (x : Int) :
    wildStep s ⟨x, s.latestBucket, false, s.buckets.current⟩ c = callStep s x c := by
  unfold wildStep
  have e : s.appears ⟨x, s.latestBucket, false, s.buckets.current⟩ = s := by
    unfold BucketCounter.appears
    have h1 := h.latest_lt
    have h2 := h.cur
    have h3 := h.qlen
    simp only [Nat.mod_eq_of_lt h1]
    rw [Nat.mod_eq_of_lt (by omega : s.buckets.current < s.buckets.queue.length)]
    simp
  rw [e]
  split
  · rename_i hl
    obtain ⟨n, pc⟩ := c
    cases pc with
    | load ts => simp only [callStep]; split <;> rfl
    | reload ts => rfl
    | q1 ts p => rfl
    | q3 ts p => rfl
    | _ => simp [PC.plainLoad] at hl
  · rfl
end BucketCounter
end GoMetrics
