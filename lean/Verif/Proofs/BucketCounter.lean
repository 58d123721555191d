import Verif.Proofs.Ring
import Verif.Spec.Buckets
/-! # Refinement of the bucket counter to a list of buckets, newest first -/
namespace GoMetrics
namespace BucketCounter

/-- Heap of a counter with `N` buckets whose created buckets are `R` (newest first) and whose initial
placeholder has accumulated `c0`. -/
def heapOf (N : Nat) (c0 : Int) (R : List Bucket) : BHeap :=
  (⟨-1, c0⟩ : Bucket) :: (List.replicate N newBucket ++ R.reverse)

/-- Ring pointers, newest first. -/
def ptrs (N m : Nat) : List Nat :=
  (List.range' (N + 1) m).reverse ++ 0 :: (List.range' 1 N).reverse

@[simp] theorem length_heapOf (N : Nat) (c0 : Int) (R : List Bucket) :
    (heapOf N c0 R).length = N + 1 + R.length := by simp [heapOf]; omega

theorem heapOf_getElem? (N : Nat) (c0 : Int) (R : List Bucket) (i : Nat) :
    (heapOf N c0 R)[N + 1 + i]? = R.reverse[i]? := by
  have : N + 1 + i = (N + i) + 1 := by omega
  rw [heapOf, this, List.getElem?_cons_succ, List.getElem?_append_right (by simp)]
  simp

theorem map_at_ptrs (N : Nat) (c0 : Int) (R : List Bucket) :
    (ptrs N R.length).map (heapOf N c0 R).at = R ++ ⟨-1, c0⟩ :: List.replicate N newBucket := by
  have h1 : (List.range' (N + 1) R.length).map (heapOf N c0 R).at = R.reverse := by
    apply List.ext_getElem
    · simp
    · intro i h1 h2
      simp only [List.getElem_map, List.getElem_range', BHeap.at, one_mul]
      rw [heapOf_getElem?]
      rw [List.getElem?_eq_getElem h2]; rfl
  have h2 : (List.range' 1 N).map (heapOf N c0 R).at = List.replicate N newBucket := by
    apply List.ext_getElem
    · simp
    · intro i h1 h2
      simp only [List.length_replicate] at h2
      have e : 1 + 1 * i = i + 1 := by omega
      simp only [List.getElem_map, List.getElem_range', BHeap.at, heapOf, List.getElem_replicate, e,
        List.getElem?_cons_succ]
      rw [List.getElem?_append_left (by simpa using h2)]
      simp [h2]
  have h0 : (heapOf N c0 R).at 0 = ⟨-1, c0⟩ := by simp [BHeap.at, heapOf]
  simp only [ptrs, List.map_append, List.map_reverse, List.map_cons, h1, h2, h0,
    List.reverse_reverse, List.reverse_replicate]

/-- `b` is a counter for `N` buckets representing the created buckets `R`, newest first. -/
structure Rep (N : Nat) (b : BucketCounter) (R : List Bucket) (c0 : Int) : Prop where
  heap : b.heap = heapOf N c0 R
  len : b.buckets.queue.length = N + 1
  wf : b.buckets.WF
  ring : b.buckets.ringList = (ptrs N R.length).take (N + 1)
  latest : b.latestBucket = b.buckets.peek
  sorted : R.Pairwise (fun x y => y.timestamp < x.timestamp)
  pos : ∀ x ∈ R, (0 : Int) ≤ x.timestamp

/-- Timestamp of the newest bucket (`-1` if none was created). -/
def headTs : List Bucket → Int
  | [] => -1
  | x :: _ => x.timestamp

/-- Abstract effect of crediting `n` at aligned time `a`. -/
def absStep (R : List Bucket) (c0 a n : Int) : List Bucket × Int :=
  if a > headTs R then (⟨a, i64 n⟩ :: R, c0)
  else match R with
    | [] => ([], i64 (c0 + n))
    | x :: R' => ({ x with count := i64 (x.count + n) } :: R', c0)

theorem peek_eq_head (q : Deque) (h : q.WF) : q.ringList.head? = some q.peek := by
  unfold Deque.WF at h
  unfold Deque.ringList Deque.peek
  obtain ⟨L, hL⟩ : ∃ L, q.queue.length = L + 1 := ⟨q.queue.length - 1, by omega⟩
  rw [hL, List.range_succ_eq_map]
  simp only [List.map_cons, List.head?_cons, Nat.sub_zero, Nat.add_mod_right]
  rw [Nat.mod_eq_of_lt (by omega)]

theorem Rep.latest_eq {N b R c0} (h : Rep N b R c0) :
    b.latestBucket = if R = [] then 0 else N + R.length := by
  have := peek_eq_head _ h.wf
  rw [h.ring, List.head?_take] at this
  simp only [Nat.add_eq_zero_iff, one_ne_zero, and_false, if_false] at this
  cases R with
  | nil => simp [ptrs] at this; simp [h.latest, this]
  | cons x R' =>
    simp only [ptrs, List.length_cons, List.range'_concat, List.reverse_append,
      List.reverse_cons, List.reverse_nil, List.nil_append, List.cons_append, List.head?_cons,
      Option.some.injEq] at this
    simp only [reduceCtorEq, if_false, h.latest, ← this, List.length_cons]
    omega

theorem Rep.at_latest {N b R c0} (h : Rep N b R c0) :
    b.heap.at b.latestBucket = match R with | [] => ⟨-1, c0⟩ | x :: _ => x := by
  rw [h.latest_eq, h.heap]
  cases R with
  | nil => simp [BHeap.at, heapOf]
  | cons x R' =>
    simp only [reduceCtorEq, if_false, List.length_cons]
    have e : N + (R'.length + 1) = N + 1 + R'.length := by omega
    unfold BHeap.at
    rw [e, heapOf_getElem?]
    simp

theorem Rep.latest_ts {N b R c0} (h : Rep N b R c0) :
    (b.heap.at b.latestBucket).timestamp = headTs R := by
  rw [h.at_latest]; cases R <;> rfl

theorem ptrs_succ (N m : Nat) : ptrs N (m + 1) = (N + 1 + m) :: ptrs N m := by
  simp [ptrs, List.range'_concat]

theorem length_ptrs (N m : Nat) : (ptrs N m).length = N + 1 + m := by
  simp [ptrs]; omega

theorem rep_new (interval : Int) (N : Nat) (t0 : Int) (u : Bool) :
    Rep N (new interval N t0 u) [] 0 where
  heap := by simp [new, Deque.newHeap, heapOf, newBucket, List.replicate_succ]
  len := by simp [new, Deque.new]
  wf := Deque.wf_new N
  ring := by
    simp only [new, List.length_nil, List.take_of_length_le (le_of_eq (length_ptrs N 0))]
    unfold Deque.ringList Deque.new
    simp only [List.length_range, ptrs]
    simp only [List.range'_zero, List.reverse_nil, List.nil_append]
    rw [List.range_succ_eq_map, List.map_cons]
    congr 1
    · simp [Deque.slot]
    · apply List.ext_getElem
      · simp
      · intro i h1 h2
        simp only [List.length_reverse, List.length_range'] at h2
        simp only [List.map_map, List.getElem_map, List.getElem_range, Function.comp,
          List.getElem_reverse, List.length_range', List.getElem_range', Deque.slot]
        have : (0 + (N + 1) - Nat.succ i) % (N + 1) = N - i := by
          rw [Nat.mod_eq_of_lt (by omega)]; omega
        have e2 : N - i = (N - i - 1) + 1 := by omega
        rw [this, e2, List.getElem?_cons_succ, List.getElem?_map, List.getElem?_range (by omega)]
        simp only [Option.map_some, Option.getD_some]
        omega
  latest := rfl
  sorted := List.Pairwise.nil
  pos := by simp

theorem addAt_last (N : Nat) (c0 : Int) (x : Bucket) (R : List Bucket) (n : Int) :
    addAt (heapOf N c0 (x :: R)) (N + 1 + R.length) n =
      heapOf N c0 ({ x with count := i64 (x.count + n) } :: R) := by
  apply List.ext_getElem?
  intro i
  simp only [addAt, List.getElem?_modify]
  by_cases hi : N + 1 + R.length = i
  · subst hi
    rw [heapOf_getElem?, heapOf_getElem?]
    simp
  · simp only [hi, if_false]
    simp only [heapOf, List.reverse_cons, ← List.append_assoc, id_eq]
    cases i with
    | zero => simp
    | succ i =>
      simp only [List.getElem?_cons_succ]
      by_cases hlt : i < N + R.length
      · rw [List.getElem?_append_left (l₁ := List.replicate N newBucket ++ R.reverse) (by simp; omega),
          List.getElem?_append_left (l₁ := List.replicate N newBucket ++ R.reverse) (by simp; omega)]
        simp
      · rw [List.getElem?_eq_none (by simp; omega), List.getElem?_eq_none (by simp; omega)]
        simp

theorem heapOf_cons (N : Nat) (c0 : Int) (x : Bucket) (R : List Bucket) :
    heapOf N c0 (x :: R) = heapOf N c0 R ++ [x] := by
  simp [heapOf]

@[simp] theorem bumpTotal_interval (b : BucketCounter) (n : Int) :
    (b.bumpTotal n).interval = b.interval := by unfold bumpTotal; split <;> rfl
@[simp] theorem bumpTotal_flag (b : BucketCounter) (n : Int) :
    (b.bumpTotal n).updateTotalCount = b.updateTotalCount := by unfold bumpTotal; split <;> rfl
@[simp] theorem bumpTotal_init (b : BucketCounter) (n : Int) :
    (b.bumpTotal n).initTimestamp = b.initTimestamp := by unfold bumpTotal; split <;> rfl
@[simp] theorem bumpTotal_heap (b : BucketCounter) (n : Int) :
    (b.bumpTotal n).heap = b.heap := by unfold bumpTotal; split <;> rfl
@[simp] theorem bumpTotal_latest (b : BucketCounter) (n : Int) :
    (b.bumpTotal n).latestBucket = b.latestBucket := by unfold bumpTotal; split <;> rfl
@[simp] theorem bumpTotal_buckets (b : BucketCounter) (n : Int) :
    (b.bumpTotal n).buckets = b.buckets := by unfold bumpTotal; split <;> rfl
@[simp] theorem credit_interval (b : BucketCounter) (a n : Int) :
    (b.credit a n).interval = b.interval := by unfold credit; simp only; split <;> rfl
@[simp] theorem credit_flag (b : BucketCounter) (a n : Int) :
    (b.credit a n).updateTotalCount = b.updateTotalCount := by
  unfold credit; simp only; split <;> rfl
@[simp] theorem credit_init (b : BucketCounter) (a n : Int) :
    (b.credit a n).initTimestamp = b.initTimestamp := by unfold credit; simp only; split <;> rfl
@[simp] theorem credit_total (b : BucketCounter) (a n : Int) :
    (b.credit a n).totalCount = b.totalCount := by unfold credit; simp only; split <;> rfl

theorem updateN_of_align {b : BucketCounter} {t n a : Int}
    (ha : alignTimestamp b.interval t = some a) :
    b.updateN t n = .ok ((b.bumpTotal n).credit a n) := by
  simp [updateN, ha]

theorem updateN_of_none {b : BucketCounter} {t n : Int}
    (ha : alignTimestamp b.interval t = none) : b.updateN t n = .panic (b.bumpTotal n) := by
  simp [updateN, ha]

theorem rep_bumpTotal {N b R c0} (h : Rep N b R c0) (n : Int) : Rep N (b.bumpTotal n) R c0 := by
  unfold bumpTotal
  split
  · exact ⟨h.heap, h.len, h.wf, h.ring, h.latest, h.sorted, h.pos⟩
  · exact h

theorem rep_updateN {N b R c0} (h : Rep N b R c0) {t n a : Int}
    (ha : alignTimestamp b.interval t = some a) :
    Rep N (b.updateN t n).state (absStep R c0 a n).1 (absStep R c0 a n).2 := by
  rw [updateN_of_align ha, Res.state_ok]
  have h1 := rep_bumpTotal h n
  generalize b.bumpTotal n = b1 at h1
  unfold credit
  simp only [h1.latest_ts]
  by_cases hgt : a > headTs R
  · simp only [hgt, if_true, absStep]
    have hp : b1.heap.length = N + 1 + R.length := by rw [h1.heap, length_heapOf]
    refine ⟨?_, ?_, ?_, ?_, ?_, ?_, ?_⟩
    · simp only
      rw [hp, h1.heap, ← heapOf_cons, addAt_last]
      simp
    · simp [h1.len]
    · exact Deque.wf_addLast _ _ h1.wf
    · simp only
      rw [Deque.ringList_addLast _ _ h1.wf, h1.ring, List.length_cons, ptrs_succ, hp,
        List.take_succ_cons]
      congr 1
      rw [List.dropLast_eq_take, List.take_take, List.length_take, length_ptrs]
      congr 1; omega
    · simp only
      rw [Deque.peek_addLast _ _ h1.wf]
    · refine List.pairwise_cons.2 ⟨?_, h1.sorted⟩
      intro y hy
      cases R with
      | nil => simp at hy
      | cons x R' =>
        simp only [headTs] at hgt
        rcases List.mem_cons.1 hy with rfl | hy
        · exact hgt
        · have := (List.pairwise_cons.1 h1.sorted).1 y hy
          simp only; omega
    · intro x hx
      rcases List.mem_cons.1 hx with rfl | hx
      · cases R with
        | nil => simp only [headTs] at hgt; simp only; omega
        | cons y R' =>
          have := h1.pos y (List.mem_cons_self ..)
          simp only [headTs] at hgt; simp only; omega
      · exact h1.pos x hx
  · simp only [hgt, if_false, absStep]
    cases R with
    | nil =>
      have hl : b1.latestBucket = 0 := by simpa using h1.latest_eq
      refine ⟨?_, h1.len, h1.wf, h1.ring, h1.latest, h1.sorted, h1.pos⟩
      simp only
      rw [hl, h1.heap]
      simp [addAt, heapOf, List.modify]
    | cons x R' =>
      have hl : b1.latestBucket = N + 1 + R'.length := by
        have := h1.latest_eq
        simp only [reduceCtorEq, if_false, List.length_cons] at this
        omega
      refine ⟨?_, h1.len, h1.wf, ?_, h1.latest, ?_, ?_⟩
      · simp only
        rw [hl, h1.heap, addAt_last]
      · simpa using h1.ring
      · have := List.pairwise_cons.1 h1.sorted
        exact List.pairwise_cons.2 ⟨this.1, this.2⟩
      · intro y hy
        rcases List.mem_cons.1 hy with rfl | hy
        · exact h1.pos x (List.mem_cons_self ..)
        · exact h1.pos y (List.mem_cons_of_mem _ hy)

/-- The buckets `getBucketList` returns, newest first. -/
theorem Rep.bucketList {N b R c0} (h : Rep N b R c0) :
    (b.buckets.getBucketList b.heap).map b.heap.at =
      (R ++ ⟨-1, c0⟩ :: List.replicate N newBucket).take N := by
  have hmap : b.buckets.ringList.map b.heap.at =
      (R ++ ⟨-1, c0⟩ :: List.replicate N newBucket).take (N + 1) := by
    rw [h.ring, List.map_take, h.heap, map_at_ptrs]
  rw [Deque.getBucketList_eq _ _ h.wf]
  · rw [List.map_take, hmap, h.len, List.take_take]
    congr 1; omega
  · intro p hp
    have h1 : (b.heap.at b.buckets.peek).timestamp = headTs R := by
      rw [← h.latest, h.latest_ts]
    rw [h1]
    have h2 : b.heap.at p ∈ (R ++ ⟨-1, c0⟩ :: List.replicate N newBucket).take (N + 1) := by
      rw [← hmap]; exact List.mem_map_of_mem hp
    have h3 := List.mem_of_mem_take h2
    generalize b.heap.at p = x at h3 ⊢
    have hm1 : -1 ≤ headTs R := by
      cases R with
      | nil => simp [headTs]
      | cons y R' => have := h.pos y (List.mem_cons_self ..); simp only [headTs]; omega
    rcases List.mem_append.1 h3 with h3 | h3
    · cases R with
      | nil => simp at h3
      | cons y R' =>
        rcases List.mem_cons.1 h3 with rfl | h4
        · simp [headTs]
        · have := (List.pairwise_cons.1 h.sorted).1 x h4
          simp only [headTs]; omega
    · rcases List.mem_cons.1 h3 with rfl | h3
      · exact hm1
      · have := List.eq_of_mem_replicate h3
        subst this; exact hm1

/-- The collecting loop on buckets instead of pointers. -/
def collectB (s now : Int) (m : GoMap Int Int) (x : Bucket) : GoMap Int Int :=
  if secondToMsRate * x.timestamp ≥ s ∧ x.timestamp ≤ now then
    m.set (secondToMsRate * x.timestamp) x.count else m

theorem foldl_collect (h : BHeap) (s now : Int) (l : List Nat) (m : GoMap Int Int) :
    l.foldl (collect h s now) m = (l.map h.at).foldl (collectB s now) m := by
  induction l generalizing m with
  | nil => rfl
  | cons p l ih => exact ih _

theorem wf_foldl_collectB (s now : Int) (l : List Bucket) (m : GoMap Int Int) (hm : m.WF) :
    (l.foldl (collectB s now) m).WF := by
  induction l generalizing m with
  | nil => exact hm
  | cons p l ih =>
    apply ih
    unfold collectB
    split
    · exact GoMap.wf_set hm _ _
    · exact hm

/-- In general the entry for a key is written by the last matching bucket of the list. -/
theorem get?_foldl_collectB (s now : Int) (l : List Bucket) (m : GoMap Int Int) (k : Int) :
    (l.foldl (collectB s now) m).get? k =
      match (l.filter (fun x => secondToMsRate * x.timestamp ≥ s ∧ x.timestamp ≤ now ∧
        secondToMsRate * x.timestamp = k)).getLast? with
      | some x => some x.count
      | none => m.get? k := by
  induction l generalizing m with
  | nil => rfl
  | cons p l ih =>
    rw [List.foldl_cons, ih, List.filter_cons]
    by_cases hp : secondToMsRate * p.timestamp ≥ s ∧ p.timestamp ≤ now
    · by_cases hk : secondToMsRate * p.timestamp = k
      · have : (secondToMsRate * p.timestamp ≥ s ∧ p.timestamp ≤ now ∧
          secondToMsRate * p.timestamp = k) := ⟨hp.1, hp.2, hk⟩
        rw [if_pos (by simpa using this), List.getLast?_cons]
        cases hl : (l.filter _).getLast? with
        | none => simp [collectB, hp, ← hk]
        | some x => simp
      · have : ¬ (secondToMsRate * p.timestamp ≥ s ∧ p.timestamp ≤ now ∧
          secondToMsRate * p.timestamp = k) := fun h => hk h.2.2
        simp only [this, decide_false]
        have e : (collectB s now m p).get? k = m.get? k := by
          simp [collectB, hp, GoMap.get?_set_ne _ _ hk]
        rw [e]; simp
    · have : ¬ (secondToMsRate * p.timestamp ≥ s ∧ p.timestamp ≤ now ∧
          secondToMsRate * p.timestamp = k) := fun h => hp ⟨h.1, h.2.1⟩
      have e : collectB s now m p = m := by simp [collectB, hp]
      simp only [this, decide_false, e]
      simp

end BucketCounter
end GoMetrics
