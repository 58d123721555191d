import Verif.Model.BucketCounter
import Mathlib.Data.List.Basic
/-! # Ring lemmas for impl/bucket_queue.go -/
namespace GoMetrics
namespace Deque

theorem loop1_eq (s L : Nat) : ∀ i, i ≤ s →
    loop1 s L i = (List.range (min (i + 1) (L - (s - i)))).map (fun k => i - k) := by
  intro i
  induction i with
  | zero =>
    intro _
    unfold loop1
    by_cases h : s - 0 < L
    · have : min (0 + 1) (L - (s - 0)) = 1 := by omega
      simp only [h, if_true, this]; rfl
    · have : min (0 + 1) (L - (s - 0)) = 0 := by omega
      simp only [h, if_false, this]; rfl
  | succ i ih =>
    intro hi
    unfold loop1
    by_cases h : s - (i + 1) < L
    · have e : min (i + 1 + 1) (L - (s - (i + 1))) = min (i + 1) (L - (s - i)) + 1 := by omega
      rw [if_pos h, ih (by omega), e, List.range_succ_eq_map, List.map_cons, List.map_map]
      simp only [Nat.sub_zero]
      congr 1
      apply List.map_congr_left
      intro a _
      simp only [Function.comp]
      omega
    · have e : min (i + 1 + 1) (L - (s - (i + 1))) = 0 := by omega
      rw [if_neg h, e]; rfl

theorem loop2_eq (s : Nat) : ∀ i, loop2 s i = (List.range (i - (s + 1))).map (fun k => i - k) := by
  intro i
  induction i with
  | zero => simp [loop2]
  | succ i ih =>
    unfold loop2
    by_cases h : i + 1 > s + 1
    · have e : i + 1 - (s + 1) = (i - (s + 1)) + 1 := by omega
      rw [if_pos h, ih, e, List.range_succ_eq_map, List.map_cons, List.map_map]
      simp only [Nat.sub_zero]
      congr 1
      apply List.map_congr_left
      intro a _
      simp only [Function.comp]
      omega
    · have e : i + 1 - (s + 1) = 0 := by omega
      rw [if_neg h, e]; rfl

/-- All slots of the ring, newest first. -/
def ringList (q : Deque) : List Nat :=
  (List.range q.queue.length).map
    (fun k => q.slot ((q.current + q.queue.length - k) % q.queue.length))

/-- Well-formed ring: at least one slot, cursor in range. -/
def WF (q : Deque) : Prop := q.current < q.queue.length

theorem loops_eq (s L : Nat) (h : s ≤ L) :
    loop1 s L s ++ loop2 s L = (List.range L).map (fun k => (s + (L + 1) - k) % (L + 1)) := by
  rw [loop1_eq s L s le_rfl, loop2_eq]
  apply List.ext_getElem
  · simp; omega
  · intro k h1 h2
    simp only [List.length_append, List.length_map, List.length_range] at h1
    simp only [List.length_map, List.length_range] at h2
    rw [List.getElem_append]
    simp only [List.length_map, List.length_range, List.getElem_map, List.getElem_range]
    split
    · rename_i hk
      have : s + (L + 1) - k = (s - k) + (L + 1) := by omega
      rw [this, Nat.add_mod_right, Nat.mod_eq_of_lt (by omega)]
    · rename_i hk
      rw [Nat.mod_eq_of_lt (by omega)]
      omega

@[simp] theorem length_ringList (q : Deque) : q.ringList.length = q.queue.length := by
  simp [ringList]

@[simp] theorem length_addLast (q : Deque) (p : Nat) :
    (q.addLast p).queue.length = q.queue.length := by simp [addLast]

theorem wf_addLast (q : Deque) (p : Nat) (h : q.WF) : (q.addLast p).WF := by
  unfold WF at *
  rw [length_addLast]
  exact Nat.mod_lt _ (by omega)

theorem wf_new (n : Nat) : (new n).WF := by simp [new, WF]

theorem peek_addLast (q : Deque) (p : Nat) (h : q.WF) : (q.addLast p).peek = p := by
  unfold WF at h
  have : (q.current + 1) % q.queue.length < q.queue.length := Nat.mod_lt _ (by omega)
  simp [addLast, peek, slot, this]

theorem ringList_addLast (q : Deque) (p : Nat) (h : q.WF) :
    (q.addLast p).ringList = p :: q.ringList.dropLast := by
  unfold WF at h
  have hpos : 0 < q.queue.length := by omega
  have hc : (q.current + 1) % q.queue.length < q.queue.length := Nat.mod_lt _ hpos
  apply List.ext_getElem
  · simp; omega
  · intro k h1 h2
    simp only [length_ringList, length_addLast] at h1
    simp only [ringList, length_addLast, List.getElem_map, List.getElem_range]
    obtain ⟨L, hL⟩ : ∃ L, q.queue.length = L := ⟨_, rfl⟩
    rw [hL] at h hpos hc h1
    cases k with
    | zero =>
      simp only [List.getElem_cons_zero, Nat.sub_zero, hL]
      have : (q.addLast p).current = (q.current + 1) % L := by simp [addLast, hL]
      rw [this, Nat.add_mod_right, Nat.mod_mod]
      have := peek_addLast q p (by unfold WF; omega)
      unfold peek at this
      rw [‹(q.addLast p).current = _›] at this
      exact this
    | succ k =>
      simp only [List.getElem_cons_succ, List.getElem_dropLast, List.getElem_map,
        List.getElem_range, hL]
      have e1 : (q.addLast p).current = (q.current + 1) % L := by simp [addLast, hL]
      rw [e1]
      have e2 : ((q.current + 1) % L + L - (k + 1)) % L = (q.current + L - k) % L := by
        by_cases hlt : q.current + 1 < L
        · rw [Nat.mod_eq_of_lt hlt]; congr 1; omega
        · have hh : q.current + 1 = L := by omega
          rw [hh, Nat.mod_self, Nat.mod_eq_of_lt (by omega)]
          have : q.current + L - k = (L - (k + 1)) + L := by omega
          rw [this, Nat.add_mod_right, Nat.mod_eq_of_lt (by omega)]
          omega
      rw [e2]
      -- the slot read is not the one written
      have hne : (q.current + 1) % L ≠ (q.current + L - k) % L := by
        by_cases hlt : q.current + 1 < L
        · rw [Nat.mod_eq_of_lt hlt]
          by_cases hk : k ≤ q.current
          · have : q.current + L - k = (q.current - k) + L := by omega
            rw [this, Nat.add_mod_right, Nat.mod_eq_of_lt (by omega)]; omega
          · rw [Nat.mod_eq_of_lt (by omega)]; omega
        · have hh : q.current + 1 = L := by omega
          have : q.current + L - k = (q.current - k) + L := by omega
          rw [hh, Nat.mod_self, this, Nat.add_mod_right, Nat.mod_eq_of_lt (by omega)]; omega
      simp only [slot, addLast, hL]
      rw [List.getElem?_set_ne hne]

theorem getBucketList_eq (q : Deque) (h : BHeap) (hq : q.WF)
    (hts : ∀ p ∈ q.ringList, (h.at p).timestamp ≤ (h.at q.peek).timestamp) :
    q.getBucketList h = q.ringList.take (q.queue.length - 1) := by
  unfold WF at hq
  have e := loops_eq q.current (q.queue.length - 1) (by omega)
  have hL : q.queue.length - 1 + 1 = q.queue.length := by omega
  rw [hL] at e
  have hsub : (List.range q.queue.length).take (q.queue.length - 1)
      = List.range (q.queue.length - 1) := by
    rw [List.take_range]; congr 1; omega
  have htake : q.ringList.take (q.queue.length - 1) =
      (loop1 q.current (q.queue.length - 1) q.current ++
        loop2 q.current (q.queue.length - 1)).map q.slot := by
    rw [e, ringList, ← List.map_take, hsub, List.map_map]; rfl
  rw [htake, List.map_append]
  unfold getBucketList
  simp only
  congr 1
  rw [List.filter_eq_self]
  intro p hp
  simp only [decide_eq_true_eq]
  apply hts
  have : p ∈ q.ringList.take (q.queue.length - 1) := by
    rw [htake, List.map_append]; exact List.mem_append_right _ hp
  exact List.mem_of_mem_take this

end Deque
end GoMetrics
