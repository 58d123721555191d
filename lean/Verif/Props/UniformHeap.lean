import Verif.Model.UniformHeap
import Verif.Proofs.UniformSnapshot
import Mathlib.Data.List.Nodup
/-! # C53: snapshots are immutable -/
namespace GoMetrics
namespace UniformHeap
open State

/-- All references are different and allocated. -/
structure Separate (s : State) : Prop where
  alloc : ∀ a ∈ s.values :: (s.snapshots ++ s.handed), a < s.heap.length
  nodup : (s.values :: (s.snapshots ++ s.handed)).Nodup

theorem read_write_ne {s : State} {a b : Nat} (h : a ≠ b) (l : List Int) : (s.write a l).read b = s.read b := by
  simp [State.write, State.read, List.getElem?_set_ne h]

theorem read_write_self {s : State} {a : Nat} (h : a < s.heap.length) (l : List Int) : (s.write a l).read a = l := by
  simp [State.write, State.read, h]

theorem read_alloc {s : State} {b : Nat} (h : b < s.heap.length) (l : List Int) : (s.alloc l).1.read b = s.read b := by
  simp [State.alloc, State.read, List.getElem?_append_left h]

theorem ne_values {s : State} (h : Separate s) {a : Nat} (ha : a ∈ s.snapshots ++ s.handed) : s.values ≠ a := by
  rintro rfl
  exact (List.nodup_cons.1 h.nodup).1 ha

theorem ne_handed {s : State} (h : Separate s) {a b : Nat} (ha : a ∈ s.snapshots) (hb : b ∈ s.handed) : b ≠ a := by
  have := (List.nodup_cons.1 h.nodup).2
  rw [List.nodup_append] at this
  exact fun e => this.2.2 a ha b hb e.symm

/-- One operation keeps the references apart, and changes only what it should. -/
theorem step_spec {s : State} (h : Separate s) (op : Op) :
    Separate (step s op) ∧
    (∀ a ∈ s.snapshots, (step s op).read a = s.read a) ∧
    (∃ extra, (step s op).snapshots = s.snapshots ++ extra) ∧
    (step s op).reservoir = (match op with | .update v w => (s.reservoir.updateN w v).state | _ => s.reservoir) ∧
    (op = .getSnapshot → ∃ a, (step s op).snapshots = s.snapshots ++ [a] ∧
      (step s op).read a = (s.reservoir.getSnapshot).values) := by
  cases op with
  | update v w =>
    have hv := h.alloc s.values (by simp)
    refine ⟨⟨?_, h.nodup⟩, ?_, ⟨[], by simp [step, updateN, State.write]⟩, ?_, by simp⟩
    · intro a ha
      have := h.alloc a ha
      simpa [step, updateN, State.write] using this
    · intro a ha
      exact read_write_ne (ne_values h (by simp [ha])) _
    · simp only [step, updateN, reservoir]
      have : (({ s with count := ((⟨s.count, s.read s.values⟩ : UniformReservoir).updateN w v).state.count } : State).write s.values
          ((⟨s.count, s.read s.values⟩ : UniformReservoir).updateN w v).state.values).read s.values =
          ((⟨s.count, s.read s.values⟩ : UniformReservoir).updateN w v).state.values :=
        read_write_self (by exact hv) _
      simp only [State.write] at this ⊢
      rw [this]
  | getSnapshot =>
    have hv := h.alloc s.values (by simp)
    have hnew : s.heap.length ∉ s.values :: (s.snapshots ++ s.handed) := fun hm => by have := h.alloc _ hm; omega
    have hheap : (step s .getSnapshot).heap = s.heap ++ [(s.read s.values).insertionSort (· ≤ ·)] := by
      simp [step, getSnapshot, State.alloc, State.write, State.read, List.getElem?_append_right]
    have hsn : (step s .getSnapshot).snapshots = s.snapshots ++ [s.heap.length] := by
      simp [step, getSnapshot, State.alloc, State.write]
    have hold : ∀ a < s.heap.length, (step s .getSnapshot).read a = s.read a := by
      intro a ha; unfold State.read; rw [hheap, List.getElem?_append_left ha]
    refine ⟨⟨?_, ?_⟩, ?_, ⟨_, hsn⟩, ?_, ?_⟩
    · intro a ha
      rw [hheap, hsn] at *
      have hh : (step s .getSnapshot).handed = s.handed := by simp [step, getSnapshot, State.alloc, State.write]
      have hva : (step s .getSnapshot).values = s.values := by simp [step, getSnapshot, State.alloc, State.write]
      rw [hh, hva] at ha
      simp only [List.length_append, List.length_singleton]
      simp only [List.mem_cons, List.mem_append, List.not_mem_nil, or_false] at ha
      rcases ha with ha | (ha | ha) | ha
      · have := h.alloc a (by simp [ha]); omega
      · have := h.alloc a (by simp [ha]); omega
      · omega
      · have := h.alloc a (by simp [ha]); omega
    · rw [hsn]
      have hh : (step s .getSnapshot).handed = s.handed := by simp [step, getSnapshot, State.alloc, State.write]
      have hva : (step s .getSnapshot).values = s.values := by simp [step, getSnapshot, State.alloc, State.write]
      rw [hh, hva]
      have hp : (s.values :: (s.snapshots ++ [s.heap.length] ++ s.handed)).Perm
          (s.heap.length :: (s.values :: (s.snapshots ++ s.handed))) := by
        rw [List.append_assoc]
        have h1 : (s.values :: (s.snapshots ++ ([s.heap.length] ++ s.handed))).Perm
            (s.values :: (s.heap.length :: (s.snapshots ++ s.handed))) := List.Perm.cons _ List.perm_middle
        exact h1.trans (List.Perm.swap _ _ _)
      rw [hp.nodup_iff, List.nodup_cons]
      exact ⟨hnew, h.nodup⟩
    · intro a ha
      exact hold a (h.alloc a (by simp [ha]))
    · simp only [reservoir]
      have hva : (step s .getSnapshot).values = s.values := by simp [step, getSnapshot, State.alloc, State.write]
      have hc : (step s .getSnapshot).count = s.count := by simp [step, getSnapshot, State.alloc, State.write]
      rw [hva, hc, hold _ hv]
    · intro _
      refine ⟨s.heap.length, hsn, ?_⟩
      unfold State.read; rw [hheap, List.getElem?_append_right (Nat.le_refl _)]
      simp [UniformReservoir.getSnapshot, UniformSnapshot.new, reservoir, State.read]
  | getValues k =>
    cases hk : s.snapshots[k]? with
    | none => simp only [step, hk]; exact ⟨h, fun _ _ => trivial, ⟨[], by simp⟩, by trivial, by simp⟩
    | some a0 =>
      have hv := h.alloc s.values (by simp)
      have hnew : s.heap.length ∉ s.values :: (s.snapshots ++ s.handed) := fun hm => by have := h.alloc _ hm; omega
      have hst : step s (.getValues k) = getValues s a0 := by simp [step, hk]
      rw [hst]
      have hheap : (getValues s a0).heap = s.heap ++ [s.read a0] := by
        simp [getValues, State.alloc, State.write]
      have hh : (getValues s a0).handed = s.handed ++ [s.heap.length] := by simp [getValues, State.alloc, State.write]
      have hsn : (getValues s a0).snapshots = s.snapshots := by simp [getValues, State.alloc, State.write]
      have hva : (getValues s a0).values = s.values := by simp [getValues, State.alloc, State.write]
      have hc : (getValues s a0).count = s.count := by simp [getValues, State.alloc, State.write]
      have hold : ∀ a < s.heap.length, (getValues s a0).read a = s.read a := by
        intro a ha; unfold State.read; rw [hheap, List.getElem?_append_left ha]
      refine ⟨⟨?_, ?_⟩, ?_, ⟨[], by rw [hsn]; simp⟩, ?_, by simp⟩
      · intro a ha
        rw [hh, hva, hsn] at ha
        rw [hheap]
        simp only [List.length_append, List.length_singleton]
        simp only [List.mem_cons, List.mem_append, List.not_mem_nil, or_false] at ha
        rcases ha with ha | ha | ha | ha
        · have := h.alloc a (by simp [ha]); omega
        · have := h.alloc a (by simp [ha]); omega
        · have := h.alloc a (by simp [ha]); omega
        · omega
      · rw [hh, hva, hsn]
        have hp : (s.values :: (s.snapshots ++ (s.handed ++ [s.heap.length]))).Perm
            (s.heap.length :: (s.values :: (s.snapshots ++ s.handed))) := by
          rw [← List.append_assoc]
          have h1 : (s.values :: (s.snapshots ++ s.handed ++ [s.heap.length])).Perm
              (s.values :: (s.heap.length :: (s.snapshots ++ s.handed))) := List.Perm.cons _ (List.perm_append_singleton _ _)
          exact h1.trans (List.Perm.swap _ _ _)
        rw [hp.nodup_iff, List.nodup_cons]
        exact ⟨hnew, h.nodup⟩
      · intro a ha
        exact hold a (h.alloc a (by simp [ha]))
      · simp only [reservoir]
        rw [hva, hc, hold _ hv]
  | userWrite k l =>
    cases hk : s.handed[k]? with
    | none => simp only [step, hk]; exact ⟨h, fun _ _ => trivial, ⟨[], by simp⟩, by trivial, by simp⟩
    | some a0 =>
      have hm : a0 ∈ s.handed := List.mem_of_getElem? hk
      have hst : step s (.userWrite k l) = s.write a0 l := by simp [step, hk]
      rw [hst]
      refine ⟨⟨?_, h.nodup⟩, ?_, ⟨[], by simp [State.write]⟩, ?_, by simp⟩
      · intro a ha
        have := h.alloc a ha
        simpa [State.write] using this
      · intro a ha
        exact read_write_ne (ne_handed h ha hm) _
      · simp only [reservoir]
        have : (s.write a0 l).read s.values = s.read s.values := read_write_ne (fun e => ne_values h (by simp [hm]) e.symm) _
        show (⟨s.count, (s.write a0 l).read s.values⟩ : UniformReservoir) = _
        rw [this]

theorem separate_new (c : Nat) : Separate (new c) := ⟨by simp [new], by simp [new]⟩

theorem separate_run {s : State} (h : Separate s) (ops : List Op) : Separate (run s ops) := by
  induction ops generalizing s with
  | nil => exact h
  | cons op t ih => exact ih (step_spec h op).1

end UniformHeap
open UniformHeap

/-- **C53.** A snapshot does not change, whatever happens afterwards: updates of the reservoir, further snapshots, calls of `GetValues`, and
writes of the user to slices he got from `GetValues`. -/
theorem C53_immutable (capacity : Nat) (before after : List Op) (k : Nat) (snap : UniformSnapshot)
    (h : (run (UniformHeap.new capacity) before).snapshot k = some snap) :
    (run (UniformHeap.new capacity) (before ++ after)).snapshot k = some snap := by
  have hs := separate_run (separate_new capacity) before
  have e : run (UniformHeap.new capacity) (before ++ after) = run (run (UniformHeap.new capacity) before) after := by simp [UniformHeap.run]
  rw [e]
  clear e
  generalize run (UniformHeap.new capacity) before = s at *
  induction after generalizing s with
  | nil => exact h
  | cons op t ih =>
    obtain ⟨h1, h2, ⟨extra, h3⟩, _, _⟩ := step_spec hs op
    refine ih (step s op) ?_ h1
    unfold State.snapshot at h ⊢
    rw [Option.map_eq_some_iff] at h ⊢
    obtain ⟨a, ha, hb⟩ := h
    refine ⟨a, ?_, by rw [h2 a (List.mem_of_getElem? ha)]; exact hb⟩
    rw [h3, List.getElem?_append_left (List.getElem?_eq_some_iff.1 ha).1]
    exact ha

/-- **C53.** The reservoir is what the updates alone make of it: taking snapshots and writing to returned slices does not touch it. -/
theorem C53_reservoir_untouched (capacity : Nat) (ops : List Op) :
    (run (UniformHeap.new capacity) ops).reservoir = (UniformReservoir.new capacity).run
      (ops.filterMap fun | .update v w => some (v, w) | _ => none) := by
  have key : ∀ s : State, Separate s → (run s ops).reservoir = s.reservoir.run (ops.filterMap fun | .update v w => some (v, w) | _ => none) := by
    induction ops with
    | nil => intro s _; rfl
    | cons op t ih =>
      intro s hs
      obtain ⟨h1, _, _, h4, _⟩ := step_spec hs op
      have := ih (step s op) h1
      show (run (step s op) t).reservoir = _
      rw [this, h4]
      cases op <;> rfl
  rw [key _ (separate_new capacity)]
  rfl

/-- **C53.** And a snapshot taken is the sorted copy of the reservoir at that moment. -/
theorem C53_snapshot_is (capacity : Nat) (ops : List Op) :
    let s := run (UniformHeap.new capacity) ops
    (run (UniformHeap.new capacity) (ops ++ [.getSnapshot])).snapshot s.snapshots.length = some s.reservoir.getSnapshot := by
  intro s
  have hs : Separate s := separate_run (separate_new capacity) ops
  have e : run (UniformHeap.new capacity) (ops ++ [.getSnapshot]) = step s .getSnapshot := by
    show UniformHeap.run _ _ = step (UniformHeap.run _ _) _
    simp [UniformHeap.run]
  rw [e]
  obtain ⟨_, _, _, _, h5⟩ := step_spec hs .getSnapshot
  obtain ⟨a, ha, hb⟩ := h5 rfl
  unfold State.snapshot
  rw [ha]
  simp [hb]

/-- Two values, a snapshot, its values handed out, the user overwrites them, a third value displaces one: the snapshot is still what it was. -/
example : (run (UniformHeap.new 2) [.update 7 [], .update 5 [], .getSnapshot, .getValues 0, .userWrite 0 [1, 2], .update 9 [1]]).snapshot 0 = some ⟨[5, 7]⟩ ∧
    (run (UniformHeap.new 2) [.update 7 [], .update 5 [], .getSnapshot, .getValues 0, .userWrite 0 [1, 2], .update 9 [1]]).reservoir.values = [7, 9] := by
  decide

end GoMetrics
