import Verif.Model.UniformReservoir
import Mathlib.Data.List.Nodup
import Mathlib.Data.List.Induction
/-! Lemmas about the uniform reservoir. -/
namespace GoMetrics
namespace UniformReservoir

theorem run_snoc (u : UniformReservoir) (h : List (Int × List Int)) (e : Int × List Int) :
    u.run (h ++ [e]) = ((u.run h).updateN e.2 e.1).state := by simp [run]

theorem nextRandomPos_range {n : Int} (hn : 1 ≤ n) {words : List Int} (hw : ∀ w ∈ words, 0 ≤ w) {p : Int}
    (h : nextRandomPos n words = some p) : 0 ≤ p ∧ p < n := by
  induction words with
  | nil => simp [nextRandomPos] at h
  | cons w rest ih =>
    rw [nextRandomPos] at h
    by_cases ha : accepts n w = true
    · rw [if_pos ha] at h
      simp only [Option.some.injEq] at h
      have hw0 := hw w (by simp)
      rw [Int.tmod_eq_emod_of_nonneg hw0] at h
      have h1 := Int.emod_nonneg w (show n ≠ 0 by omega)
      have h2 := Int.emod_lt_of_pos w (show 0 < n by omega)
      omega
    · rw [if_neg ha] at h
      exact ih (fun w hw' => hw w (by simp [hw'])) h

theorem count_update (u : UniformReservoir) (w : List Int) (v : Int) : (u.updateN w v).state.count = i64 (u.count + 1) := by
  unfold updateN
  simp only
  split
  · split <;> rfl
  · split
    · rfl
    · split
      · split <;> rfl
      · rfl

theorem length_update (u : UniformReservoir) (w : List Int) (v : Int) : (u.updateN w v).state.values.length = u.values.length := by
  unfold updateN
  simp only
  split
  · split <;> simp
  · split
    · rfl
    · split
      · split <;> simp
      · rfl

theorem length_run (u : UniformReservoir) (h : List (Int × List Int)) : (u.run h).values.length = u.values.length := by
  induction h using List.reverseRecOn with
  | nil => rfl
  | append_singleton h e ih => rw [run_snoc, length_update, ih]

theorem count_run (c : Nat) (h : List (Int × List Int)) (hl : h.length < 9223372036854775808) : ((new c).run h).count = h.length := by
  induction h using List.reverseRecOn with
  | nil => rfl
  | append_singleton h e ih =>
    simp only [List.length_append, List.length_singleton] at hl ⊢
    rw [run_snoc, count_update, ih (by omega), i64_of_in (by unfold InI64; omega)]
    push_cast; rfl

/-- Not full yet: the value is put into the next slot. -/
theorem updateN_fill {u : UniformReservoir} {k : Nat} (hc : u.count = k) (hk : k < u.values.length)
    (hk' : k + 1 < 9223372036854775808) (w : List Int) (v : Int) : u.updateN w v = .ok ⟨k + 1, u.values.set k v⟩ := by
  unfold updateN
  have e1 : i64 (u.count + 1) = k + 1 := by rw [hc, i64_of_in]; unfold InI64; omega
  have e2 : i64 ((k : Int) + 1 - 1) = k := by rw [i64_of_in]; omega; unfold InI64; omega
  simp only [e1, e2]
  rw [if_pos (by omega), if_neg (by omega)]
  simp

/-- Full: the value goes to the random position if that is a slot. -/
theorem updateN_full {u : UniformReservoir} {k : Nat} (hc : u.count = k) (hk : u.values.length ≤ k)
    (hk' : k + 1 < 9223372036854775808) {w : List Int} (hw : ∀ x ∈ w, 0 ≤ x) (v : Int) :
    (nextRandomPos (k + 1) w = none ∧ u.updateN w v = .panic ⟨k + 1, u.values⟩) ∨
    ∃ p : Nat, nextRandomPos (k + 1) w = some (p : Int) ∧ p < k + 1 ∧
      u.updateN w v = .ok ⟨k + 1, if p < u.values.length then u.values.set p v else u.values⟩ := by
  have e1 : i64 (u.count + 1) = k + 1 := by rw [hc, i64_of_in]; unfold InI64; omega
  unfold updateN
  simp only [e1]
  rw [if_neg (by omega)]
  cases hp : nextRandomPos (k + 1) w with
  | none => left; simp
  | some p =>
    right
    have hr := nextRandomPos_range (by omega) hw hp
    refine ⟨p.toNat, by rw [Int.toNat_of_nonneg hr.1], by omega, ?_⟩
    simp only
    by_cases hlt : p < (u.values.length : Int)
    · rw [if_pos hlt, if_neg (by omega), if_pos (by omega)]
    · rw [if_neg hlt, if_neg (by omega)]

/-- What the slots are after any history. -/
theorem provenance (c : Nat) (h : List (Int × List Int)) (hl : h.length < 9223372036854775808)
    (hw : ∀ e ∈ h, ∀ x ∈ e.2, 0 ≤ x) :
    ∃ idx : List Nat, idx.Nodup ∧ idx.length = min h.length c ∧ (∀ i ∈ idx, i < h.length) ∧
      ((new c).run h).values.map some = idx.map (fun i => h[i]?.map Prod.fst) ++ List.replicate (c - h.length) (some 0) ∧
      (h.length ≤ c → idx = List.range h.length) := by
  induction h using List.reverseRecOn with
  | nil => exact ⟨[], by simp, by simp, by simp, by simp [run, new], by simp⟩
  | append_singleton h e ih =>
    simp only [List.length_append, List.length_singleton] at hl ⊢
    obtain ⟨idx, h1, h2, h3, h4, h5⟩ := ih (by omega) (fun e he => hw e (by simp [he]))
    have hlen : ((new c).run h).values.length = c := by rw [length_run]; simp [new]
    have hcount := count_run c h (by omega)
    rw [run_snoc]
    have look : ∀ i ∈ idx, (h ++ [e])[i]?.map Prod.fst = h[i]?.map Prod.fst := by
      intro i hi
      rw [List.getElem?_append_left (h3 i hi)]
    have lookAll : idx.map (fun i => (h ++ [e])[i]?.map Prod.fst) = idx.map (fun i => h[i]?.map Prod.fst) :=
      List.map_congr_left look
    have hnew : ((h ++ [e])[h.length]?).map Prod.fst = some e.1 := by simp
    have hnot : h.length ∉ idx := fun hm => by have := h3 _ hm; omega
    by_cases hf : h.length < c
    · rw [updateN_fill hcount (by omega) (by omega)]
      have hidx : idx.length = h.length := by omega
      refine ⟨idx ++ [h.length], ?_, ?_, ?_, ?_, ?_⟩
      · rw [List.nodup_append]
        exact ⟨h1, by simp, by simp; intro a ha; have := h3 a ha; omega⟩
      · simp [hidx]; omega
      · intro i hi
        rcases List.mem_append.1 hi with hi | hi
        · have := h3 i hi; omega
        · simp at hi; omega
      · simp only [Res.state_ok, List.map_set, h4]
        rw [List.map_append, lookAll, List.set_append_right _ _ (by simp [hidx])]
        simp only [List.length_map, hidx, Nat.sub_self, List.map_cons, List.map_nil, hnew]
        have : c - h.length = (c - (h.length + 1)) + 1 := by omega
        rw [this, List.replicate_succ, List.set_cons_zero, List.append_assoc]; rfl
      · intro hle; rw [h5 (by omega), List.range_succ]
    · have hmin : c - (h.length + 1) = 0 := by omega
      have hmin' : c - h.length = 0 := by omega
      rw [hmin'] at h4
      simp only [List.replicate_zero, List.append_nil] at h4
      rw [hmin]
      rcases updateN_full hcount (by omega) (by omega) (hw e (by simp)) e.1 with ⟨_, hp⟩ | ⟨p, _, hp, hu⟩
      · refine ⟨idx, h1, by omega, fun i hi => by have := h3 i hi; omega, ?_, by omega⟩
        rw [hp]
        simp only [Res.state_panic, List.replicate_zero, List.append_nil]
        rw [h4, lookAll]
      · rw [hu, hlen]
        by_cases hpc : p < c
        · refine ⟨idx.set p h.length, ?_, ?_, ?_, ?_, by omega⟩
          · exact List.Nodup.set h1 (fun hm => absurd hm hnot)
          · simp; omega
          · intro i hi
            rcases List.mem_or_eq_of_mem_set hi with hi | hi
            · have := h3 i hi; omega
            · omega
          · simp only [Res.state_ok, if_pos hpc, List.map_set, h4, List.replicate_zero, List.append_nil, lookAll, hnew]
        · refine ⟨idx, h1, by omega, fun i hi => by have := h3 i hi; omega, ?_, by omega⟩
          simp only [Res.state_ok, if_neg hpc, h4, List.replicate_zero, List.append_nil, lookAll]

end UniformReservoir
end GoMetrics
