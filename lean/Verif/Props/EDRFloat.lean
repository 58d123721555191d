import Verif.Proofs.EDRFloat
/-! # C108: what a rescale does to the samples in rounded arithmetic -/
namespace GoMetrics
open Rounding
namespace EDR

/-- **C108.** Every lawful arithmetic (binary64 among them), a clock that does not go back, every history of updates and snapshots with any
draws: a `GetSnapshot` call that is not due for a rescale finds the samples as they are. One that is due multiplies priority and weight of
every sample by the same factor `f`, at most 1: if `f` underflows to 0 all samples are dropped; otherwise all values stay, in the same order
by priority, with the one exception that of samples whose scaled priorities are equal only the one with the highest priority before stays. -/
theorem C108_rescale (A : Arith) (hA : A.Lawful) (size : Int) (hsz : 1 ≤ size) (a : ℚ) (ha : 0 ≤ a) (time tick : Int) (h : List Op) (tick' time' : Int)
    (ht : InI64 time) (hi : ∀ t ∈ readings h, InI64 t) (ht' : InI64 time') (hm : (time :: readings h ++ [time']).Pairwise (· ≤ ·))
    (hu : ∀ u ∈ draws h, IsDraw u) (hn : (h.length : Int) < 9223372036854775808) :
    let r := run A (new size (.fin a) time tick) h
    let r' := afterSnapshot A r tick' time'
    let f := A.exp (F64.mul A.R (.fin (-a)) (F64.ofInt A.R (time'.tdiv 1000 - r.startTime)))
    (tick' < r.nextScaleTime → r'.getValues = r.getValues) ∧
    (r.nextScaleTime ≤ tick' → F64.le (.fin 0) f ∧ F64.le f (.fin 1) ∧ r'.startTime = time'.tdiv 1000 ∧
      (f = .fin 0 → r'.getValues = []) ∧
      (f ≠ .fin 0 → r'.getValues = collapse (r.getValues.map fun s => ⟨F64.mul A.R s.key f, s.value, F64.mul A.R s.weight f⟩))) := by
  intro r r' f
  have hpa := List.pairwise_append.1 hm
  have hB : InvB r (0 + h.length) := invB_forward hA a ha h _ 0 time (invB_new size (by omega) (.fin a) time tick) le_rfl rfl hsz rfl ht hi hpa.1 hu (by omega)
  have hH : KeysHeld A r.values := held_run hA.rnd h _ (by simp [new, KeysHeld])
  obtain ⟨t, htm, hst⟩ := start_run A h (new size (.fin a) time tick) time rfl
  have htr : t ∈ time :: readings h := by
    rcases List.mem_cons.1 htm with rfl | htm
    · simp
    · exact List.mem_cons_of_mem _ (readings_scale htm)
  have hti : InI64 t := by
    rcases List.mem_cons.1 htr with rfl | htm
    · exact ht
    · exact hi t htm
  have htle : t ≤ time' := hpa.2.2 t htr time' (by simp)
  have hal : r.alpha = .fin a := by
    have : ∀ (h : List Op) (r : EDR), (run A r h).alpha = r.alpha := by
      intro h; induction h with
      | nil => intro r; rfl
      | cons o h ih => intro r; exact (ih _).trans (step_frame r o).1
    exact this h _
  have hd : i64 (time'.tdiv 1000 - r.startTime) = time'.tdiv 1000 - r.startTime := by
    rw [show r.startTime = currentTimeInSecond t from hst]; exact i64_of_in (sec_diff hti ht')
  have hfac : scalingFactor A r.alpha r.startTime (currentTimeInSecond time') = f := by
    unfold scalingFactor
    rw [hal]
    show A.exp (F64.mul A.R (.fin (-a)) (F64.ofInt A.R (i64 (time'.tdiv 1000 - r.startTime)))) = f
    rw [hd]
  have hg : r.getValues = r.values := getValues_eq hB.keys
  constructor
  · intro hlt
    show (rescaleIfNeeded A r tick' time').getValues = _
    unfold rescaleIfNeeded; rw [if_neg (by omega)]
  · intro hdue
    have hr' : r' = rescaleLocked A { r with nextScaleTime := i64 (tick' + rescaleThreshold) } time' := by
      show rescaleIfNeeded A r tick' time' = _
      unfold rescaleIfNeeded; rw [if_pos hdue]
    have hfin : f ≠ .inf false := by
      have := factor_forward hA ha hti ht' htle
      rw [← hal, ← show r.startTime = currentTimeInSecond t from hst, hfac] at this
      exact this
    have hnan : f ≠ .nan := by rw [← hfac, hal]; exact factor_ne_nan hA a _ _
    have hfn : f.NonNeg := hA.nonneg _
    obtain ⟨q, hq0, hq⟩ : ∃ q : ℚ, 0 ≤ q ∧ f = .fin q := by
      rcases F64.nonNeg_cases hfn with h1 | h1 | h1
      · exact absurd h1 hnan
      · exact absurd h1 hfin
      · exact h1
    have hf1 : F64.le f (.fin 1) := by
      apply hA.le_one
      have hd0 : (0 : ℚ) ≤ ((time'.tdiv 1000 - r.startTime : Int) : ℚ) := by
        have := sec_mono htle
        rw [← show r.startTime = currentTimeInSecond t from hst] at this
        have : 0 ≤ time'.tdiv 1000 - r.startTime := by unfold currentTimeInSecond secondToMsRate at this; omega
        exact_mod_cast this
      obtain ⟨w, hw⟩ := hA.ints (time'.tdiv 1000 - r.startTime) (by rw [← hd]; exact i64_in _)
      have hw0 : 0 ≤ w := by
        have := hA.rnd.mono 0 _ hd0
        rw [hA.rnd.zero] at this
        unfold F64.ofInt at hw
        rw [hw] at this
        exact this
      rw [hw]
      have := hA.rnd.mono (-a * w) 0 (by nlinarith)
      rw [hA.rnd.zero] at this
      exact this
    refine ⟨by rw [hq]; exact hq0, hf1, ?_, ?_, ?_⟩
    · rw [hr', (rescaleLocked_frame _ _).2.2.1]; rfl
    · intro hz
      rw [hr']
      unfold rescaleLocked
      simp only
      rw [hfac, hz, if_pos (by simp [F64.eq, F64.le])]
      rfl
    · intro hz
      have hq1 : 0 < q := lt_of_le_of_ne hq0 (fun h => hz (by rw [hq, ← h]))
      have hle : q ≤ 1 := by rw [hq] at hf1; exact hf1
      have hv := rescaleLocked_collapse hA (r := { r with nextScaleTime := i64 (tick' + rescaleThreshold) }) (n := 0 + h.length)
        ⟨hB.sorted, hB.keys, hB.le_size, hB.le_count, hB.count_le⟩ hH time' (f := q) (by rw [← hq]; exact hfac) hq1 hle
      rw [← hr'] at hv
      have hk : KeysNonNeg r'.values := by
        rw [hv]
        intro s hs
        obtain ⟨x, hx, rfl⟩ := List.mem_map.1 ((collapse_sublist _).subset hs)
        exact F64.nonNeg_mul hA.rnd (hB.keys x hx) (F64.nonNeg_fin hq0)
      rw [getValues_eq hk, hv, hg, hq]
      rfl

/-- **C108.** Read for the values alone: a rescale never adds, changes or reorders values, drops all of them only if the factor underflows, and none
if the scaled priorities are different. -/
theorem C108_values (A : Arith) (hA : A.Lawful) (size : Int) (hsz : 1 ≤ size) (a : ℚ) (ha : 0 ≤ a) (time tick : Int) (h : List Op) (tick' time' : Int)
    (ht : InI64 time) (hi : ∀ t ∈ readings h, InI64 t) (ht' : InI64 time') (hm : (time :: readings h ++ [time']).Pairwise (· ≤ ·))
    (hu : ∀ u ∈ draws h, IsDraw u) (hn : (h.length : Int) < 9223372036854775808) :
    let r := run A (new size (.fin a) time tick) h
    let r' := afterSnapshot A r tick' time'
    let f := A.exp (F64.mul A.R (.fin (-a)) (F64.ofInt A.R (time'.tdiv 1000 - r.startTime)))
    (r'.getValues.map (·.value)).Sublist (r.getValues.map (·.value)) ∧
    (f ≠ .fin 0 → r.getValues ≠ [] → r'.getValues ≠ []) ∧
    (f ≠ .fin 0 → (r.getValues.map fun s => F64.mul A.R s.key f).Nodup → r'.getValues.map (·.value) = r.getValues.map (·.value)) := by
  intro r r' f
  obtain ⟨h1, h2⟩ := C108_rescale A hA size hsz a ha time tick h tick' time' ht hi ht' hm hu hn
  by_cases hdue : r.nextScaleTime ≤ tick'
  · obtain ⟨-, -, -, hz, hnz⟩ := h2 hdue
    by_cases hf : f = .fin 0
    · refine ⟨by rw [show r'.getValues = [] from hz hf]; simp, fun h => absurd hf h, fun h => absurd hf h⟩
    · have hv : r'.getValues = collapse (r.getValues.map fun s => ⟨F64.mul A.R s.key f, s.value, F64.mul A.R s.weight f⟩) := hnz hf
      refine ⟨?_, fun _ hne => ?_, fun _ hd => ?_⟩
      · rw [hv]
        have := (collapse_sublist (r.getValues.map fun s => ⟨F64.mul A.R s.key f, s.value, F64.mul A.R s.weight f⟩)).map (·.value)
        rwa [List.map_map] at this
      · rw [hv]
        obtain ⟨s, t, hs⟩ := List.exists_cons_of_ne_nil hne
        rw [hs]
        exact collapse_ne_nil _ _
      · rw [hv, collapse_id, List.map_map]
        · rfl
        · rw [List.pairwise_map]
          unfold List.Nodup at hd
          rw [List.pairwise_map] at hd
          exact hd
  · have hv : r'.getValues = r.getValues := h1 (not_le.1 hdue)
    rw [hv]
    exact ⟨List.Sublist.refl _, fun _ h => h, fun _ _ => rfl⟩

/-- Two updates in the first second, and the snapshot an hour later. -/
def mergeHistory : List Op := [.updateN ⟨0, 0, 0, .fin (9 / 10)⟩ 7, .updateN ⟨0, 0, 0, .fin (4 / 5)⟩ 8]

/-- The hypotheses are met. -/
example : demo.Lawful ∧ InI64 0 ∧ (∀ t ∈ readings mergeHistory, InI64 t) ∧ ((0 : Int) :: readings mergeHistory ++ [3600000]).Pairwise (· ≤ ·) ∧
    (∀ u ∈ draws mergeHistory, IsDraw u) ∧ (run demo (new 2 (.fin (149 / 500)) 0 0) mergeHistory).nextScaleTime ≤ 3600000000000 := by
  refine ⟨demo_lawful, by decide, by decide, by decide, ?_, by decide +kernel⟩
  simp only [draws, mergeHistory, List.mem_cons, List.not_mem_nil, or_false, forall_eq_or_imp, forall_eq]
  exact ⟨⟨9 / 10, rfl, by norm_num, by norm_num⟩, 4 / 5, rfl, by norm_num, by norm_num⟩

/-- **C108.** In binary64 a rescale after exactly one hour, with a clock that agrees with the ticks, can lose a sample: the reservoir is not full, two updates
with different priorities are held, and afterwards only one of the two values is, because both priorities are rounded to the same number. (With the lawful
exponential `demo`.) -/
theorem C108_all_kept_refuted : ∃ h : List Op, (∀ t ∈ readings h, InI64 t) ∧ (∀ u ∈ draws h, IsDraw u) ∧ ((0 : Int) :: readings h ++ [3600000]).Pairwise (· ≤ ·) ∧
    (run demo (new 5 (.fin (149 / 500)) 0 0) h).getSize = 2 ∧
    (run demo (new 5 (.fin (149 / 500)) 0 0) h).getValues.map (·.value) = [7, 8] ∧
    (afterSnapshot demo (run demo (new 5 (.fin (149 / 500)) 0 0) h) 3600000000000 3600000).getSize = 1 ∧
    (afterSnapshot demo (run demo (new 5 (.fin (149 / 500)) 0 0) h) 3600000000000 3600000).getValues.map (·.value) = [8] := by
  refine ⟨mergeHistory, by decide, ?_, by decide, ?_⟩
  · simp only [draws, mergeHistory, List.mem_cons, List.not_mem_nil, or_false, forall_eq_or_imp, forall_eq]
    exact ⟨⟨9 / 10, rfl, by norm_num, by norm_num⟩, 4 / 5, rfl, by norm_num, by norm_num⟩
  · decide +kernel

end EDR
end GoMetrics
