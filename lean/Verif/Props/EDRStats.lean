import Verif.Props.EDR
/-! # C75: what the statistics of a decaying reservoir mean -/
namespace GoMetrics
open Rounding
namespace EDR

theorem scaleTimes_append (h h' : List Op) : scaleTimes (h ++ h') = scaleTimes h ++ scaleTimes h' := by
  induction h with
  | nil => rfl
  | cons o h ih => cases o <;> simp [scaleTimes, ih]

theorem readings_append (h h' : List Op) : readings (h ++ h') = readings h ++ readings h' := by
  induction h with
  | nil => rfl
  | cons o h ih => cases o <;> simp [readings, ih]

theorem wt_relative {b : ℚ} (hb : 0 < b) (L : Int) (e : Rec) : WeightedSnapshot.wt (relative b L e) = e.weight b * b ^ (-L) := by
  simp only [WeightedSnapshot.wt, relative, Rec.weight, sub_eq_add_neg, zpow_add₀ hb.ne']

/-- **C75.** Exact arithmetic, a clock that does not go back, positive draws, no two equal priorities, at least one update: the snapshot a
`GetSnapshot` call returns has one value per kept update - the `size` updates with the highest priorities `b ^ ts / u` -, its mean is the
average of those values in which an update counts `b` times as much as one a second older, and its variance the corresponding weighted
variance. No landmark, no rescale and no order of the sort appears in the result. -/
theorem C75_statistics (A : Arith) (a b : ℚ) (hA : A.Exact a b) (size : Int) (hsz : 1 ≤ size) (time tick : Int) (h : List Op) (tick' time' : Int)
    (ht : InI64 time) (hr : ∀ t ∈ readings h, InI64 t) (ht' : InI64 time') (hm : (time :: scaleTimes h ++ [time']).Pairwise (· ≤ ·))
    (hu : ∀ u ∈ draws h, ∃ q : ℚ, u = .fin q ∧ 0 < q) (hd : ((recs h).map (Rec.prio b)).Nodup)
    (hn : (h.length : Int) + 1 < 9223372036854775808) (hsome : recs h ≠ []) (cp : List WeightedSample)
    (hcp : WeightedSnapshot.IsSorted (afterSnapshot A (run A (new size (.fin a) time tick) h) tick' time').getValues cp) :
    let snap := getSnapshot A (run A (new size (.fin a) time tick) h) tick' time' cp
    ∃ kept, TopK b size (recs h) kept ∧ snap.getValues.Perm (kept.map (·.value)) ∧ snap.size = min ((recs h).length : Int) size ∧
      ∃ m : ℚ, snap.getMean A.R = .ok (.fin m) ∧
        m = (kept.map fun e => (e.value : ℚ) * b ^ e.ts).sum / (kept.map fun e => b ^ e.ts).sum ∧
        snap.variance A.R = .fin ((kept.map fun e => b ^ e.ts * ((e.value : ℚ) - m) ^ 2).sum / (kept.map fun e => b ^ e.ts).sum) := by
  intro snap
  have hst : scaleTimes (h ++ [.getSnapshot tick' time']) = scaleTimes h ++ [time'] := by rw [scaleTimes_append]; rfl
  have hrd : readings (h ++ [.getSnapshot tick' time']) = readings h ++ [time'] := by rw [readings_append]; rfl
  have hdr : draws (h ++ [.getSnapshot tick' time']) = draws h := by rw [draws_append]; simp [draws]
  have hrc : recs (h ++ [.getSnapshot tick' time']) = recs h := by rw [recs_append]; simp [recs]
  obtain ⟨kept, hk, hv⟩ := C64_top A a b hA size hsz time tick (h ++ [.getSnapshot tick' time']) ht
    (by rw [hrd]; intro t ht''; rcases List.mem_append.1 ht'' with h1 | h1
        · exact hr t h1
        · rw [List.mem_singleton.1 h1]; exact ht')
    (by rw [hst]; simpa using hm) (by rw [hdr]; exact hu) (by rw [hrc]; exact hd) (by simp only [List.length_append, List.length_singleton]; push_cast; omega)
  rw [hrc] at hk
  have hrun : run A (new size (.fin a) time tick) (h ++ [.getSnapshot tick' time']) = afterSnapshot A (run A (new size (.fin a) time tick) h) tick' time' := by
    simp only [run, List.foldl_append, List.foldl_cons, List.foldl_nil]; rfl
  rw [hrun] at hv
  set r' := afterSnapshot A (run A (new size (.fin a) time tick) h) tick' time' with hr'
  have hsnap : snap = WeightedSnapshot.new exact r'.getValues cp := by
    show WeightedSnapshot.new A.R _ cp = _; rw [hA.rnd]
  have hpos : WeightedSnapshot.Positive exact r'.getValues := by rw [hv]; exact relative_positive hA.pos _ _
  have hkne : kept ≠ [] := by
    intro h0
    have h1 := hk.size
    have h2 := List.length_pos_of_ne_nil hsome
    rw [h0] at h1; simp at h1; omega
  have hne : r'.getValues ≠ [] := by rw [hv]; simpa using hkne
  have hz : b ^ (-r'.startTime) ≠ 0 := (zpow_pos hA.pos _).ne'
  obtain ⟨m, lo, hi, hmean, hmv, -⟩ := C61_mean _ cp hpos hcp hne
  obtain ⟨m', v, hmean', hvar, hvv, -⟩ := C61_variance _ cp hpos hcp hne
  have hmm : m' = m := by rw [hmean] at hmean'; simp only [Ret.ok.injEq, F64.fin.injEq] at hmean'; exact hmean'.symm
  subst hmm
  have hsum : (r'.getValues.map WeightedSnapshot.wt).sum = (kept.map fun e => b ^ e.ts).sum * b ^ (-r'.startTime) := by
    rw [hv, List.map_map, ← List.sum_map_mul_right]
    exact congrArg List.sum (List.map_congr_left fun e _ => wt_relative hA.pos _ e)
  refine ⟨kept, hk, ?_, ?_, m', ?_, ?_, ?_⟩
  · obtain ⟨hval, -⟩ := C57_values exact _ cp hcp
    rw [hsnap]
    have : (r'.getValues.map (·.value)) = kept.map (·.value) := by rw [hv, List.map_map]; rfl
    rw [← this]; exact hval
  · rw [hsnap]
    have h1 := hcp.1.length_eq
    have h2 := hk.size
    have h3 : r'.getValues.length = kept.length := by rw [hv]; simp
    have hl : r'.getValues.length ≠ 0 := by simpa using hne
    unfold WeightedSnapshot.size WeightedSnapshot.new
    rw [if_neg hl]
    simp only [List.length_map]
    omega
  · rw [hsnap, hA.rnd]; exact hmean
  · rw [hmv, hsum, hv, List.map_map]
    have : (kept.map ((fun s : WeightedSample => (s.value : ℚ) * WeightedSnapshot.wt s) ∘ relative b r'.startTime)).sum
        = (kept.map fun e => (e.value : ℚ) * b ^ e.ts).sum * b ^ (-r'.startTime) := by
      rw [← List.sum_map_mul_right]
      refine congrArg List.sum (List.map_congr_left fun e _ => ?_)
      simp only [Function.comp, wt_relative hA.pos]
      show (e.value : ℚ) * _ = _
      unfold Rec.weight; ring
    rw [this, mul_div_mul_right _ _ hz]
  · rw [hsnap, hA.rnd, hvar, hvv, hsum, hv, List.map_map]
    have : (kept.map ((fun s : WeightedSample => WeightedSnapshot.wt s * ((s.value : ℚ) - m') ^ 2) ∘ relative b r'.startTime)).sum
        = (kept.map fun e => b ^ e.ts * ((e.value : ℚ) - m') ^ 2).sum * b ^ (-r'.startTime) := by
      rw [← List.sum_map_mul_right]
      refine congrArg List.sum (List.map_congr_left fun e _ => ?_)
      simp only [Function.comp, wt_relative hA.pos]
      show _ * ((e.value : ℚ) - m') ^ 2 = _
      unfold Rec.weight; ring
    rw [this, mul_div_mul_right _ _ hz]

/-- The hypotheses are met: `history` (Props/EDR.lean) with a snapshot at 5 s. -/
example : recs history ≠ [] ∧ ((0 : Int) :: scaleTimes history ++ [5000]).Pairwise (· ≤ ·) := by decide

end EDR
end GoMetrics
