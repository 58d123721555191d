import Verif.Model.Fused
import Mathlib.Data.List.Zip
/-! # Property C104: nothing fused, and nothing to fuse

The functions with a choice per place are the functions of the other models if nothing is fused, and on snapshots with too few values for a statistic the choices
do not matter. -/
namespace GoMetrics

/-- A loop over the elements with their positions that does not look at the positions. -/
theorem foldl_zipIdx {α β : Type} (f : β → α → β) (b : β) (l : List α) (k : Nat) : (l.zipIdx k).foldl (fun s p => f s p.1) b = l.foldl f b := by
  induction l generalizing b k with
  | nil => rfl
  | cons a l ih => rw [List.zipIdx_cons, List.foldl_cons, List.foldl_cons, ih]

/-- **C104.** A moving average none of whose ticks is compiled to a fused operation is the one of the other properties, after every history. -/
theorem C104_unfused_average (R : Rounding) (e : EWMA) (h : List EWMA.Op) : e.runF R (h.map fun o => (false, o)) = e.run R h := by
  induction h generalizing e with
  | nil => rfl
  | cons o h ih =>
    simp only [List.map_cons, EWMA.runF, EWMA.run, List.foldl_cons] at ih ⊢
    have : e.stepF R (false, o) = e.step R o := by cases o <;> rfl
    rw [this]
    exact ih _

/-- A history with updates and ticks. -/
example : (EWMA.new (.fin (1 / 2)) 1).runF .exact ([.update 4, .tick, .update 8, .tick].map fun o => (false, o)) =
    (EWMA.new (.fin (1 / 2)) 1).run .exact [.update 4, .tick, .update 8, .tick] := C104_unfused_average _ _ _

/-- **C104.** So are the percentiles of a uniform snapshot. -/
theorem C104_unfused_percentile (R : Rounding) (u : UniformSnapshot) (q : F64) : u.getValueF R false false q = u.getValue R q := rfl

/-- **C104.** So is the standard deviation of a uniform snapshot. -/
theorem C104_unfused_stddev (R : Rounding) (sqrt : F64 → F64) (u : UniformSnapshot) : u.getStdDevF R (fun _ => false) sqrt = u.getStdDev R sqrt := by
  have e : ∀ m l, UniformSnapshot.diffSumF R (fun _ => false) m l = UniformSnapshot.diffSum R m l := fun m l =>
    foldl_zipIdx (fun s v => F64.add R s (F64.mul R (F64.sub R (F64.ofInt R v) m) (F64.sub R (F64.ofInt R v) m))) _ l 0
  unfold UniformSnapshot.getStdDevF UniformSnapshot.getStdDev UniformSnapshot.varianceF UniformSnapshot.variance
  rw [e]

theorem weightedSum_foldl (R : Rounding) (a : F64) (l : List (Int × F64)) :
    WeightedSnapshot.weightedSum R a l = l.foldl (fun s p => F64.add R s (F64.mul R (F64.ofInt R p.1) p.2)) a := by
  induction l generalizing a with
  | nil => rfl
  | cons p l ih => obtain ⟨v, w⟩ := p; rw [WeightedSnapshot.weightedSum, List.foldl_cons, ih]

theorem varianceSum_foldl (R : Rounding) (m a : F64) (l : List (Int × F64)) :
    WeightedSnapshot.varianceSum R m a l =
      l.foldl (fun s p => F64.add R s (F64.mul R (F64.mul R p.2 (F64.sub R (F64.ofInt R p.1) m)) (F64.sub R (F64.ofInt R p.1) m))) a := by
  induction l generalizing a with
  | nil => rfl
  | cons p l ih => obtain ⟨v, w⟩ := p; rw [WeightedSnapshot.varianceSum, List.foldl_cons, ih]

/-- **C104.** So is the mean of a weighted snapshot. -/
theorem C104_unfused_weighted_mean (R : Rounding) (w : WeightedSnapshot) : w.getMeanF R (fun _ => false) = w.getMean R := by
  have e : ∀ l, WeightedSnapshot.weightedSumF R (fun _ => false) l = WeightedSnapshot.weightedSum R (.fin 0) l := fun l =>
    (foldl_zipIdx (fun s (p : Int × F64) => F64.add R s (F64.mul R (F64.ofInt R p.1) p.2)) _ l 0).trans (weightedSum_foldl R _ l).symm
  unfold WeightedSnapshot.getMeanF WeightedSnapshot.getMean
  rw [e]

/-- **C104.** So is the standard deviation of a weighted snapshot. -/
theorem C104_unfused_weighted_stddev (R : Rounding) (sqrt : F64 → F64) (w : WeightedSnapshot) :
    w.getStdDevF R (fun _ => false) (fun _ => false) sqrt = w.getStdDev R sqrt := by
  have e : ∀ m l, WeightedSnapshot.varianceSumF R (fun _ => false) m l = WeightedSnapshot.varianceSum R m (.fin 0) l := fun m l =>
    (foldl_zipIdx (fun s (p : Int × F64) => F64.add R s (F64.mul R (F64.mul R p.2 (F64.sub R (F64.ofInt R p.1) m)) (F64.sub R (F64.ofInt R p.1) m))) _ l 0).trans
      (varianceSum_foldl R m _ l).symm
  unfold WeightedSnapshot.getStdDevF WeightedSnapshot.getStdDev WeightedSnapshot.varianceF WeightedSnapshot.variance
  rw [C104_unfused_weighted_mean, e]

/-- **C104.** With no value, whatever is fused: a percentile of a uniform snapshot is 0 and so is its standard deviation; the mean of a weighted snapshot is 0 with an
error and its standard deviation 0 without one. -/
theorem C104_empty (R : Rounding) (fr su : Bool) (fm fused : Nat → Bool) (sqrt : F64 → F64) (q : ℚ) (h0 : 0 ≤ q) (h1 : q ≤ 1) (cp : List WeightedSample) (hcp : cp.Perm []) :
    (UniformSnapshot.new []).getValueF R fr su (.fin q) = .ok (.fin 0) ∧ (UniformSnapshot.new []).getStdDevF R fused sqrt = .fin 0 ∧
      (WeightedSnapshot.new R [] cp).getMeanF R fm = .err (.fin 0) ∧ (WeightedSnapshot.new R [] cp).getStdDevF R fm fused sqrt = .ok (.fin 0) := by
  have hcp := hcp.eq_nil
  subst hcp
  refine ⟨?_, rfl, rfl, rfl⟩
  have : badQuantile (.fin q) = false := by
    have g0 : ¬ F64.lt (.fin q) (.fin 0) := not_lt.2 h0
    have g1 : ¬ F64.lt (.fin 1) (.fin q) := not_lt.2 h1
    simp [badQuantile, F64.isNaN, g0, g1]
  unfold UniformSnapshot.getValueF
  rw [this]
  rfl

/-- **C104.** With one value, the standard deviations are 0. -/
theorem C104_single (R : Rounding) (fm fused : Nat → Bool) (sqrt : F64 → F64) (v : Int) (s : WeightedSample) :
    (UniformSnapshot.new [v]).getStdDevF R fused sqrt = .fin 0 ∧ (WeightedSnapshot.new R [s] [s]).getStdDevF R fm fused sqrt = .ok (.fin 0) := ⟨rfl, rfl⟩

/-- **C104.** Whatever is fused, a weighted snapshot has a mean, without an error, exactly if it has a value. -/
theorem C104_weighted_mean_error (R : Rounding) (fm : Nat → Bool) (w : WeightedSnapshot) :
    ((∃ x, w.getMeanF R fm = .err x) ↔ w.values = []) ∧ w.getMeanF R fm ≠ .panic := by
  unfold WeightedSnapshot.getMeanF
  by_cases h : w.values = []
  · rw [if_pos (by rw [h]; rfl)]; exact ⟨⟨fun _ => h, fun _ => ⟨_, rfl⟩⟩, by simp⟩
  · rw [if_neg (by simpa using h)]; exact ⟨⟨(by rintro ⟨x, hx⟩; cases hx), fun k => absurd k h⟩, by simp⟩

end GoMetrics
