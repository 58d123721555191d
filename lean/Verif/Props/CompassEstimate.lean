import Verif.Proofs.CompassEstimate
import Verif.Props.Estimate
import Verif.Props.CompassType
import Verif.Props.EDRTwice
/-! # C118: what the snapshot of a compass says about the durations recorded -/
namespace GoMetrics
open Rounding Spec Estimate
open Compass hiding new

section
variable (R : Rounding) (A : EDR.Arith) (n : Nat) (I maxErr maxAdd : Int) (ne : NewEnv) (re : ResEnv)

/-- Compasses with a uniform reservoir after the calls `h`: one for every table of `k` random words for each recording call after the first 1024
with which the search for a position ends in all of them. -/
def compasses (k : Nat) (h : List TCall) : List (Compass AnyReservoir) :=
  ((wordTables (2 ^ 63) k ((durations h).length - 1024)).filter fun t => returns (UniformReservoir.new 1024) (worded 1024 (durations h) t)).map fun t =>
    trun R A (newWithType A 1 n I maxErr maxAdd ne re) (reword h (List.replicate 1024 [] ++ t.map fun row => row.map fun (r : Nat) => (r : Int)))

variable (hI : 1000000000 ≤ I)
include hI

/-- **C118.** The snapshots of these compasses are the snapshots of uniform reservoirs of capacity 1024 that recorded the durations. -/
theorem C118_uniform (k : Nat) (h : List TCall) (hl : 1024 ≤ (durations h).length) (env : SnapEnv) :
    (compasses R A n I maxErr maxAdd ne re k h).map (fun c => c.getSnapshot A env) =
      (reservoirs 1024 k (durations h)).map fun u => some (.uniform u.getSnapshot) := by
  unfold compasses reservoirs
  rw [List.map_map, List.map_map]
  refine List.map_congr_left fun t ht => ?_
  have hlen := ((mem_wordTables _ _ _ t).1 (List.mem_filter.1 ht).1).1
  simp only [Function.comp]
  unfold getSnapshot
  rw [trun_uniform R A _ (UniformReservoir.new 1024) rfl (by show I ≠ 0; omega) (by show 1000000000 ≤ I; exact hI),
    uniform_reword _ _ _ (by rw [List.length_append, List.length_replicate, List.length_map, hlen]; omega)]
  rfl

theorem share_compasses (k : Nat) (h : List TCall) (hl : 1024 ≤ (durations h).length) (env : SnapEnv) (P : Option AnySnapshot → Bool) :
    share (compasses R A n I maxErr maxAdd ne re k h) (fun c => P (c.getSnapshot A env)) =
      share (reservoirs 1024 k (durations h)) (fun u => P (some (.uniform u.getSnapshot))) := by
  have e := C118_uniform R A n I maxErr maxAdd ne re hI k h hl env
  have e1 := congrArg (List.countP P) e
  have e2 := congrArg List.length e
  rw [List.countP_map, List.countP_map] at e1
  rw [List.length_map, List.length_map] at e2
  unfold share
  rw [← e2]
  simp only [Function.comp_def] at e1
  rw [e1]

theorem average_compasses (k : Nat) (h : List TCall) (hl : 1024 ≤ (durations h).length) (env : SnapEnv) (F : Option AnySnapshot → ℚ) :
    Estimate.average (compasses R A n I maxErr maxAdd ne re k h) (fun c => F (c.getSnapshot A env)) =
      Estimate.average (reservoirs 1024 k (durations h)) (fun u => F (some (.uniform u.getSnapshot))) := by
  have e := C118_uniform R A n I maxErr maxAdd ne re hI k h hl env
  have e1 := congrArg (fun l => (l.map F).sum) e
  have e2 := congrArg List.length e
  simp only [List.map_map] at e1
  rw [List.length_map, List.length_map] at e2
  unfold Estimate.average
  rw [← e2]
  simp only [Function.comp_def] at e1
  rw [e1]

/-- **C118.** There are such compasses (with one word or more for each call), ... -/
theorem C118_some (k : Nat) (hk : 1 ≤ k) (h : List TCall) (hl : 1024 ≤ (durations h).length) (hl' : (durations h).length < 2 ^ 63) :
    0 < (compasses R A n I maxErr maxAdd ne re k h).length := by
  have e := congrArg List.length (C118_uniform R A n I maxErr maxAdd ne re hI k h hl ⟨0, 0, [], ⟨0, 0, 0, 0, 0⟩⟩)
  rw [List.length_map, List.length_map] at e
  rw [e]
  exact C116_some 1024 k (durations h) hk hl hl'

/-- **C118.** ... and on average over them the mean of the values in the snapshot is the mean of the durations recorded. -/
theorem C118_mean (k : Nat) (hk : 1 ≤ k) (h : List TCall) (hl : 1024 ≤ (durations h).length) (hl' : (durations h).length < 2 ^ 63) (env : SnapEnv) :
    Estimate.average (compasses R A n I maxErr maxAdd ne re k h) (fun c => mean (valuesIn (c.getSnapshot A env))) = mean (durations h) := by
  rw [average_compasses R A n I maxErr maxAdd ne re hI k h hl env (fun s => mean (valuesIn s))]
  exact C116_mean 1024 k (durations h) hk (by norm_num) hl hl'

/-- **C118.** The mean in the snapshot is off by `t` or more in at most `variance / (1024 t²)` of them. -/
theorem C118_mean_error (k : Nat) (hk : 1 ≤ k) (h : List TCall) (hl : 1024 ≤ (durations h).length) (hl' : (durations h).length < 2 ^ 63) (env : SnapEnv)
    (t : ℚ) (ht : 0 < t) :
    share (compasses R A n I maxErr maxAdd ne re k h) (fun c => decide (t ≤ |mean (valuesIn (c.getSnapshot A env)) - mean (durations h)|)) ≤
      Estimate.variance (durations h) / (1024 * t ^ 2) := by
  rw [share_compasses R A n I maxErr maxAdd ne re hI k h hl env (fun s => decide (t ≤ |mean (valuesIn s) - mean (durations h)|))]
  exact_mod_cast C116_mean_error 1024 k (durations h) hk (by norm_num) hl hl' t ht

/-- **C118.** Any quantile the snapshot reports is a quantile of the durations recorded up to 5.2 percentage points, except in 1 of 80 of them. -/
theorem C118_percentile (hR : R.Lawful) (hR' : R.Ints) (k : Nat) (h : List TCall) (hl : 1024 ≤ (durations h).length) (hl' : (durations h).length < 2 ^ 63)
    (hv : ∀ v ∈ durations h, |v| < 2 ^ 52) (env : SnapEnv) (q : ℚ) (hq0 : 0 ≤ q) (hq1 : q ≤ 1) :
    ∃ reported : Option AnySnapshot → ℚ,
      (∀ c ∈ compasses R A n I maxErr maxAdd ne re k h, ∃ s, c.getSnapshot A env = some (.uniform s) ∧
        s.getValue R (.fin q) = .ok (.fin (reported (c.getSnapshot A env)))) ∧
      share (compasses R A n I maxErr maxAdd ne re k h) (fun c => decide (¬ IsQuantile (durations h) q (52 / 1000) (reported (c.getSnapshot A env)))) ≤ 1 / 80 := by
  obtain ⟨rep, h1, h2⟩ := C116_default R hR hR' k (durations h) hl hl' hv q hq0 hq1
  classical
  have e := C118_uniform R A n I maxErr maxAdd ne re hI k h hl env
  refine ⟨fun s => match s with
    | some (.uniform s) => match s.getValue R (.fin q) with | .ok (.fin r) => r | _ => 0
    | _ => 0, fun c hc => ?_, ?_⟩
  · have : c.getSnapshot A env ∈ (reservoirs 1024 k (durations h)).map fun u => some (.uniform u.getSnapshot) := by
      rw [← e]; exact List.mem_map.2 ⟨c, hc, rfl⟩
    obtain ⟨u, hu, hcu⟩ := List.mem_map.1 this
    refine ⟨u.getSnapshot, hcu.symm, ?_⟩
    simp only [← hcu, h1 u hu]
  · rw [share_compasses R A n I maxErr maxAdd ne re hI k h hl env (fun s => decide (¬ IsQuantile (durations h) q (52 / 1000) (match s with
      | some (.uniform s) => match s.getValue R (.fin q) with | .ok (.fin r) => r | _ => 0
      | _ => 0)))]
    refine le_trans (share_mono _ fun u hu hb => ?_) h2
    simpa only [h1 u hu] using hb
end

section
variable (R : Rounding) (A : EDR.Arith) (b : ℚ) (hA : A.Exact (15 / 1000) b) (rtype : Int) (h0 : rtype ≠ 0) (h1 : rtype ≠ 1) (n : Nat) (I maxErr maxAdd : Int)
  (ne : NewEnv) (re : ResEnv) (hI : 1000000000 ≤ I) (h : List TCall) (env : SnapEnv) (ht : InI64 re.time) (hr : ∀ t ∈ EDR.readings (sampling h), InI64 t)
  (ht' : InI64 env.scaleTime) (hm : (re.time :: EDR.scaleTimes (sampling h) ++ [env.scaleTime]).Pairwise (· ≤ ·)) (hn : (h.length : Int) + 1 < 9223372036854775808)
  (N : Nat) (hN : 0 < N) (cp : (Fin (durations h).length → Fin N) → List WeightedSample)

include h0 h1 hI in
theorem edr_reservoir (h : List TCall) :
    (trun R A (newWithType A rtype n I maxErr maxAdd ne re) h).reservoir = .edr (EDR.run A (EDR.new 1028 (A.R.rnd (15 / 1000)) re.time re.tick) (sampling h)) := by
  refine trun_edr R A _ _ ?_ (by show I ≠ 0; omega) (by show 1000000000 ≤ I; exact hI) h
  show reservoirFor A rtype n I re = _
  unfold reservoirFor edrDefaultAlpha
  by_cases h2 : rtype = exponentiallyDecayingReservoirType
  · rw [if_pos h2]
  · rw [if_neg h2, if_neg (show ¬ rtype = bucketReservoirType from h0), if_neg (show ¬ rtype = uniformReservoirType from h1)]

theorem redraw_append_snapshot (l : List EDR.Op) (us : List ℚ) (hl : us.length = (EDR.recorded l).length) (t t' : Int) :
    EDR.redraw (l ++ [.getSnapshot t t']) us = EDR.redraw l us ++ [.getSnapshot t t'] := by
  induction l generalizing us with
  | nil => cases us <;> rfl
  | cons o l ih =>
    cases o with
    | updateN e v =>
      cases us with
      | nil => simp [EDR.recorded] at hl
      | cons u us => simp only [List.cons_append, EDR.redraw]; rw [ih us (by simpa [EDR.recorded] using hl)]
    | getSnapshot a b =>
      cases us <;> simp only [List.cons_append, EDR.redraw] <;> rw [ih _ (by simpa [EDR.recorded] using hl)]

theorem sampling_length (h : List TCall) : (sampling h).length ≤ h.length := by
  induction h with
  | nil => exact le_rfl
  | cons o h ih =>
    cases o with
    | snapshot env => simp only [sampling, List.length_cons]; omega
    | call env op => 
      have e1 : sampling (.call env op :: h) = match op.duration? with | some d => .updateN env.x.edr d :: sampling h | none => sampling h := rfl
      rw [e1]
      cases op.duration? <;> simp only [List.length_cons] <;> omega

theorem recorded_append (l l' : List EDR.Op) : EDR.recorded (l ++ l') = EDR.recorded l ++ EDR.recorded l' := by
  induction l with
  | nil => rfl
  | cons o l ih => cases o <;> simp [EDR.recorded, ih]

theorem readings_append (l l' : List EDR.Op) : EDR.readings (l ++ l') = EDR.readings l ++ EDR.readings l' := by
  induction l with
  | nil => rfl
  | cons o l ih => cases o <;> simp [EDR.readings, ih]

theorem scaleTimes_append (l l' : List EDR.Op) : EDR.scaleTimes (l ++ l') = EDR.scaleTimes l ++ EDR.scaleTimes l' := by
  induction l with
  | nil => rfl
  | cons o l ih => cases o <;> simp [EDR.scaleTimes, ih]

theorem seconds_append (l l' : List EDR.Op) : EDR.seconds (l ++ l') = EDR.seconds l ++ EDR.seconds l' := by
  induction l with
  | nil => rfl
  | cons o l ih => cases o <;> simp [EDR.seconds, ih]

include hA h0 h1 hI ht hr ht' hm hn hN

/-- **C118.** A compass of any other type but the bucket one, all of whose calls fall in the same second: the values in its snapshot, in no particular order, are as good as those in
the snapshot of a uniform reservoir of capacity 1028 - whatever is asked of them, the chances are the same up to a term for draws of zero and ties. -/
theorem C118_decaying (hcp : ∀ us r, (trun R A (newWithType A rtype n I maxErr maxAdd ne re) (redrawn h (EDR.gridDraws us))).reservoir = .edr r →
      WeightedSnapshot.IsSorted (EDR.afterSnapshot A r env.tick env.scaleTime).getValues (cp us))
    (hsame : ∀ s ∈ EDR.seconds (sampling h), ∀ s' ∈ EDR.seconds (sampling h), s = s') (hfull : 1028 ≤ (durations h).length) (P : List Int → Bool)
    (hP : ∀ l m : List Int, l.Perm m → P l = P m) (words : Nat) (hw : 1 ≤ words) :
    |EDR.chance (durations h).length N (fun us => P (valuesIn ((trun R A (newWithType A rtype n I maxErr maxAdd ne re) (redrawn h (EDR.gridDraws us))).getSnapshot A
        { env with sorted := cp us })) = true) -
      share (reservoirs 1028 words (durations h)) (fun u => P u.getSnapshot.getValues)| ≤ (durations h).length ^ 2 / N := by
  have hsl := sampling_length h
  have hrec : EDR.recorded (sampling h ++ [.getSnapshot env.tick env.scaleTime]) = durations h := by
    rw [recorded_append, durations_sampling]; simp [EDR.recorded]
  have key := C117_as_uniform A (15 / 1000) b hA 1028 (by norm_num) re.time re.tick (sampling h ++ [.getSnapshot env.tick env.scaleTime]) ht
    (by
      rw [readings_append]
      intro t htm
      rcases List.mem_append.1 htm with hx | hx
      · exact hr t hx
      · simp only [EDR.readings, List.mem_singleton] at hx; rw [hx]; exact ht')
    (by rw [scaleTimes_append]; exact hm)
    (by rw [List.length_append]; simp only [List.length_singleton]; push_cast; omega) N hN
    (by rw [seconds_append]; simpa [EDR.seconds] using hsame) (by rw [hrec]; exact hfull) P hP words hw
  rw [hrec] at key
  have e2 : ∀ u : UniformReservoir, P u.getSnapshot.getValues = P u.values := fun u => hP _ _ (UniformSnapshot.perm_new _)
  simp only [e2]
  have e1 : ∀ us : Fin (durations h).length → Fin N,
      P (valuesIn ((trun R A (newWithType A rtype n I maxErr maxAdd ne re) (redrawn h (EDR.gridDraws us))).getSnapshot A { env with sorted := cp us })) =
      P (EDR.holding A 1028 (.fin (15 / 1000)) re.time re.tick (EDR.redraw (sampling h ++ [.getSnapshot env.tick env.scaleTime]) (EDR.gridDraws us))) := by
    intro us
    apply hP
    have hres := edr_reservoir R A rtype h0 h1 n I maxErr maxAdd ne re hI (redrawn h (EDR.gridDraws us))
    have hs := hcp us _ hres
    unfold getSnapshot
    rw [hres]
    rw [sampling_redrawn h _ (by simp [EDR.gridDraws])] at hs ⊢
    unfold EDR.holding
    rw [redraw_append_snapshot _ _ (by rw [durations_sampling]; simp [EDR.gridDraws]), EDR.run_snoc]
    have hrnd : A.R.rnd (15 / 1000) = .fin (15 / 1000) := by rw [hA.rnd]; rfl
    rw [hrnd] at hs ⊢
    simp only [EDR.step, Res.state_ok, valuesIn, EDR.getSnapshot, WeightedSnapshot.getValues]
    generalize (EDR.afterSnapshot A _ env.tick env.scaleTime).getValues = vs at *
    unfold WeightedSnapshot.new
    by_cases hz : vs.length = 0
    · rw [if_pos hz, List.length_eq_zero_iff.1 hz]; exact List.Perm.refl _
    · rw [if_neg hz]; exact hs.1.map _
  simp only [e1]
  exact key

end

/-- `m` calls of `Update(5ms)`, `GetMeanRate` in between, all at the time 1000. -/
def busy : Nat → List TCall
  | 0 => []
  | m + 1 => .call (fairEnv 1000) (.update 5000000) :: .call (fairEnv 1000) .readRate :: busy m

theorem busy_durations (m : Nat) : durations (busy m) = List.replicate m 5000000 := by
  induction m with
  | zero => rfl
  | succ m ih => simp only [busy, durations, Op.duration?, ih]; rfl

theorem busy_length (m : Nat) : (busy m).length = 2 * m := by
  induction m with
  | zero => rfl
  | succ m ih => simp only [busy, List.length_cons, ih]; omega

theorem busy_sampling (m : Nat) : sampling (busy m) = List.replicate m (.updateN ⟨0, 1000, 1000, .fin (1 / 2)⟩ 5000000) := by
  induction m with
  | zero => rfl
  | succ m ih => simp only [busy, sampling, Op.duration?, ih]; rfl

/-- After 5000 calls, with float64 arithmetic: the 99th percentile of the snapshot. -/
example (k : Nat) (env : SnapEnv) :=
  C118_percentile .binary64 EDR.demo 60 1000000000 20 20 ⟨0, 0, 0⟩ ⟨0, 0, 0⟩ (by norm_num) binary64_lawful binary64_ints k (busy 5000)
    (by rw [busy_durations, List.length_replicate]; norm_num) (by rw [busy_durations, List.length_replicate]; norm_num) (by rw [busy_durations]; intro v hv; rw [List.eq_of_mem_replicate hv]; norm_num) env (99 / 100)
    (by norm_num) (by norm_num)

/-- Exact arithmetic in which `exp (0.015 t)` is `1.015^t`. -/
def slow : EDR.Arith where
  R := .exact
  exp x := match x with
    | .fin q => .fin ((1015 / 1000) ^ ⌊q / (15 / 1000)⌋)
    | x => x

theorem slow_exact : slow.Exact (15 / 1000) (1015 / 1000) where
  rnd := rfl
  base := by norm_num
  exp t := by
    simp only [slow]
    rw [mul_div_cancel_left₀ _ (by norm_num : (15 / 1000 : ℚ) ≠ 0), Int.floor_intCast]

/-- The hypotheses of `C118_decaying` are met: 5000 calls in one second, and a sort that sorts. -/
example : ∃ cp : (Fin (durations (busy 5000)).length → Fin (2 ^ 53)) → List WeightedSample,
    |EDR.chance (durations (busy 5000)).length (2 ^ 53) (fun us => decide ((valuesIn ((trun .binary64 slow (newWithType slow 2 60 1000000000 20 20 ⟨0, 0, 0⟩ ⟨1000, 0, 0⟩)
        (redrawn (busy 5000) (EDR.gridDraws us))).getSnapshot slow ⟨0, 2000, cp us, ⟨0, 0, 0, 0, 0⟩⟩)).count 5000000 = 1028) = true) -
      share (reservoirs 1028 1 (durations (busy 5000))) (fun u => decide (u.getSnapshot.getValues.count 5000000 = 1028))| ≤
      ((durations (busy 5000)).length : ℚ) ^ 2 / (2 ^ 53 : Nat) := by
  have hex : ∀ us : Fin (durations (busy 5000)).length → Fin (2 ^ 53), ∃ cp : List WeightedSample, ∀ r : EDR,
      (trun .binary64 slow (newWithType slow 2 60 1000000000 20 20 ⟨0, 0, 0⟩ ⟨1000, 0, 0⟩) (redrawn (busy 5000) (EDR.gridDraws us))).reservoir = .edr r →
      WeightedSnapshot.IsSorted (EDR.afterSnapshot slow r 0 2000).getValues cp := by
    intro us
    generalize (trun .binary64 slow (newWithType slow 2 60 1000000000 20 20 ⟨0, 0, 0⟩ ⟨1000, 0, 0⟩) (redrawn (busy 5000) (EDR.gridDraws us))).reservoir = x
    cases x with
    | uniform u => exact ⟨[], fun r hr => by simp at hr⟩
    | bucket u => exact ⟨[], fun r hr => by simp at hr⟩
    | edr r =>
      refine ⟨(EDR.afterSnapshot slow r 0 2000).getValues.mergeSort (fun a b => decide (a.value ≤ b.value)), fun r' hr' => ?_⟩
      simp only [AnyReservoir.edr.injEq] at hr'
      subst hr'
      refine ⟨List.mergeSort_perm _ _, ?_⟩
      have := List.pairwise_mergeSort (le := fun a b : WeightedSample => decide (a.value ≤ b.value)) (by intro a b c; simp; omega) (by intro a b; simp; omega)
        (EDR.afterSnapshot slow r 0 2000).getValues
      exact this.imp (by simp)
  choose cp hcp using hex
  refine ⟨cp, ?_⟩
  refine C118_decaying .binary64 slow _ slow_exact 2 (by norm_num) (by norm_num) 60 1000000000 20 20 ⟨0, 0, 0⟩ ⟨1000, 0, 0⟩ (by norm_num) (busy 5000)
    ⟨0, 2000, [], ⟨0, 0, 0, 0, 0⟩⟩ (by decide) ?_ (by decide) ?_ ?_ (2 ^ 53) (by norm_num) cp hcp ?_ ?_ (fun l => decide (l.count 5000000 = 1028))
    (fun l m hlm => by rw [hlm.count_eq]) 1 le_rfl
  · rw [busy_sampling]
    have : ∀ m, ∀ t ∈ EDR.readings (List.replicate m (.updateN ⟨0, 1000, 1000, .fin (1 / 2)⟩ 5000000)), InI64 t := by
      intro m
      induction m with
      | zero => intro t ht; simp [EDR.readings] at ht
      | succ m ih =>
        intro t ht
        rw [List.replicate_succ] at ht
        simp only [EDR.readings, List.mem_cons] at ht
        rcases ht with rfl | rfl | ht
        · decide
        · decide
        · exact ih t ht
    exact this 5000
  · rw [busy_sampling]
    have : ∀ m, EDR.scaleTimes (List.replicate m (.updateN ⟨0, 1000, 1000, .fin (1 / 2)⟩ 5000000)) = List.replicate m 1000 := by
      intro m
      induction m with
      | zero => rfl
      | succ m ih => rw [List.replicate_succ]; simp only [EDR.scaleTimes, ih]; rfl
    rw [this]
    show (List.replicate 5001 (1000 : Int) ++ [2000]).Pairwise (· ≤ ·)
    rw [List.pairwise_append]
    refine ⟨List.pairwise_replicate.2 (.inr le_rfl), List.pairwise_singleton _ _, fun a ha b hb => ?_⟩
    rw [List.eq_of_mem_replicate ha, List.mem_singleton.1 hb]; norm_num
  · rw [busy_length]; norm_num
  · rw [busy_sampling]
    have : ∀ m, ∀ s ∈ EDR.seconds (List.replicate m (.updateN ⟨0, 1000, 1000, .fin (1 / 2)⟩ 5000000)), s = 1 := by
      intro m
      induction m with
      | zero => intro t ht; simp [EDR.seconds] at ht
      | succ m ih =>
        intro t ht
        rw [List.replicate_succ] at ht
        simp only [EDR.seconds, List.mem_cons] at ht
        rcases ht with rfl | ht
        · decide
        · exact ih t ht
    intro s hs s' hs'
    rw [this _ s hs, this _ s' hs']
  · rw [busy_durations, List.length_replicate]; norm_num

end GoMetrics
