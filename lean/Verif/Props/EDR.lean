import Verif.Proofs.EDRExact
import Verif.Props.WeightedSnapshot
/-! # C63-C68: the exponentially decaying reservoir, calls that do not overlap -/
namespace GoMetrics
open Rounding
namespace EDR

/-! ## Arithmetic used in the concrete cases -/

/-- Powers of two in binary64: a lawful arithmetic (`demo_lawful`). -/
def demo : Arith where
  R := .binary64
  exp x := match x with
    | .nan => .nan
    | .inf true => .fin 0
    | .inf false => .inf false
    | .fin q => Rounding.binary64.rnd (2 ^ ⌊q⌋)

/-- Powers of two in exact arithmetic. -/
def demoExact : Arith where
  R := .exact
  exp x := match x with
    | .fin q => .fin (2 ^ ⌊q⌋)
    | x => x

theorem binary64_i64 (n : Int) (h : InI64 n) : ∃ q, F64.ofInt .binary64 n = .fin q := by
  have h2 : binary64.Rep (2 ^ (63 : Int)) := by
    have := binary64_dyadic (n := 1) (k := 63) (by norm_num) (by norm_num) (by norm_num)
    simpa [Rounding.Rep] using this
  unfold InI64 at h
  obtain ⟨v, hv, -⟩ := binary64_lawful.between (binary64_lawful.rep_neg h2) h2 (q := (n : ℚ))
    (by
      have : (-9223372036854775808 : ℚ) ≤ n := by exact_mod_cast h.1
      norm_num; linarith)
    (by
      have : (n : ℚ) ≤ 9223372036854775808 := by exact_mod_cast h.2.le
      norm_num; linarith)
  exact ⟨v, hv⟩

theorem binary64_one : binary64.rnd 1 = .fin 1 := by
  have := binary64_int (n := 1) (by norm_num)
  simpa using this

theorem demo_lawful : demo.Lawful where
  rnd := binary64_lawful
  ints := binary64_i64
  nonneg x := by
    rcases x with _ | s | q
    · exact F64.nonNeg_nan
    · cases s
      · exact F64.nonNeg_inf
      · exact F64.nonNeg_fin le_rfl
    · exact F64.nonNeg_rnd binary64_lawful (by positivity)
  not_nan x hx := by
    rcases x with _ | s | q
    · exact absurd rfl hx
    · cases s <;> simp [demo]
    · exact binary64_lawful.not_nan _
  le_one x hx := by
    rcases x with _ | s | q
    · simp [F64.le] at hx
    · cases s
      · simp [F64.le] at hx
      · simp [demo, F64.le]
    · have hq : q ≤ 0 := hx
      have := binary64_lawful.mono (2 ^ ⌊q⌋) 1 (zpow_le_one_of_nonpos₀ (by norm_num) (Int.floor_nonpos hq))
      rwa [binary64_one] at this
  one_le x hx := by
    rcases x with _ | s | q
    · simp [F64.le] at hx
    · cases s
      · simp [demo, F64.le]
      · simp [F64.le] at hx
    · have hq : 0 ≤ q := hx
      have := binary64_lawful.mono 1 (2 ^ ⌊q⌋) (one_le_zpow₀ (by norm_num) (Int.floor_nonneg.2 hq))
      rwa [binary64_one] at this

theorem demoExact_exact : demoExact.Exact 1 2 where
  rnd := rfl
  base := by norm_num
  exp t := by simp [demoExact]

/-! ## C67 -/

/-- **C67.** A reservoir with capacity at least 1 never panics: whatever history of updates and snapshots (any clock, any decay rate,
NaN included) came before, the next call returns. -/
theorem C67_no_panic (A : Arith) (hA : A.Lawful) (size : Int) (hsz : 1 ≤ size) (alpha : F64) (time tick : Int) (h : List Op) (o : Op)
    (hu : ∀ u ∈ draws (h ++ [o]), IsDraw u) : (step A (run A (new size alpha time tick) h) o).panicked = false := by
  have hu' : ∀ u ∈ draws h ++ draws [o], u.NonNeg := by
    rw [← draws_append]
    intro u hu''
    obtain ⟨q, rfl, hq, -⟩ := hu u hu''
    exact F64.nonNeg_fin hq
  obtain ⟨h1, h2⟩ := invA_run hA h _ (invA_new size alpha time tick) hsz fun u hu => hu' u (by simp [hu])
  exact (invA_step hA h1 (by rw [h2]; exact hsz) o fun u hu => hu' u (by simp [hu])).2

/-- **C67.** With capacity 0 (or less) the first update panics. -/
theorem C67_capacity_zero (A : Arith) (size : Int) (hsz : size ≤ 0) (alpha : F64) (time tick : Int) (env : Env) (v : Int)
    (hnot : env.tick < i64 (tick + rescaleThreshold)) : (updateN A (new size alpha time tick) env v).panicked = true := by
  have h1 : rescaleIfNeeded A (new size alpha time tick) env.tick env.scaleTime = new size alpha time tick := by
    unfold rescaleIfNeeded; rw [if_neg (by simp only [new]; omega)]
  have h2 : ¬ i64 ((new size alpha time tick).count + 1) ≤ (new size alpha time tick).size := by
    simp only [new, zero_add, i64_one]; omega
  unfold updateN
  simp only [h1]
  unfold record
  simp only
  rw [if_neg h2]
  rfl

/-! ## C65 -/

theorem values_step (A : Arith) {P : Int → Prop} {r : EDR} (h : ∀ x ∈ r.values, P x.value) (o : Op) (hv : ∀ v ∈ recorded [o], P v) :
    ∀ x ∈ (step A r o).state.values, P x.value := by
  have hres : ∀ tick t, ∀ x ∈ (rescaleIfNeeded A r tick t).values, P x.value := by
    intro tick t
    unfold rescaleIfNeeded
    split
    · exact values_rescaleLocked (r := { r with nextScaleTime := i64 (tick + rescaleThreshold) }) h t
    · exact h
  cases o with
  | updateN env v => exact values_record (hres env.tick env.scaleTime) (hv v (by simp [recorded]))
  | getSnapshot tick t => exact hres tick t

theorem values_run (A : Arith) (h : List Op) (r : EDR) (old : List Int) (hr : ∀ x ∈ r.values, x.value ∈ old) :
    ∀ x ∈ (run A r h).values, x.value ∈ old ++ recorded h := by
  induction h generalizing r old with
  | nil => simpa [run, recorded] using hr
  | cons o h ih =>
    have h1 := values_step A (P := fun v => v ∈ old ++ recorded [o]) (r := r) (fun x hx => by simp [hr x hx]) o (fun v hv => by simp [hv])
    have h2 := ih (step A r o).state _ h1
    intro x hx
    have := h2 x hx
    cases o <;> simpa [recorded] using this

/-- **C65.** Every value in a snapshot was recorded by an earlier update, in every arithmetic and for every clock and draws. -/
theorem C65_recorded (A : Arith) (size : Int) (alpha : F64) (time tick : Int) (h : List Op) (tick' t' : Int) (cp : List WeightedSample)
    (hcp : WeightedSnapshot.IsSorted (afterSnapshot A (run A (new size alpha time tick) h) tick' t').getValues cp) :
    ∀ v ∈ (getSnapshot A (run A (new size alpha time tick) h) tick' t' cp).getValues, v ∈ recorded h := by
  have h1 := values_run A (h ++ [.getSnapshot tick' t']) (new size alpha time tick) [] (by simp [new])
  have hrec : recorded (h ++ [.getSnapshot tick' t']) = recorded h := by
    have : ∀ l : List Op, recorded (l ++ [.getSnapshot tick' t']) = recorded l := by
      intro l; induction l with
      | nil => rfl
      | cons o l ih => cases o <;> simp [recorded, ih]
    exact this h
  rw [hrec] at h1
  simp only [run, List.foldl_append, List.foldl_cons, List.foldl_nil, step, Res.state, List.nil_append] at h1
  intro v hv
  unfold getSnapshot WeightedSnapshot.getValues WeightedSnapshot.new at hv
  split at hv
  · simp at hv
  · obtain ⟨s, hs, rfl⟩ := List.mem_map.1 hv
    exact h1 s ((List.dropWhile_sublist _).subset (hcp.1.mem_iff.1 hs))

/-- **C65.** After the reservoir was emptied (a rescale whose factor underflows to 0, see `C65_reset`), only values recorded since. -/
theorem C65_since_reset (A : Arith) (r : EDR) (hr : r.values = []) (h : List Op) :
    ∀ x ∈ (run A r h).values, x.value ∈ recorded h := by
  simpa using values_run A h r [] (by simp [hr])

/-- **C65.** A rescale whose factor is 0 empties the reservoir: no sample, `Size()` 0. -/
theorem C65_reset (A : Arith) (r : EDR) (hsz : 0 ≤ r.size) (time : Int)
    (hf : scalingFactor A r.alpha r.startTime (currentTimeInSecond time) = .fin 0) :
    (rescaleLocked A r time).values = [] ∧ (rescaleLocked A r time).getSize = 0 := by
  have h0 : F64.eq (.fin 0) (.fin 0) := ⟨by simp [F64.le], by simp [F64.le]⟩
  unfold rescaleLocked
  simp only [hf]
  rw [if_pos h0]
  refine ⟨rfl, ?_⟩
  unfold getSize
  simp only
  split
  · rfl
  · omega

/-- A history with two updates (values 7 and 9) and a rescale in between; the reservoir has capacity 1. -/
def history : List Op :=
  [.updateN ⟨0, 0, 1000, .fin (1 / 2)⟩ 7, .getSnapshot 3600000000000 3000, .updateN ⟨3600000000000, 3000, 4000, .fin (1 / 2)⟩ 9]

example : (run demoExact (new 1 (.fin 1) 0 0) history).values.map (·.value) = [9] ∧
    (run demoExact (new 2 (.fin 1) 0 0) history).values.map (·.value) = [7, 9] := by
  decide +kernel

example : ∀ u ∈ draws history, IsDraw u := by
  simp only [draws, history, List.mem_cons, List.not_mem_nil, or_false, forall_eq_or_imp, forall_eq]
  exact ⟨⟨1 / 2, rfl, by norm_num, by norm_num⟩, 1 / 2, rfl, by norm_num, by norm_num⟩

/-! ## C63 -/

theorem prio_ne_nan {A : Arith} (hA : A.Lawful) (a : ℚ) (t : Int) {u : ℚ} (hu : 0 < u) :
    priority A (weight A (.fin a) (i64 t)) (.fin u) ≠ .nan := F64.div_ne_nan hA.rnd (weight_ne_nan hA a (i64_in t)) hu

theorem invB_run {A : Arith} (hA : A.Lawful) (a : ℚ) (h : List Op) (r : EDR) (n t0 : Int) (hr : InvB r n) (hn0 : 0 ≤ n) (ha : r.alpha = .fin a)
    (hsz : 1 ≤ r.size) (hst : r.startTime = currentTimeInSecond t0)
    (hf : (t0 :: scaleTimes h).Pairwise fun s t => scalingFactor A (.fin a) (currentTimeInSecond s) (currentTimeInSecond t) ≠ .inf false)
    (hu : ∀ u ∈ draws h, ∃ q : ℚ, u = .fin q ∧ 0 < q) (hn : n + h.length < 9223372036854775808) :
    InvB (run A r h) (n + h.length) := by
  induction h generalizing r n t0 with
  | nil => simpa [run] using hr
  | cons o h ih =>
    have hf' := List.pairwise_cons.1 hf
    obtain ⟨fa, fs⟩ := step_frame (A := A) r o
    simp only [List.length_cons] at hn ⊢
    push_cast at hn ⊢
    cases o with
    | getSnapshot tick t =>
      simp only [scaleTimes, draws, List.mem_cons, forall_eq_or_imp] at *
      have h1 := invB_rescale hA hr ha (by omega) (by omega) hn0 tick t (by rw [ha, hst]; exact hf'.1.1)
      have hm2 := List.pairwise_cons.1 hf'.2
      have h2 : InvB (rescaleIfNeeded A r tick t) (n + 1) := ⟨h1.sorted, h1.keys, h1.le_size, h1.le_count, by have := h1.count_le; omega⟩
      obtain ⟨-, -, hcase⟩ := rescale_frame (A := A) r tick t
      obtain ⟨t1, hst1, hf1⟩ : ∃ t1, (rescaleIfNeeded A r tick t).startTime = currentTimeInSecond t1 ∧
          (t1 :: scaleTimes h).Pairwise fun s t => scalingFactor A (.fin a) (currentTimeInSecond s) (currentTimeInSecond t) ≠ .inf false := by
        rcases hcase with hc | hc
        · exact ⟨t0, hc.trans hst, List.pairwise_cons.2 ⟨hf'.1.2, hm2.2⟩⟩
        · exact ⟨t, hc, hf'.2⟩
      have := ih (step A r (.getSnapshot tick t)).state (n + 1) t1 h2 (by omega) (fa.trans ha) (by omega) hst1 hf1 hu (by omega)
      rw [show n + ((h.length : Int) + 1) = n + 1 + h.length by ring]
      exact this
    | updateN env v =>
      simp only [scaleTimes, draws, List.mem_cons, forall_eq_or_imp] at *
      obtain ⟨⟨u, huu, hu0⟩, hu'⟩ := hu
      have h1 := invB_rescale hA hr ha (by omega) (by omega) hn0 env.tick env.scaleTime (by rw [ha, hst]; exact hf'.1.1)
      have hm2 := List.pairwise_cons.1 hf'.2
      obtain ⟨fra, frs, hcase⟩ := rescale_frame (A := A) r env.tick env.scaleTime
      obtain ⟨t1, hst1, hf1⟩ : ∃ t1, (rescaleIfNeeded A r env.tick env.scaleTime).startTime = currentTimeInSecond t1 ∧
          (t1 :: scaleTimes h).Pairwise fun s t => scalingFactor A (.fin a) (currentTimeInSecond s) (currentTimeInSecond t) ≠ .inf false := by
        rcases hcase with hc | hc
        · exact ⟨t0, hc.trans hst, List.pairwise_cons.2 ⟨hf'.1.2, hm2.2⟩⟩
        · exact ⟨env.scaleTime, hc, hf'.2⟩
      have h2 : InvB (step A r (.updateN env v)).state (n + 1) := by
        refine invB_record h1 (by omega) (by omega) ?_ ?_ v
        · rw [huu]; exact F64.nonNeg_div hA.rnd (hA.nonneg _) (F64.nonNeg_fin hu0.le)
        · rw [huu, fra, ha]; exact prio_ne_nan hA a _ hu0
      have hst2 : (step A r (.updateN env v)).state.startTime = currentTimeInSecond t1 := by
        rw [← hst1]
        exact (record_frame _ _ _ _).2.2.1
      have := ih (step A r (.updateN env v)).state (n + 1) t1 h2 (by omega) (fa.trans ha) (by omega) hst2 hf1 hu' (by omega)
      rw [show n + ((h.length : Int) + 1) = n + 1 + h.length by ring]
      exact this

theorem invB_new (size : Int) (hsz : 0 ≤ size) (alpha : F64) (time tick : Int) : InvB (new size alpha time tick) 0 :=
  ⟨by simp [new, SkipList.Sorted], by simp [new, KeysNonNeg], by simpa [new] using hsz, by simp [new], by simp [new]⟩

theorem getSize_eq (r : EDR) : r.getSize = min r.count r.size := by unfold getSize; split <;> omega

theorem invB_sizes {r : EDR} {n : Int} (h : InvB r n) : (r.getValues.length : Int) ≤ r.size ∧ (r.getValues.length : Int) ≤ r.getSize ∧
    r.getSize = min r.count r.size := by
  have h1 := h.le_size
  have h2 := h.le_count
  rw [getValues_eq h.keys]
  refine ⟨h1, ?_, ?_⟩ <;> unfold getSize <;> split <;> omega

/-- **C63.** Never more samples than the capacity, and `Size()` is at least the number of samples held and at most the capacity: in every
lawful arithmetic, for every history with positive draws in which the landmark never moves back so far that the factor overflows. -/
theorem C63_capacity (A : Arith) (hA : A.Lawful) (size : Int) (hsz : 1 ≤ size) (a : ℚ) (time tick : Int) (h : List Op)
    (hf : (time :: scaleTimes h).Pairwise fun s t => scalingFactor A (.fin a) (s.tdiv 1000) (t.tdiv 1000) ≠ .inf false)
    (hu : ∀ u ∈ draws h, ∃ q : ℚ, u = .fin q ∧ 0 < q) (hn : (h.length : Int) < 9223372036854775808) :
    let r := run A (new size (.fin a) time tick) h
    (r.getValues.length : Int) ≤ size ∧ (r.getValues.length : Int) ≤ r.getSize ∧ r.getSize ≤ size := by
  intro r
  have h1 := invB_run hA a h _ 0 time (invB_new size (by omega) (.fin a) time tick) le_rfl rfl hsz rfl hf hu (by omega)
  obtain ⟨h2, h3, h4⟩ := invB_sizes h1
  have hs : (run A (new size (.fin a) time tick) h).size = size := by
    have : ∀ (h : List Op) (r : EDR), (run A r h).size = r.size := by
      intro h; induction h with
      | nil => intro r; rfl
      | cons o h ih => intro r; exact (ih _).trans (step_frame r o).2
    exact this h _
  rw [hs] at h2 h4
  exact ⟨h2, h3, by rw [h4]; exact min_le_right _ _⟩

/-! ## C64 -/

/-- **C64.** In exact arithmetic, with a clock that does not go back and no two equal priorities, the samples held after any history (rescales
included) are the `size` updates with the highest priorities `b ^ second / draw`, each with its own value and weight, stored relative to
the landmark in force. -/
theorem C64_top (A : Arith) (a b : ℚ) (hA : A.Exact a b) (size : Int) (hsz : 1 ≤ size) (time tick : Int) (h : List Op) (ht : InI64 time)
    (hr : ∀ t ∈ readings h, InI64 t) (hm : (time :: scaleTimes h).Pairwise (· ≤ ·)) (hu : ∀ u ∈ draws h, ∃ q : ℚ, u = .fin q ∧ 0 < q)
    (hd : ((recs h).map (Rec.prio b)).Nodup) (hn : (h.length : Int) < 9223372036854775808) :
    ∃ kept, TopK b size (recs h) kept ∧
      (run A (new size (.fin a) time tick) h).getValues = kept.map (relative b (run A (new size (.fin a) time tick) h).startTime) := by
  have hJ := J_run hA hsz h _ [] time (J_new a b size (by omega) time tick) (by simp) rfl ht hr hm hu (by simpa using hd) (by simpa using hn)
  obtain ⟨kept, hv, hk⟩ := hJ.held
  refine ⟨kept, by simpa using hk, ?_⟩
  rw [getValues_eq, hv]
  rw [hv]
  apply nonneg_rel hA.pos
  intro e he
  have := hk.mem he
  rw [List.nil_append] at this
  have hrec : ∀ l : List Op, (∀ u ∈ draws l, ∃ q : ℚ, u = .fin q ∧ 0 < q) → ∀ e ∈ recs l, 0 < e.u := by
    intro l
    induction l with
    | nil => simp [recs]
    | cons o l ih =>
      intro hl e he
      cases o with
      | updateN env v =>
        simp only [draws, recs, List.mem_cons, forall_eq_or_imp] at hl he
        rcases he with rfl | he
        · obtain ⟨q, hq, hq0⟩ := hl.1
          simp only [hq, rat]; exact hq0
        · exact ih hl.2 e he
      | getSnapshot t t' => exact ih hl e he
  exact hrec h hu e this

/-- **C63.** Without equal priorities `Size()` is the number of samples held, the smaller of the number of updates ever made and the
capacity (exact arithmetic, a clock that does not go back). -/
theorem C63_size_exact (A : Arith) (a b : ℚ) (hA : A.Exact a b) (size : Int) (hsz : 1 ≤ size) (time tick : Int) (h : List Op) (ht : InI64 time)
    (hr : ∀ t ∈ readings h, InI64 t) (hm : (time :: scaleTimes h).Pairwise (· ≤ ·)) (hu : ∀ u ∈ draws h, ∃ q : ℚ, u = .fin q ∧ 0 < q)
    (hd : ((recs h).map (Rec.prio b)).Nodup) (hn : (h.length : Int) < 9223372036854775808) :
    let r := run A (new size (.fin a) time tick) h
    r.getSize = min ((recorded h).length : Int) size ∧ (r.getValues.length : Int) = r.getSize := by
  intro r
  have hJ := J_run hA hsz h _ [] time (J_new a b size (by omega) time tick) (by simp) rfl ht hr hm hu (by simpa using hd) (by simpa using hn)
  obtain ⟨kept, hk, hv⟩ := C64_top A a b hA size hsz time tick h ht hr hm hu hd hn
  have hl : ∀ l : List Op, (recs l).length = (recorded l).length := by
    intro l; induction l with
    | nil => rfl
    | cons o l ih => cases o <;> simp [recs, recorded, ih]
  have h1 : r.getSize = min ((recorded h).length : Int) size := by
    have hc := hJ.count
    have hs := hJ.size
    rw [List.nil_append, hl] at hc
    have h0 := getSize_eq (run A (new size (.fin a) time tick) h)
    rw [hs] at h0
    exact h0.trans hc
  refine ⟨h1, ?_⟩
  rw [h1, hv, List.length_map, hk.size, hl]

theorem factor_forward {A : Arith} (hA : A.Lawful) {a : ℚ} (ha : 0 ≤ a) {s t : Int} (hs : InI64 s) (ht : InI64 t) (hst : s ≤ t) :
    scalingFactor A (.fin a) (currentTimeInSecond s) (currentTimeInSecond t) ≠ .inf false := by
  have hd := sec_diff hs ht
  have hm := sec_mono hst
  unfold scalingFactor
  rw [i64_of_in hd]
  obtain ⟨q, hq⟩ := hA.ints _ hd
  rw [hq]
  have hq0 : 0 ≤ q := by
    have := hA.rnd.mono 0 ((currentTimeInSecond t - currentTimeInSecond s : Int) : ℚ) (by exact_mod_cast (by omega))
    rw [hA.rnd.zero] at this
    unfold F64.ofInt at hq
    rw [hq] at this
    exact this
  have h1 : F64.le (F64.mul A.R (F64.fin a).neg (.fin q)) (.fin 0) := by
    have := hA.rnd.mono (-a * q) 0 (by nlinarith)
    rw [hA.rnd.zero] at this
    exact this
  have := hA.le_one _ h1
  intro h
  rw [h] at this
  simp [F64.le] at this

theorem weight_forward {A : Arith} (hA : A.Lawful) {a : ℚ} (ha : 0 ≤ a) {s t : Int} (hs : InI64 s) (ht : InI64 t) (hst : s ≤ t) :
    F64.le (.fin 1) (weight A (.fin a) (i64 (currentTimeInSecond t - currentTimeInSecond s))) := by
  have hd := sec_diff hs ht
  have hm := sec_mono hst
  unfold weight
  rw [i64_of_in hd]
  obtain ⟨q, hq⟩ := hA.ints _ hd
  rw [hq]
  have hq0 : 0 ≤ q := by
    have := hA.rnd.mono 0 ((currentTimeInSecond t - currentTimeInSecond s : Int) : ℚ) (by exact_mod_cast (by omega))
    rw [hA.rnd.zero] at this
    unfold F64.ofInt at hq
    rw [hq] at this
    exact this
  apply hA.one_le
  have := hA.rnd.mono 0 (a * q) (mul_nonneg ha hq0)
  rw [hA.rnd.zero] at this
  exact this

theorem prio_forward {R : Rounding} (hR : R.Lawful) {w : F64} (hw : F64.le (.fin 1) w) {u : ℚ} (hu : 0 ≤ u) : F64.div R w (.fin u) ≠ .nan := by
  rcases w with _ | s | x
  · simp [F64.le] at hw
  · simp [F64.div]
  · have hx : (1 : ℚ) ≤ x := hw
    simp only [F64.div]
    split
    · rw [if_neg (by linarith)]; simp
    · exact hR.not_nan _

theorem invB_forward {A : Arith} (hA : A.Lawful) (a : ℚ) (ha0 : 0 ≤ a) (h : List Op) (r : EDR) (n t0 : Int) (hr : InvB r n) (hn0 : 0 ≤ n)
    (ha : r.alpha = .fin a) (hsz : 1 ≤ r.size) (hst : r.startTime = currentTimeInSecond t0) (ht0 : InI64 t0) (hi : ∀ t ∈ readings h, InI64 t)
    (hm : (t0 :: readings h).Pairwise (· ≤ ·)) (hu : ∀ u ∈ draws h, IsDraw u) (hn : n + h.length < 9223372036854775808) :
    InvB (run A r h) (n + h.length) := by
  induction h generalizing r n t0 with
  | nil => simpa [run] using hr
  | cons o h ih =>
    have hm' := List.pairwise_cons.1 hm
    obtain ⟨fa, fs⟩ := step_frame (A := A) r o
    simp only [List.length_cons] at hn ⊢
    push_cast at hn ⊢
    rw [show n + ((h.length : Int) + 1) = n + 1 + h.length by ring]
    cases o with
    | getSnapshot tick t =>
      simp only [readings, draws, List.mem_cons, forall_eq_or_imp] at *
      have h1 := invB_rescale hA hr ha (by omega) (by omega) hn0 tick t (by rw [ha, hst]; exact factor_forward hA ha0 ht0 hi.1 hm'.1.1)
      have hm2 := List.pairwise_cons.1 hm'.2
      have h2 : InvB (rescaleIfNeeded A r tick t) (n + 1) := ⟨h1.sorted, h1.keys, h1.le_size, h1.le_count, by have := h1.count_le; omega⟩
      obtain ⟨-, -, hc | hc⟩ := rescale_frame (A := A) r tick t
      · exact ih (step A r (.getSnapshot tick t)).state (n + 1) t0 h2 (by omega) (fa.trans ha) (by omega) (hc.trans hst) ht0 hi.2
          (List.pairwise_cons.2 ⟨hm'.1.2, hm2.2⟩) hu (by omega)
      · exact ih (step A r (.getSnapshot tick t)).state (n + 1) t h2 (by omega) (fa.trans ha) (by omega) hc hi.1 hi.2 hm'.2 hu (by omega)
    | updateN env v =>
      simp only [readings, draws, List.mem_cons, forall_eq_or_imp] at *
      obtain ⟨⟨u, huu, hu0, -⟩, hu'⟩ := hu
      have h1 := invB_rescale hA hr ha (by omega) (by omega) hn0 env.tick env.scaleTime (by rw [ha, hst]; exact factor_forward hA ha0 ht0 hi.1 hm'.1.1)
      have hm2 := List.pairwise_cons.1 hm'.2
      have hm3 := List.pairwise_cons.1 hm2.2
      obtain ⟨fra, frs, hcase⟩ := rescale_frame (A := A) r env.tick env.scaleTime
      obtain ⟨t1, hst1, ht1, ht1e, hf1⟩ : ∃ t1, (rescaleIfNeeded A r env.tick env.scaleTime).startTime = currentTimeInSecond t1 ∧ InI64 t1 ∧
          t1 ≤ env.time ∧ (t1 :: readings h).Pairwise (· ≤ ·) := by
        rcases hcase with hc | hc
        · exact ⟨t0, hc.trans hst, ht0, hm'.1.2.1, List.pairwise_cons.2 ⟨hm'.1.2.2, hm3.2⟩⟩
        · exact ⟨env.scaleTime, hc, hi.1, hm2.1 _ (by simp), List.pairwise_cons.2 ⟨fun t ht => hm2.1 t (by simp [ht]), hm3.2⟩⟩
      have h2 : InvB (step A r (.updateN env v)).state (n + 1) := by
        refine invB_record h1 (by omega) (by omega) ?_ ?_ v
        · rw [huu]; exact F64.nonNeg_div hA.rnd (hA.nonneg _) (F64.nonNeg_fin hu0)
        · rw [huu, fra, ha, hst1]; exact prio_forward hA.rnd (weight_forward hA ha0 ht1 hi.2.1 ht1e) hu0
      have hst2 : (step A r (.updateN env v)).state.startTime = currentTimeInSecond t1 := by
        rw [← hst1]
        exact (record_frame _ _ _ _).2.2.1
      exact ih (step A r (.updateN env v)).state (n + 1) t1 h2 (by omega) (fa.trans ha) (by omega) hst2 ht1 hi.2.2 hf1 hu' (by omega)

theorem size_run (A : Arith) (h : List Op) (r : EDR) : (run A r h).size = r.size := by
  induction h generalizing r with
  | nil => rfl
  | cons o h ih => exact (ih _).trans (step_frame r o).2

/-- **C63.** The same for a clock that does not go back, a decay rate that is not negative, and all draws `Float64()` may return, 0
included. -/
theorem C63_forward_clock (A : Arith) (hA : A.Lawful) (size : Int) (hsz : 1 ≤ size) (a : ℚ) (ha : 0 ≤ a) (time tick : Int) (h : List Op)
    (ht : InI64 time) (hi : ∀ t ∈ readings h, InI64 t) (hm : (time :: readings h).Pairwise (· ≤ ·)) (hu : ∀ u ∈ draws h, IsDraw u)
    (hn : (h.length : Int) < 9223372036854775808) :
    let r := run A (new size (.fin a) time tick) h
    (r.getValues.length : Int) ≤ size ∧ (r.getValues.length : Int) ≤ r.getSize ∧ r.getSize ≤ size := by
  intro r
  have h1 := invB_forward hA a ha h _ 0 time (invB_new size (by omega) (.fin a) time tick) le_rfl rfl hsz rfl ht hi hm hu (by omega)
  obtain ⟨h2, h3, h4⟩ := invB_sizes h1
  rw [size_run] at h2 h4
  exact ⟨h2, h3, by rw [h4]; exact min_le_right _ _⟩

/-- The concrete case: the history above meets the hypotheses of C63 and C64. -/
theorem history_ok : InI64 0 ∧ (∀ t ∈ readings history, InI64 t) ∧ ((0 : Int) :: readings history).Pairwise (· ≤ ·) ∧
    ((0 : Int) :: scaleTimes history).Pairwise (· ≤ ·) ∧ (∀ u ∈ draws history, IsDraw u) ∧ (∀ u ∈ draws history, ∃ q : ℚ, u = .fin q ∧ 0 < q) ∧
    ((recs history).map (Rec.prio 2)).Nodup ∧
    ((0 : Int) :: scaleTimes history).Pairwise fun s t => scalingFactor demo (.fin 1) (s.tdiv 1000) (t.tdiv 1000) ≠ .inf false := by
  have hr : ∀ t ∈ readings history, InI64 t := by decide
  have hm : ((0 : Int) :: scaleTimes history).Pairwise (· ≤ ·) := by decide
  refine ⟨by decide, hr, by decide, hm, ?_, ?_, ?_, ?_⟩
  · simp only [draws, history, List.mem_cons, List.not_mem_nil, or_false, forall_eq_or_imp, forall_eq]
    exact ⟨⟨1 / 2, rfl, by norm_num, by norm_num⟩, 1 / 2, rfl, by norm_num, by norm_num⟩
  · simp only [draws, history, List.mem_cons, List.not_mem_nil, or_false, forall_eq_or_imp, forall_eq]
    exact ⟨⟨1 / 2, rfl, by norm_num⟩, 1 / 2, rfl, by norm_num⟩
  · simp only [recs, history, rat]; norm_num [Rec.prio, show Int.tdiv 4000 1000 = 4 by decide]
  · refine List.Pairwise.imp_of_mem ?_ hm
    intro s t hs ht hst
    exact factor_forward demo_lawful (by norm_num) ((by decide : ∀ t ∈ (0 : Int) :: scaleTimes history, InI64 t) s hs)
      ((by decide : ∀ t ∈ (0 : Int) :: scaleTimes history, InI64 t) t ht) hst

/-! ## C66 -/

theorem relative_positive {b : ℚ} (hb : 0 < b) (L : Int) (kept : List Rec) : WeightedSnapshot.Positive exact (kept.map (relative b L)) := by
  intro s hs
  obtain ⟨e, -, rfl⟩ := List.mem_map.1 hs
  exact ⟨b ^ (e.ts - L), rfl, zpow_pos hb _, rfl⟩

theorem start_run (A : Arith) (h : List Op) (r : EDR) (t0 : Int) (hst : r.startTime = currentTimeInSecond t0) :
    ∃ t ∈ t0 :: scaleTimes h, (run A r h).startTime = currentTimeInSecond t := by
  induction h generalizing r t0 with
  | nil => exact ⟨t0, by simp, hst⟩
  | cons o h ih =>
    cases o with
    | getSnapshot tick t =>
      obtain ⟨-, -, hc | hc⟩ := rescale_frame (A := A) r tick t
      · obtain ⟨x, hx, he⟩ := ih (step A r (.getSnapshot tick t)).state t0 (hc.trans hst)
        exact ⟨x, by simp only [scaleTimes, List.mem_cons] at hx ⊢; tauto, he⟩
      · obtain ⟨x, hx, he⟩ := ih (step A r (.getSnapshot tick t)).state t hc
        exact ⟨x, by simp only [scaleTimes, List.mem_cons] at hx ⊢; tauto, he⟩
    | updateN env v =>
      have hrec : (step A r (.updateN env v)).state.startTime = (rescaleIfNeeded A r env.tick env.scaleTime).startTime := (record_frame _ _ _ _).2.2.1
      obtain ⟨-, -, hc | hc⟩ := rescale_frame (A := A) r env.tick env.scaleTime
      · obtain ⟨x, hx, he⟩ := ih (step A r (.updateN env v)).state t0 (hrec.trans (hc.trans hst))
        exact ⟨x, by simp only [scaleTimes, List.mem_cons] at hx ⊢; tauto, he⟩
      · obtain ⟨x, hx, he⟩ := ih (step A r (.updateN env v)).state env.scaleTime (hrec.trans hc)
        exact ⟨x, by simp only [scaleTimes, List.mem_cons] at hx ⊢; tauto, he⟩

theorem readings_scale {h : List Op} {t : Int} (ht : t ∈ scaleTimes h) : t ∈ readings h := by
  induction h with
  | nil => simp [scaleTimes] at ht
  | cons o h ih => cases o <;> simp only [scaleTimes, readings, List.mem_cons] at ht ⊢ <;> tauto

/-- **C66.** Exact arithmetic, a clock that does not go back, no two equal priorities: whether a `GetSnapshot` call rescales (at any time and
tick) or not, it finds the same number of samples with the same values in the same order by priority, all weights multiplied by one
positive factor, and returns the very same snapshot as without a rescale; `Size()` does not change either. (`cp`: what sorting by value
may leave, Model/WeightedSnapshot.lean.) -/
theorem C66_rescale (A : Arith) (a b : ℚ) (hA : A.Exact a b) (size : Int) (hsz : 1 ≤ size) (time tick : Int) (h : List Op) (tick' time' : Int) (ht : InI64 time)
    (hr : ∀ t ∈ readings h, InI64 t) (ht' : InI64 time') (hm : (time :: scaleTimes h ++ [time']).Pairwise (· ≤ ·))
    (hu : ∀ u ∈ draws h, ∃ q : ℚ, u = .fin q ∧ 0 < q)
    (hd : ((recs h).map (Rec.prio b)).Nodup) (hn : (h.length : Int) + 1 < 9223372036854775808) :
    let r := run A (new size (.fin a) time tick) h
    let r' := afterSnapshot A r tick' time'
    r'.getValues.map (·.value) = r.getValues.map (·.value) ∧ r'.getSize = r.getSize ∧
    (∃ c : ℚ, 0 < c ∧ r'.getValues = r.getValues.map (scale A (.fin c))) ∧
    (∀ cp, WeightedSnapshot.IsSorted r.getValues cp → ∃ cp', WeightedSnapshot.IsSorted r'.getValues cp' ∧
      getSnapshot A r tick' time' cp' = WeightedSnapshot.new A.R r.getValues cp) ∧
    (∀ cp', WeightedSnapshot.IsSorted r'.getValues cp' → ∃ cp, WeightedSnapshot.IsSorted r.getValues cp ∧
      getSnapshot A r tick' time' cp' = WeightedSnapshot.new A.R r.getValues cp) := by
  intro r r'
  have hpa := List.pairwise_append.1 hm
  have hJ := J_run hA hsz h _ [] time (J_new a b size (by omega) time tick) (by simp) rfl ht hr hpa.1 hu (by simpa using hd) (by simp only [List.length_nil]; push_cast; omega)
  rw [List.nil_append] at hJ
  obtain ⟨t, htm, hst⟩ := start_run A h (new size (.fin a) time tick) time rfl
  have htle : t ≤ time' := hpa.2.2 t htm time' (by simp)
  have hti : InI64 t := by
    rcases List.mem_cons.1 htm with rfl | htm
    · exact ht
    · exact hr t (readings_scale htm)
  have hl : ∀ l : List Op, (recs l).length ≤ l.length := by
    intro l; induction l with
    | nil => simp [recs]
    | cons o l ih => cases o <;> simp only [recs, List.length_cons] <;> omega
  have hll := hl h
  obtain ⟨kept, hk, hv⟩ := C64_top A a b hA size hsz time tick h ht hr hpa.1 hu hd (by omega)
  have hall : ∀ e ∈ recs h, 0 < e.u := by
    intro e he
    clear hv hk hJ hll hl htm hst hd hm hpa hr hn
    induction h with
    | nil => simp [recs] at he
    | cons o l ih =>
      cases o with
      | updateN env v =>
        simp only [draws, recs, List.mem_cons, forall_eq_or_imp] at hu he
        rcases he with rfl | he
        · obtain ⟨q, hq, hq0⟩ := hu.1
          simp only [hq, rat]; exact hq0
        · exact ih hu.2 he
      | getSnapshot t t' => exact ih hu he
  obtain ⟨hJ', hstart⟩ := J_rescale hA (by omega) hJ hall (by omega) tick' time' (by rw [hst]; exact sec_diff hti ht') (by rw [hst]; exact sec_mono htle)
  have hkv : r.values = kept.map (relative b r.startTime) := by
    have := getValues_eq (r := r) ?_
    · rw [← this]; exact hv
    · obtain ⟨k2, hk2, hk3⟩ := hJ.held
      rw [show r.values = _ from hk2]
      exact nonneg_rel hA.pos _ fun e he => hall e (hk3.mem he)
  have hpos : ∀ e ∈ kept, 0 < e.u := fun e he => hall e (hk.mem he)
  have hr'v : r'.values = kept.map (relative b r'.startTime) := by
    show (rescaleIfNeeded A r tick' time').values = kept.map (relative b (rescaleIfNeeded A r tick' time').startTime)
    unfold rescaleIfNeeded
    split
    · rw [rescaleLocked_exact hA (r := { r with nextScaleTime := i64 (tick' + rescaleThreshold) }) (kept := kept) hJ.alpha hkv hk.ascending hpos
        (by rw [show ({ r with nextScaleTime := i64 (tick' + rescaleThreshold) } : EDR).startTime = _ from hst]; exact sec_diff hti ht')
        (by rw [show ({ r with nextScaleTime := i64 (tick' + rescaleThreshold) } : EDR).startTime = _ from hst]; exact sec_mono htle)]
    · exact hkv
  have hgr : r.getValues = kept.map (relative b r.startTime) := hv
  have hgr' : r'.getValues = kept.map (relative b r'.startTime) := by
    rw [getValues_eq, hr'v]; rw [hr'v]; exact nonneg_rel hA.pos _ hpos
  have hsc : ∀ L L', (kept.map (relative b L)).map (scale A (.fin (b ^ (L - L')))) = kept.map (relative b L') := by
    intro L L'
    rw [List.map_map]
    exact List.map_congr_left fun e _ => rel_scale hA L L' e
  have hsnap : ∀ L L' cp, WeightedSnapshot.IsSorted (kept.map (relative b L)) cp →
      WeightedSnapshot.IsSorted (kept.map (relative b L')) (cp.map (scale A (.fin (b ^ (L - L'))))) ∧
      WeightedSnapshot.new exact (kept.map (relative b L')) (cp.map (scale A (.fin (b ^ (L - L'))))) = WeightedSnapshot.new exact (kept.map (relative b L)) cp := by
    intro L L' cp hcp
    have := C62_scale (kept.map (relative b L)) cp (relative_positive hA.pos L kept) hcp (b ^ (L - L')) (zpow_pos hA.pos _)
      (scale A (.fin (b ^ (L - L')))) (by
        intro s w hw
        refine ⟨rfl, ?_⟩
        simp only [scale, hw, hA.rnd, F64.mul, exact]
        rw [mul_comm])
    rwa [hsc] at this
  have hsz' : r'.getSize = r.getSize := by
    rw [getSize_eq, getSize_eq]
    have e1 : r.size = size := hJ.size
    have e2 : r'.size = size := hJ'.size
    rw [e1, e2]
    exact hJ'.count.trans hJ.count.symm
  refine ⟨?_, hsz', ⟨b ^ (r.startTime - r'.startTime), zpow_pos hA.pos _, ?_⟩, ?_, ?_⟩
  · rw [hgr, hgr', List.map_map, List.map_map]; rfl
  · rw [hgr, hgr', hsc]
  · intro cp hcp
    rw [hgr] at hcp
    obtain ⟨h1, h2⟩ := hsnap _ r'.startTime cp hcp
    refine ⟨_, by rw [hgr']; exact h1, ?_⟩
    show WeightedSnapshot.new A.R r'.getValues _ = _
    rw [hgr, hgr', hA.rnd]; exact h2
  · intro cp' hcp
    rw [hgr'] at hcp
    obtain ⟨h1, h2⟩ := hsnap _ r.startTime cp' hcp
    refine ⟨_, by rw [hgr]; exact h1, ?_⟩
    show WeightedSnapshot.new A.R r'.getValues _ = _
    rw [hgr, hgr', hA.rnd]; exact h2.symm

example : ((0 : Int) :: scaleTimes history ++ [5000]).Pairwise (· ≤ ·) := by decide

/-- **C66** is false for a clock that goes back: of two samples (values 7 and 8) one is lost by the rescale, and `Size()` drops from 2 to 1. -/
theorem C66_backward_refuted : ∃ h : List Op, (∀ t ∈ readings h, InI64 t) ∧ (∀ u ∈ draws h, IsDraw u) ∧
    (run demoExact (new 2 (.fin 1) 1000 0) h).getSize = 2 ∧
    (run demoExact (new 2 (.fin 1) 1000 0) h).getValues.map (·.value) = [7, 8] ∧
    (afterSnapshot demoExact (run demoExact (new 2 (.fin 1) 1000 0) h) 3600000000000 0).getSize = 1 ∧
    (afterSnapshot demoExact (run demoExact (new 2 (.fin 1) 1000 0) h) 3600000000000 0).getValues.map (·.value) = [8] := by
  refine ⟨[.updateN ⟨0, 0, 1000, .fin (1 / 2)⟩ 7, .updateN ⟨0, 0, 2000, .fin (1 / 2)⟩ 8], by decide, ?_, ?_⟩
  · simp only [draws, List.mem_cons, List.not_mem_nil, or_false, forall_eq_or_imp, forall_eq]
    exact ⟨⟨1 / 2, rfl, by norm_num, by norm_num⟩, 1 / 2, rfl, by norm_num, by norm_num⟩
  · decide +kernel

/-! ## C68, calls that do not overlap -/

theorem rescale_next (A : Arith) (r : EDR) (tick time : Int) :
    (rescaleIfNeeded A r tick time).nextScaleTime = if r.nextScaleTime ≤ tick then i64 (tick + rescaleThreshold) else r.nextScaleTime := by
  unfold rescaleIfNeeded
  split
  · exact (rescaleLocked_frame (A := A) { r with nextScaleTime := i64 (tick + rescaleThreshold) } time).2.2.2
  · rfl

/-- **C68.** Calls that do not overlap: after a rescale at tick `t` (or the creation of the reservoir) the landmark and the deadline
stay for an hour of ticks, whatever is called. -/
theorem C68_one_hour (A : Arith) (r : EDR) (t : Int) (ht : InI64 (t + 3600000000000)) (hr : r.nextScaleTime = i64 (t + rescaleThreshold)) (h : List Op)
    (hticks : ∀ x ∈ ticks h, x < t + 3600000000000) :
    (run A r h).nextScaleTime = t + 3600000000000 ∧ (run A r h).startTime = r.startTime := by
  have hnt : i64 (t + rescaleThreshold) = t + 3600000000000 := i64_of_in ht
  rw [hnt] at hr
  induction h generalizing r with
  | nil => exact ⟨hr, rfl⟩
  | cons o h ih =>
    have key : ∀ tick time, tick < t + 3600000000000 → rescaleIfNeeded A r tick time = r := by
      intro tick time hlt
      unfold rescaleIfNeeded; rw [if_neg (by omega)]
    cases o with
    | getSnapshot tick time =>
      simp only [ticks, List.mem_cons, forall_eq_or_imp] at hticks
      have hs : (step A r (.getSnapshot tick time)).state = r := key tick time hticks.1
      have := ih (step A r (.getSnapshot tick time)).state (by rw [hs]; exact hr) hticks.2
      exact ⟨this.1, this.2.trans (by rw [hs])⟩
    | updateN env v =>
      simp only [ticks, List.mem_cons, forall_eq_or_imp] at hticks
      have hk := key env.tick env.scaleTime hticks.1
      have hf : ∀ p w, (record r p v w).state.startTime = r.startTime ∧ (record r p v w).state.nextScaleTime = r.nextScaleTime :=
        fun p w => ⟨(record_frame r p v w).2.2.1, (record_frame r p v w).2.2.2⟩
      have h1 : (step A r (.updateN env v)).state.startTime = r.startTime ∧ (step A r (.updateN env v)).state.nextScaleTime = r.nextScaleTime := by
        simp only [step, updateN, hk]; exact hf _ _
      have := ih (step A r (.updateN env v)).state (by rw [h1.2]; exact hr) hticks.2
      exact ⟨this.1, this.2.trans h1.1⟩

/-- **C68.** The creation of a reservoir at tick `t`, and every call that rescales at tick `t`, set the deadline `C68_one_hour` starts from. -/
theorem C68_deadline (A : Arith) (r : EDR) (size : Int) (alpha : F64) (time t : Int) (o : Op) (ho : ticks [o] = [t]) (hdue : r.nextScaleTime ≤ t) :
    (new size alpha time t).nextScaleTime = i64 (t + rescaleThreshold) ∧ (step A r o).state.nextScaleTime = i64 (t + rescaleThreshold) := by
  refine ⟨rfl, ?_⟩
  cases o with
  | getSnapshot tick time =>
    simp only [ticks, List.cons.injEq, and_true] at ho
    subst ho
    have := rescale_next A r tick time
    rw [if_pos hdue] at this
    exact this
  | updateN env v =>
    simp only [ticks, List.cons.injEq, and_true] at ho
    subst ho
    have := rescale_next A r env.tick env.scaleTime
    rw [if_pos hdue] at this
    exact (record_frame _ _ _ _).2.2.2.trans this

example : (new 2 (.fin 1) 0 5).nextScaleTime = i64 (5 + rescaleThreshold) ∧ (∀ x ∈ ticks (history.take 1), x < (5 : Int) + 3600000000000) := by decide

end EDR
end GoMetrics
