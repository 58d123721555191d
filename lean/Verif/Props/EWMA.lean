import Verif.Proofs.EWMAConc
import Verif.Proofs.EWMAFloat
import Mathlib.Analysis.SpecialFunctions.Exp
/-! # C19–C22: exponentially weighted moving averages -/
namespace GoMetrics
open Rounding EWMA

/-- The decay constants of ewma.go:35-39, over the reals, are strictly between 0 and 1/4: the hypotheses `0 ≤ a ≤ 1` and
`0 ≤ a ≤ 1/4` of the theorems below are met by all three (`math.Exp` itself is not modelled). -/
theorem C20_alphas_in_range : ∀ minutes : ℝ, 1 ≤ minutes →
    0 < 1 - Real.exp (-5 / 60 / minutes) ∧ 1 - Real.exp (-5 / 60 / minutes) < 1 / 4 := by
  intro m hm
  have hx : -5 / 60 / m < 0 := by
    have : (0 : ℝ) < m := by linarith
    exact div_neg_of_neg_of_pos (by norm_num) this
  have hx2 : -(1 / 12) ≤ -5 / 60 / m := by
    have : (0 : ℝ) < m := by linarith
    rw [le_div_iff₀ this]; nlinarith
  constructor
  · have := Real.exp_lt_exp.2 hx
    rw [Real.exp_zero] at this
    linarith
  · have := Real.add_one_le_exp (-5 / 60 / m)
    linarith

/-- **C19.** Over exact arithmetic, after any history of `Update`, `Tick` and `TickN` calls in which at least one tick happened,
`GetRate(unit)` is `unit` times the exponentially weighted average of the ticked counts; before the first tick it is 0. -/
theorem C19_closed_form (a : ℚ) (I : Int) (hI : I ≠ 0) (h : List Op) (unit : Int) :
    (run exact (new (.fin a) I) h).getRate exact unit =
      match Spec.tickCounts 0 h with
      | [] => .fin 0
      | c0 :: cs => .fin (Spec.average a I c0 cs * unit) := by
  have hc := core_run exact h (new (.fin a) I) 0 (by simp [new])
  simp only [new] at hc
  cases ht : Spec.tickCounts 0 h with
  | nil =>
    rw [ht] at hc
    have hr : (run exact (new (.fin a) I) h).rate = .fin 0 := congrArg Prod.snd hc
    rw [exact_getRate hr, zero_mul]
  | cons c0 cs =>
    rw [ht, show core { initialized := false, rate := F64.fin 0, uncounted := 0, alpha := F64.fin a, interval := I } =
      (false, F64.fin 0) from rfl, foldl_exact a hI] at hc
    have hr : (run exact (new (.fin a) I) h).rate = .fin (Spec.average a I c0 cs) := congrArg Prod.snd hc
    exact exact_getRate hr

/-- A non-trivial case: updates 3+4, tick, idle tick, `TickN 2`, with alpha 1/2 and interval 1. -/
example : (run exact (new (.fin (1 / 2)) 1) [.update 3, .update 4, .tick, .tick, .update 9, .tickN 2]).getRate exact 10
    = .fin (((7 / 4 : ℚ) + 2 / 2) * 10) := by
  rw [C19_closed_form _ _ (by norm_num)]
  simp [Spec.tickCounts, Spec.average, i64, Finset.sum_range_succ]
  norm_num

/-- **C20.** Over exact arithmetic the rate never leaves the range of the ticked instant rates. -/
theorem C20_in_range (a : ℚ) (ha : 0 ≤ a) (ha' : a ≤ 1) (I : Int) (hI : I ≠ 0) (h : List Op) (unit : Int) (hu : 0 ≤ unit)
    (lo hi : ℚ) (hr : ∀ c ∈ Spec.tickCounts 0 h, lo ≤ (c : ℚ) / I ∧ (c : ℚ) / I ≤ hi) :
    ∃ r, (run exact (new (.fin a) I) h).getRate exact unit = .fin r ∧
      (Spec.tickCounts 0 h ≠ [] → lo * unit ≤ r ∧ r ≤ hi * unit) ∧ (Spec.tickCounts 0 h = [] → r = 0) := by
  rw [C19_closed_form a I hI]
  cases ht : Spec.tickCounts 0 h with
  | nil => exact ⟨0, rfl, by simp, by simp⟩
  | cons c0 cs =>
    rw [ht] at hr
    have := average_range ha ha' hr
    have hu' : (0 : ℚ) ≤ unit := by exact_mod_cast hu
    exact ⟨_, rfl, fun _ => ⟨mul_le_mul_of_nonneg_right this.1 hu', mul_le_mul_of_nonneg_right this.2 hu'⟩, by simp⟩

/-- **C20, in IEEE-754 binary64.** For `0 ≤ alpha ≤ 1/4` (the three standard averages) and counts between `cmin` and `cmax`
below 2^53, rounding never pushes the rate out of `[float64(cmin)/float64(I), float64(cmax)/float64(I)]`. -/
theorem C20_in_range_binary64 (a : ℚ) (ha : 0 ≤ a) (ha' : a ≤ 1 / 4) (I : Int) (hI : 0 < I) (hI' : I < 2 ^ 53)
    (cmin cmax : Int) (h0 : 0 ≤ cmin) (hmax : cmax < 2 ^ 53)
    (h : List Op) (unit : Int) (hu : 0 ≤ unit) (hu' : unit < 2 ^ 53)
    (hr : ∀ c ∈ Spec.tickCounts 0 h, cmin ≤ c ∧ c ≤ cmax) (hne : Spec.tickCounts 0 h ≠ []) :
    let bound := fun c => F64.mul binary64 (F64.div binary64 (F64.ofInt binary64 c) (F64.ofInt binary64 I))
      (F64.ofInt binary64 unit)
    (bound cmin).le ((run binary64 (new (.fin a) I) h).getRate binary64 unit) ∧
      ((run binary64 (new (.fin a) I) h).getRate binary64 unit).le (bound cmax) := by
  intro bound
  have hL := binary64_lawful
  obtain ⟨c0, cs, ht⟩ := List.exists_cons_of_ne_nil hne
  have hcc : cmin ≤ cmax := by
    have := hr c0 (by rw [ht]; simp)
    omega
  have hIr : binary64.rnd (I : ℚ) = .fin I := binary64_int (by rw [abs_lt]; constructor <;> omega)
  have hI0 : (I : ℚ) ≠ 0 := by exact_mod_cast (ne_of_gt hI)
  have hIp : (0 : ℚ) < I := by exact_mod_cast hI
  have hIge : (1 : ℚ) ≤ I := by exact_mod_cast hI
  have hcr : ∀ c : Int, 0 ≤ c → c < 2 ^ 53 → binary64.rnd (c : ℚ) = .fin c := by
    intro c h1 h2; exact binary64_int (by rw [abs_lt]; constructor <;> omega)
  -- the instant rate of a count in range
  have hinst : ∀ c : Int, 0 ≤ c → c < 2 ^ 53 →
      ∃ i, F64.div binary64 (F64.ofInt binary64 c) (F64.ofInt binary64 I) = .fin i ∧ 0 ≤ i ∧ binary64.Rep i ∧
        binary64.rnd ((c : ℚ) / I) = .fin i := by
    intro c h1 h2
    have hc0 : (0 : ℚ) ≤ c := by exact_mod_cast h1
    have hq0 : (0 : ℚ) ≤ (c : ℚ) / I := div_nonneg hc0 (le_of_lt hIp)
    have hq1 : (c : ℚ) / I ≤ c := div_le_self hc0 hIge
    obtain ⟨v, hv, hv0, -, hvr⟩ := hL.between hL.rep_zero (hcr c h1 h2) hq0 hq1
    refine ⟨v, ?_, hv0, hvr, hv⟩
    unfold F64.ofInt
    rw [hcr c h1 h2, hIr]
    simp only [F64.div, hI0, if_false, hv]
  have hmono : ∀ c d : Int, c ≤ d → ∀ i j, binary64.rnd ((c : ℚ) / I) = .fin i → binary64.rnd ((d : ℚ) / I) = .fin j →
      i ≤ j := by
    intro c d hcd i j h1 h2
    have hq : (c : ℚ) / I ≤ (d : ℚ) / I := by
      apply div_le_div_of_nonneg_right _ (le_of_lt hIp)
      exact_mod_cast hcd
    have := hL.mono _ _ hq
    rw [h1, h2] at this
    exact this
  obtain ⟨lo, hlo, hlo0, hlor, hloq⟩ := hinst cmin h0 (by omega)
  obtain ⟨hi, hhi, hhi0, hhir, hhiq⟩ := hinst cmax (by omega) hmax
  have hc := core_run binary64 h (new (.fin a) I) 0 (by simp [new])
  rw [ht] at hc hr
  obtain ⟨v, hv, hv1, hv2, -⟩ := foldl_binary64 (I := I) ha ha' hlo0 hlor hhir c0 cs (.fin 0) (by
    intro c hcm
    have := hr c hcm
    obtain ⟨i, hi1, hi2, hi3, hi4⟩ := hinst c (by omega) (by omega)
    exact ⟨i, hi1, hmono _ _ this.1 _ _ hloq hi4, hmono _ _ this.2 _ _ hi4 hhiq, hi3⟩)
  have hcore : core (new (.fin a) I) = (false, .fin 0) := rfl
  rw [hcore] at hc
  simp only [new] at hc
  rw [hv] at hc
  have hrate : (run binary64 (new (.fin a) I) h).rate = .fin v := congrArg Prod.snd hc
  have hur : binary64.rnd (unit : ℚ) = .fin unit := hcr unit hu hu'
  have hup : (0 : ℚ) ≤ unit := by exact_mod_cast hu
  have hur' : F64.ofInt binary64 unit = .fin unit := hur
  simp only [bound, getRate, hrate, hlo, hhi, hur', F64.mul]
  exact ⟨hL.mono _ _ (mul_le_mul_of_nonneg_right hv1 hup), hL.mono _ _ (mul_le_mul_of_nonneg_right hv2 hup)⟩

/-- The hypotheses of the binary64 theorem are met, e.g. by two ticks of 10 and 0 events per 5 s. -/
example : Spec.tickCounts 0 [Op.update 4, .update 6, .tick, .tick] = [10, 0] ∧
    (∀ c ∈ Spec.tickCounts 0 [Op.update 4, .update 6, .tick, .tick], (0 : Int) ≤ c ∧ c ≤ 10) := by decide

/-- **C21.** For every lawful rounding (binary64 in particular) and `0 ≤ alpha ≤ 1`: starting from any finite non-negative
representable rate, any number of idle ticks leave the rate finite, non-negative and never larger than before; and with
`0 ≤ unit` so does `GetRate`. `I` must not round to 0. -/
theorem C21_idle_decays (R : Rounding) (hR : R.Lawful) (e : EWMA) (a r : ℚ) (ha : 0 ≤ a) (ha' : a ≤ 1)
    (hα : e.alpha = .fin a) (hini : e.initialized = true) (hrate : e.rate = .fin r) (hrep : R.rnd r = .fin r) (h0 : 0 ≤ r)
    (hun : e.uncounted = 0) (hI : F64.ofInt R e.interval ≠ .fin 0) (unit : Int)
    (hu : (F64.fin 0).le (F64.ofInt R unit)) (k : Nat) :
    ∃ r', (run R e (List.replicate k .tick)).rate = .fin r' ∧ 0 ≤ r' ∧ r' ≤ r ∧
      (F64.ofInt R unit ≠ .inf false →
        ((run R e (List.replicate k .tick)).getRate R unit).le (e.getRate R unit)) ∧
      ∃ r'', (run R e (List.replicate (k + 1) .tick)).rate = .fin r'' ∧ 0 ≤ r'' ∧ r'' ≤ r' := by
  have hdiv : ∀ e' : EWMA, e'.interval = e.interval → e'.instantRate R 0 = .fin 0 := by
    intro e' he
    unfold instantRate
    rw [he]
    have : F64.ofInt R 0 = .fin 0 := by
      have := hR.zero
      simpa [F64.ofInt] using this
    rw [this]
    cases hf : F64.ofInt R e.interval with
    | nan => exact absurd hf (hR.not_nan _)
    | inf s => rfl
    | fin q =>
      have hq : q ≠ 0 := by rintro rfl; exact hI hf
      simp [F64.div, hq, hR.zero]
  have key : ∀ k, ∃ r', (run R e (List.replicate k .tick)).rate = .fin r' ∧ 0 ≤ r' ∧ r' ≤ r ∧ R.Rep r' ∧
      (run R e (List.replicate k .tick)).initialized = true ∧
      (run R e (List.replicate k .tick)).uncounted = 0 := by
    intro k
    induction k with
    | zero => exact ⟨r, by simpa [run] using hrate, h0, le_rfl, hrep, by simpa [run] using hini, by simpa [run] using hun⟩
    | succ k ih =>
      obtain ⟨r', h1, h2, h3, h4, h5, h6⟩ := ih
      rw [List.replicate_succ', run_snoc]
      have hc := run_const R e (List.replicate k .tick)
      have hi := hdiv _ hc.2
      obtain ⟨v, hv, hv0, hv1, hvr⟩ := lawful_idle hR ha ha' h4 h2
      refine ⟨v, ?_, hv0, le_trans hv1 h3, hvr, ?_, ?_⟩
      · simp only [step]
        rw [tick_rate _ h6, h5, h1, hc.1, hα, hi, hv]
      · simp [step, tick, tickN]
      · simp [step, tick, tickN]
  obtain ⟨r', h1, h2, h3, h4, h5, h6⟩ := key k
  obtain ⟨v, hv, hv0, hv1, hvr⟩ := lawful_idle hR ha ha' h4 h2
  refine ⟨r', h1, h2, h3, ?_, v, ?_, hv0, hv1⟩
  · intro hni
    simp only [getRate, h1, hrate]
    cases hf : F64.ofInt R unit with
    | nan => exact absurd hf (hR.not_nan _)
    | inf s =>
      rw [hf] at hu hni
      cases s
      · exact absurd rfl hni
      · simp [F64.le] at hu
    | fin u =>
      rw [hf] at hu
      simp only [F64.mul]
      exact hR.mono _ _ (mul_le_mul_of_nonneg_right h3 hu)
  · rw [List.replicate_succ', run_snoc]
    have hc := run_const R e (List.replicate k .tick)
    simp only [step]
    rw [tick_rate _ h6, h5, h1, hc.1, hα, hdiv _ hc.2, hv]

/-- The 5 s interval of the standard averages and the unit 1 s satisfy the hypotheses in binary64. -/
example : F64.ofInt binary64 5000000000 = .fin 5000000000 ∧ F64.ofInt binary64 1000000000 = .fin 1000000000 := by
  constructor
  · exact_mod_cast binary64_int (n := 5000000000) (by norm_num)
  · exact_mod_cast binary64_int (n := 1000000000) (by norm_num)

/-- **C21, exact.** Over exact arithmetic `k` idle ticks multiply `GetRate` by `(1 - alpha)^k`. -/
theorem C21_idle_exact (a r : ℚ) (e : EWMA) (hα : e.alpha = .fin a) (hini : e.initialized = true) (hrate : e.rate = .fin r)
    (hun : e.uncounted = 0) (hI : e.interval ≠ 0) (unit : Int) (k : Nat) :
    (run exact e (List.replicate k .tick)).getRate exact unit = .fin ((1 - a) ^ k * r * unit) := by
  have key : (run exact e (List.replicate k .tick)).rate = .fin ((1 - a) ^ k * r) ∧
      (run exact e (List.replicate k .tick)).initialized = true ∧
      (run exact e (List.replicate k .tick)).uncounted = 0 := by
    induction k with
    | zero => simp [run, hrate, hini, hun]
    | succ k ih =>
      obtain ⟨h1, h5, h6⟩ := ih
      rw [List.replicate_succ', run_snoc]
      have hc := run_const exact e (List.replicate k .tick)
      refine ⟨?_, by simp [step, tick, tickN], by simp [step, tick, tickN]⟩
      simp only [step, tick, tickN, h6, h5, h1, hc.1, hα, instantRate, hc.2]
      rw [exact_instant _ hI, exact_newRate]
      congr 1
      rw [pow_succ]; push_cast; ring
  exact exact_getRate key.1

namespace EWMA
theorem Conserved.exactly_once {p : Pool Shared PC} (h : Conserved p) (updates ticks : List Int)
    (hfin : p.calls.Perm (updates.map PC.updated ++ ticks.map (PC.done true))) : i64 updates.sum = i64 (ticks.sum + p.shared.e.uncounted) := by
  unfold Conserved at h
  rw [(hfin.map PC.applied).sum_eq, (hfin.map PC.taken).sum_eq] at h
  have e1 : (updates.map PC.updated ++ ticks.map (PC.done true)).map PC.applied = updates ++ ticks.map (fun _ => 0) := by
    simp [PC.applied, Function.comp_def]
  have e2 : (updates.map PC.updated ++ ticks.map (PC.done true)).map PC.taken = updates.map (fun _ => 0) ++ ticks := by
    simp [PC.taken, Function.comp_def]
  rw [e1, e2] at h
  have z : ∀ l : List Int, (l.map (fun _ => (0 : Int))).sum = 0 := by
    intro l; induction l with
    | nil => rfl
    | cons x l ih => simpa using ih
  simp only [List.sum_append, z, add_zero, zero_add] at h
  rw [h]; unfold i64; omega

theorem Serial.order {R : Rounding} {e0 : EWMA} {p : Pool Shared PC} {l : List Int} (hl : Serial R e0 p l) (hq : ∀ c ∈ p.calls, c.crit = false) :
    ∃ order : List Int, order.Perm (p.calls.filterMap PC.folded) ∧
      p.shared.e.rate = (run R e0 (order.map Op.tickN)).rate ∧
      p.shared.e.initialized = (run R e0 (order.map Op.tickN)).initialized := by
  refine ⟨l, hl.perm, ?_⟩
  have hcore := hl.idle (fun own c hm => by have := hq _ hm; simp [PC.crit] at this)
  have h2 : core (run R e0 (l.map Op.tickN)) = l.foldl (coreTick R e0.alpha e0.interval) (core e0) := by
    have aux : ∀ (l : List Int) (e : EWMA), core (run R e (l.map Op.tickN)) = l.foldl (coreTick R e.alpha e.interval) (core e) := by
      intro l
      induction l with
      | nil => intro e; rfl
      | cons c l ih =>
        intro e
        have := ih (e.tickN R c)
        simpa [run, step, tickN, core, coreTick, instantRate] using this
    exact aux l e0
  rw [← h2] at hcore
  exact ⟨congrArg Prod.snd hcore, congrArg Prod.fst hcore⟩
end EWMA

/-- **C22.** In every interleaving of any number of concurrent `Update`, `Tick` and `TickN` calls, what is pending is the int64
difference between everything the `Update` calls have added so far and everything the `Tick` calls have taken so far. -/
theorem C22_conservation (R : Rounding) (alpha : F64) (interval : Int) (es : List (Ev Op Unit)) :
    let p := (conc R).run (Machine.start ⟨new alpha interval, false⟩) es
    p.shared.e.uncounted = i64 ((p.calls.map PC.applied).sum - (p.calls.map PC.taken).sum) :=
  conserved_run R alpha interval es

/-- **C22, after everybody returned.** The int64 sum of the arguments of all `Update` calls equals the sum of the counts of all
`Tick` calls plus what is still pending. -/
theorem C22_exactly_once (R : Rounding) (alpha : F64) (interval : Int) (es : List (Ev Op Unit))
    (updates ticks : List Int)
    (hfin : ((conc R).run (Machine.start ⟨new alpha interval, false⟩) es).calls.Perm
      (updates.map PC.updated ++ ticks.map (PC.done true))) :
    i64 updates.sum =
      i64 (ticks.sum + ((conc R).run (Machine.start ⟨new alpha interval, false⟩) es).shared.e.uncounted) :=
  (conserved_run R alpha interval es).exactly_once updates ticks hfin

/-- **C22, the average itself.** In every interleaving the average is the sequential average of the counts of the finished ticks in
some order: whenever nobody is inside `TickN`, `(initialized, rate)` is what ticking those counts one after another gives. -/
theorem C22_serialisable (R : Rounding) (e0 : EWMA) (es : List (Ev Op Unit)) :
    let p := (conc R).run (Machine.start ⟨e0, false⟩) es
    (∀ c ∈ p.calls, c.crit = false) →
      ∃ order : List Int, order.Perm (p.calls.filterMap PC.folded) ∧
        p.shared.e.rate = (run R e0 (order.map Op.tickN)).rate ∧
        p.shared.e.initialized = (run R e0 (order.map Op.tickN)).initialized := by
  intro p hq
  obtain ⟨l, hl⟩ := serial_run R e0 es
  exact hl.order hq

/-- A schedule in which a `Tick` loses its CAS against an `Update`, retries, and both finish. -/
example :
    let p := (conc exact).run (Machine.start ⟨new (.fin 1) 1, false⟩)
      [.spawn .tick, .spawn (.update 5), .step 0 (), .step 1 (), .step 0 (), .step 0 (), .step 0 (), .step 0 (), .step 0 (),
       .step 0 (), .step 0 (), .step 0 ()]
    p.calls = [.done true 5, .updated 5] ∧ p.shared.e.uncounted = 0 := by
  simp [Machine.run, Machine.apply, Machine.start, conc, callStep, new, update, i64]

end GoMetrics
