import Verif.Model.Fused
import Verif.Props.EWMAIdeal
import Verif.Props.EWMA
/-! # C104 — moving averages, if the compiler fuses multiplications and additions -/
namespace GoMetrics
open Rounding

theorem Rounding.Lawful.product {R : Rounding} (hR : R.Lawful) (fused : Bool) : (R.product fused).Lawful := by
  cases fused
  · exact hR
  · exact exact_lawful

namespace EWMA

/-- Nothing fused: the code of Model/EWMA.lean. -/
theorem newRateF_false (R : Rounding) (ini : Bool) (a r i : F64) : newRateF R false ini a r i = newRate R ini a r i := rfl

/-- The effect of a tick on `core`. -/
def coreTickF (R : Rounding) (alpha : F64) (interval : Int) (p : Bool × F64) (c : Bool × Int) : Bool × F64 :=
  (true, newRateF R c.1 p.1 alpha p.2 (F64.div R (F64.ofInt R c.2) (F64.ofInt R interval)))

/-- The ticks of a history, with the choice of each. -/
def ticksF (acc : Int) : List (Bool × Op) → List (Bool × Int)
  | [] => []
  | (_, .update n) :: h => ticksF (acc + n) h
  | (f, .tick) :: h => (f, i64 acc) :: ticksF 0 h
  | (f, .tickN c) :: h => (f, c) :: ticksF acc h

theorem ticksF_map (h : List (Bool × Op)) : ∀ acc, (ticksF acc h).map Prod.snd = Spec.tickCounts acc (h.map Prod.snd) := by
  induction h with
  | nil => intro acc; rfl
  | cons x h ih =>
    intro acc
    obtain ⟨f, op⟩ := x
    cases op <;> simp [ticksF, Spec.tickCounts, ih]

theorem core_runF (R : Rounding) (h : List (Bool × Op)) : ∀ (e : EWMA) (acc : Int), i64 acc = e.uncounted →
    core (runF R e h) = (ticksF acc h).foldl (coreTickF R e.alpha e.interval) (core e) := by
  induction h with
  | nil => intro e acc _; rfl
  | cons x h ih =>
    intro e acc hu
    obtain ⟨f, op⟩ := x
    cases op with
    | update n =>
      have := ih (e.update n) (acc + n) (by simp [update, ← hu, i64_add_left])
      simpa [runF, stepF, ticksF, update, core] using this
    | tick =>
      have := ih (e.tickF R f) 0 (by simp [tickF, tickNF])
      simpa [runF, stepF, ticksF, tickF, tickNF, core, coreTickF, instantRate, hu] using this
    | tickN c =>
      have := ih (e.tickNF R f c) acc (by simpa [tickNF] using hu)
      simpa [runF, stepF, ticksF, tickNF, core, coreTickF, instantRate] using this

/-- One tick in binary64 keeps the rate between the old rate and the instant rate. -/
theorem binary64_newRateF (f : Bool) {a r i lo hi : ℚ} (ha : 0 ≤ a) (ha' : a ≤ 1 / 4) (hlo0 : 0 ≤ lo)
    (hlo : binary64.Rep lo) (hhi : binary64.Rep hi) (hr : binary64.Rep r) (hi' : binary64.Rep i)
    (hr1 : lo ≤ r) (hr2 : r ≤ hi) (hi1 : lo ≤ i) (hi2 : i ≤ hi) :
    ∃ v, newRateF binary64 f true (.fin a) (.fin r) (.fin i) = .fin v ∧ lo ≤ v ∧ v ≤ hi ∧ binary64.Rep v := by
  cases f with
  | false => exact binary64_newRate ha ha' hlo0 hlo hhi hr hi' hr1 hr2 hi1 hi2
  | true =>
    have hL := binary64_lawful
    have hmul : ∀ x y : ℚ, binary64.Rep x → binary64.Rep y → ∃ n : Int, x - y = n * 2 ^ (-1074 : Int) := by
      intro x y hx hy
      obtain ⟨n, hn⟩ := binary64_multiple hx
      obtain ⟨m, hm⟩ := binary64_multiple hy
      exact ⟨n - m, by rw [hn, hm]; push_cast; ring⟩
    have hdouble : ∀ u x : ℚ, 0 ≤ u → (∃ n : Int, u = n * 2 ^ (-1074 : Int)) → binary64.rnd u = .fin x → x ≤ 2 * u := by
      rintro u x hu ⟨n, hn⟩ hx
      rcases eq_or_lt_of_le hu with h0 | h0
      · rw [← h0, hL.zero] at hx
        simp only [F64.fin.injEq] at hx
        linarith
      · have hn1 : 1 ≤ n := by
          by_contra hc
          have : (n : ℚ) ≤ 0 := by exact_mod_cast (by omega : n ≤ 0)
          have := mul_nonpos_of_nonpos_of_nonneg this (le_of_lt (two_zpow_pos (-1074)))
          rw [← hn] at this; linarith
        refine binary64_le_double ?_ hx
        rw [hn]
        have : (1 : ℚ) ≤ n := by exact_mod_cast hn1
        nlinarith [two_zpow_pos (-1074)]
    simp only [newRateF, if_true, F64.sub, F64.neg, F64.add, Rounding.product]
    rcases le_total r i with h | h
    · obtain ⟨x, hx, hx0, -, -⟩ := hL.between hL.rep_zero hhi (q := i - r) (by linarith) (by linarith)
      have hx2 := hdouble _ _ (by linarith) (hmul i r hi' hr) hx
      rw [← sub_eq_add_neg, hx]
      simp only [F64.mul, exact]
      exact hL.between hlo hhi (by nlinarith) (by nlinarith)
    · obtain ⟨x, hx, hx0, -, -⟩ := hL.between hL.rep_zero hhi (q := r - i) (by linarith) (by linarith)
      have hx2 := hdouble _ _ (by linarith) (hmul r i hr hi') hx
      have e : i + -r = -(r - i) := by ring
      rw [e, hL.odd, hx]
      simp only [F64.neg, F64.mul, exact]
      exact hL.between hlo hhi (by nlinarith) (by nlinarith)

theorem foldl_binary64F {a lo hi : ℚ} {I : Int} (ha : 0 ≤ a) (ha' : a ≤ 1 / 4) (hlo0 : 0 ≤ lo)
    (hlo : binary64.Rep lo) (hhi : binary64.Rep hi) (c0 : Bool × Int) (cs : List (Bool × Int)) (r0 : F64)
    (h : ∀ c ∈ c0 :: cs, ∃ i, F64.div binary64 (F64.ofInt binary64 c.2) (F64.ofInt binary64 I) = .fin i ∧
      lo ≤ i ∧ i ≤ hi ∧ binary64.Rep i) :
    ∃ v, (c0 :: cs).foldl (coreTickF binary64 (.fin a) I) (false, r0) = (true, .fin v) ∧ lo ≤ v ∧ v ≤ hi ∧
      binary64.Rep v := by
  induction cs using List.reverseRecOn with
  | nil =>
    obtain ⟨i, hi', h1, h2, h3⟩ := h c0 (by simp)
    refine ⟨i, ?_, h1, h2, h3⟩
    simp [coreTickF, hi', newRateF]
  | append_singleton cs c ih =>
    obtain ⟨v, hv, hv1, hv2, hv3⟩ := ih (fun x hx => h x (by
      rcases List.mem_cons.1 hx with rfl | hx <;> simp [*]))
    obtain ⟨i, hi', h1, h2, h3⟩ := h c (by simp)
    rw [← List.cons_append, List.foldl_append, hv]
    simp only [List.foldl_cons, List.foldl_nil, coreTickF, hi']
    obtain ⟨w, hw, hw1, hw2, hw3⟩ := binary64_newRateF c.1 ha ha' hlo0 hlo hhi hv3 h3 hv1 hv2 h1 h2
    exact ⟨w, by rw [hw], hw1, hw2, hw3⟩

/-- An idle tick, for every lawful rounding. -/
theorem lawful_idleF (f : Bool) {R : Rounding} (hR : R.Lawful) {a r : ℚ} (ha : 0 ≤ a) (ha' : a ≤ 1) (hr : R.Rep r) (h0 : 0 ≤ r) :
    ∃ v, newRateF R f true (.fin a) (.fin r) (.fin 0) = .fin v ∧ 0 ≤ v ∧ v ≤ r ∧ R.Rep v := by
  cases f with
  | false => exact lawful_idle hR ha ha' hr h0
  | true =>
    simp only [newRateF, if_true, F64.sub, F64.neg, F64.add, zero_add]
    rw [hR.rep_neg hr]
    simp only [F64.mul, Rounding.product, if_true, exact]
    exact hR.between hR.rep_zero hr (by nlinarith) (by nlinarith)

/-- **C104.** `C20` holds however the compiler fuses: for `0 ≤ alpha ≤ 1/4` and counts between `cmin` and `cmax` below 2^53, the rate stays within the range of the
instant rates after every history of calls, with any choice at every tick. -/
theorem _root_.GoMetrics.C104_ewma_range (a : ℚ) (ha : 0 ≤ a) (ha' : a ≤ 1 / 4) (I : Int) (hI : 0 < I) (hI' : I < 2 ^ 53)
    (cmin cmax : Int) (h0 : 0 ≤ cmin) (hmax : cmax < 2 ^ 53)
    (h : List (Bool × Op)) (unit : Int) (hu : 0 ≤ unit) (hu' : unit < 2 ^ 53)
    (hr : ∀ c ∈ Spec.tickCounts 0 (h.map Prod.snd), cmin ≤ c ∧ c ≤ cmax) (hne : Spec.tickCounts 0 (h.map Prod.snd) ≠ []) :
    let bound := fun c => F64.mul binary64 (F64.div binary64 (F64.ofInt binary64 c) (F64.ofInt binary64 I))
      (F64.ofInt binary64 unit)
    (bound cmin).le ((runF binary64 (new (.fin a) I) h).getRate binary64 unit) ∧
      ((runF binary64 (new (.fin a) I) h).getRate binary64 unit).le (bound cmax) := by
  intro bound
  have hL := binary64_lawful
  rw [← ticksF_map] at hr hne
  obtain ⟨c0, cs, ht⟩ := List.exists_cons_of_ne_nil (fun e => hne (by rw [e]; rfl) : ticksF 0 h ≠ [])
  have hr : ∀ c ∈ ticksF 0 h, cmin ≤ c.2 ∧ c.2 ≤ cmax := fun c hc => hr c.2 (List.mem_map.2 ⟨c, hc, rfl⟩)
  have hcc : cmin ≤ cmax := by
    have := hr c0 (by rw [ht]; simp)
    omega
  have hIr : binary64.rnd (I : ℚ) = .fin I := binary64_int (by rw [abs_lt]; constructor <;> omega)
  have hI0 : (I : ℚ) ≠ 0 := by exact_mod_cast (ne_of_gt hI)
  have hIp : (0 : ℚ) < I := by exact_mod_cast hI
  have hIge : (1 : ℚ) ≤ I := by exact_mod_cast hI
  have hcr : ∀ c : Int, 0 ≤ c → c < 2 ^ 53 → binary64.rnd (c : ℚ) = .fin c := by
    intro c h1 h2; exact binary64_int (by rw [abs_lt]; constructor <;> omega)
  have hinst : ∀ c : Int, 0 ≤ c → c < 2 ^ 53 →
      ∃ i, F64.div binary64 (F64.ofInt binary64 c) (F64.ofInt binary64 I) = .fin i ∧ 0 ≤ i ∧ binary64.Rep i ∧
        binary64.rnd ((c : ℚ) / I) = .fin i := by
    intro c h1 h2
    have hc0 : (0 : ℚ) ≤ c := by exact_mod_cast h1
    have hq0 : (0 : ℚ) ≤ (c : ℚ) / I := div_nonneg hc0 (le_of_lt hIp)
    have hq1 : (c : ℚ) / I ≤ c := div_le_self hc0 hIge
    obtain ⟨v, hv, hv0, -, hvr⟩ := hL.between hL.rep_zero (hcr c h1 h2) hq0 hq1
    refine ⟨v, ?_, hv0, hvr, hv⟩
    unfold F64.ofInt
    rw [hcr c h1 h2, hIr]
    simp only [F64.div, hI0, if_false, hv]
  have hmono : ∀ c d : Int, c ≤ d → ∀ i j, binary64.rnd ((c : ℚ) / I) = .fin i → binary64.rnd ((d : ℚ) / I) = .fin j →
      i ≤ j := by
    intro c d hcd i j h1 h2
    have hq : (c : ℚ) / I ≤ (d : ℚ) / I := by
      apply div_le_div_of_nonneg_right _ (le_of_lt hIp)
      exact_mod_cast hcd
    have := hL.mono _ _ hq
    rw [h1, h2] at this
    exact this
  obtain ⟨lo, hlo, hlo0, hlor, hloq⟩ := hinst cmin h0 (by omega)
  obtain ⟨hi, hhi, hhi0, hhir, hhiq⟩ := hinst cmax (by omega) hmax
  have hc := core_runF binary64 h (new (.fin a) I) 0 (by simp [new])
  rw [ht] at hc hr
  obtain ⟨v, hv, hv1, hv2, -⟩ := foldl_binary64F (I := I) ha ha' hlo0 hlor hhir c0 cs (.fin 0) (by
    intro c hcm
    have := hr c hcm
    obtain ⟨i, hi1, hi2, hi3, hi4⟩ := hinst c.2 (by omega) (by omega)
    exact ⟨i, hi1, hmono _ _ this.1 _ _ hloq hi4, hmono _ _ this.2 _ _ hi4 hhiq, hi3⟩)
  have hcore : core (new (.fin a) I) = (false, .fin 0) := rfl
  rw [hcore] at hc
  simp only [new] at hc
  rw [hv] at hc
  have hrate : (runF binary64 (new (.fin a) I) h).rate = .fin v := congrArg Prod.snd hc
  have hup : (0 : ℚ) ≤ unit := by exact_mod_cast hu
  have hur' : F64.ofInt binary64 unit = .fin unit := hcr unit hu hu'
  simp only [bound, getRate, hrate, hlo, hhi, hur', F64.mul]
  exact ⟨hL.mono _ _ (mul_le_mul_of_nonneg_right hv1 hup), hL.mono _ _ (mul_le_mul_of_nonneg_right hv2 hup)⟩

/-- Two ticks, of 10 and 0 events, the second one fused. -/
example : Spec.tickCounts 0 ([(true, Op.update 4), (false, .update 6), (false, .tick), (true, .tick)].map Prod.snd) = [10, 0] := by decide

/-- Fusing makes a difference: the last bit of the rate after ticks of 1 and 8 events, with alpha = 0.1. -/
example : (runF binary64 (new (.fin (3602879701896397 / 36028797018963968)) 1) [(false, .tickN 1), (true, .tickN 8)]).rate ≠
    (runF binary64 (new (.fin (3602879701896397 / 36028797018963968)) 1) [(false, .tickN 1), (false, .tickN 8)]).rate := by
  decide +kernel

/-- **C104.** `C21` holds however the compiler fuses, for every lawful rounding and `0 ≤ alpha ≤ 1`: idle ticks leave a non-negative rate non-negative and never make it
larger. -/
theorem _root_.GoMetrics.C104_ewma_idle (R : Rounding) (hR : R.Lawful) (e : EWMA) (a r : ℚ) (ha : 0 ≤ a) (ha' : a ≤ 1)
    (hα : e.alpha = .fin a) (hini : e.initialized = true) (hrate : e.rate = .fin r) (hrep : R.rnd r = .fin r) (h0 : 0 ≤ r)
    (hun : e.uncounted = 0) (hI : F64.ofInt R e.interval ≠ .fin 0) (choices : List Bool) :
    ∃ r', (runF R e (choices.map fun f => (f, .tick))).rate = .fin r' ∧ 0 ≤ r' ∧ r' ≤ r ∧
      ∀ f, ∃ r'', (runF R e ((choices ++ [f]).map fun f => (f, .tick))).rate = .fin r'' ∧ 0 ≤ r'' ∧ r'' ≤ r' := by
  have hdiv : ∀ e' : EWMA, e'.interval = e.interval → e'.instantRate R 0 = .fin 0 := by
    intro e' he
    unfold instantRate
    rw [he]
    have : F64.ofInt R 0 = .fin 0 := by
      have := hR.zero
      simpa [F64.ofInt] using this
    rw [this]
    cases hf : F64.ofInt R e.interval with
    | nan => exact absurd hf (hR.not_nan _)
    | inf s => rfl
    | fin q =>
      have hq : q ≠ 0 := by rintro rfl; exact hI hf
      simp [F64.div, hq, hR.zero]
  have hstep : ∀ (e' : EWMA) (x : ℚ) (f : Bool), e'.alpha = .fin a → e'.interval = e.interval → e'.initialized = true → e'.uncounted = 0 → e'.rate = .fin x →
      R.Rep x → 0 ≤ x → ∃ v, (e'.tickF R f).rate = .fin v ∧ 0 ≤ v ∧ v ≤ x ∧ R.Rep v ∧ (e'.tickF R f).alpha = .fin a ∧ (e'.tickF R f).interval = e.interval ∧
        (e'.tickF R f).initialized = true ∧ (e'.tickF R f).uncounted = 0 := by
    intro e' x f h1 h2 h3 h4 h5 h6 h7
    obtain ⟨v, hv, hv0, hv1, hvr⟩ := lawful_idleF f hR ha ha' h6 h7
    refine ⟨v, ?_, hv0, hv1, hvr, h1, h2, rfl, rfl⟩
    have hd : ({ e' with uncounted := 0 } : EWMA).instantRate R 0 = .fin 0 := hdiv _ h2
    have : (e'.tickF R f).rate = newRateF R f e'.initialized e'.alpha e'.rate (({ e' with uncounted := 0 } : EWMA).instantRate R e'.uncounted) := rfl
    rw [this, h4, hd, h3, h1, h5, hv]
  have key : ∀ choices : List Bool, ∃ r', (runF R e (choices.map fun f => (f, .tick))).rate = .fin r' ∧ 0 ≤ r' ∧ r' ≤ r ∧ R.Rep r' ∧
      (runF R e (choices.map fun f => (f, .tick))).alpha = .fin a ∧ (runF R e (choices.map fun f => (f, .tick))).interval = e.interval ∧
      (runF R e (choices.map fun f => (f, .tick))).initialized = true ∧ (runF R e (choices.map fun f => (f, .tick))).uncounted = 0 := by
    intro choices
    induction choices using List.reverseRecOn with
    | nil => exact ⟨r, hrate, h0, le_rfl, hrep, hα, rfl, hini, hun⟩
    | append_singleton cs f ih =>
      obtain ⟨r', h1, h2, h3, h4, h5, h6, h7, h8⟩ := ih
      rw [List.map_append, runF, List.foldl_append]
      obtain ⟨v, k1, k2, k3, k4, k5⟩ := hstep _ r' f h5 h6 h7 h8 h1 h4 h2
      exact ⟨v, k1, k2, k3.trans h3, k4, k5⟩
  obtain ⟨r', h1, h2, h3, h4, h5, h6, h7, h8⟩ := key choices
  refine ⟨r', h1, h2, h3, fun f => ?_⟩
  rw [List.map_append, runF, List.foldl_append]
  obtain ⟨v, k1, k2, k3, -⟩ := hstep _ r' f h5 h6 h7 h8 h1 h4 h2
  exact ⟨v, k1, k2, k3⟩

/-- Ten idle ticks in binary64, every other one fused. -/
example : ∃ r', (runF binary64 ⟨true, .fin 3, 0, .fin (1 / 4), 5000000000⟩
    ([true, false, true, false, true, false, true, false, true, false].map fun f => (f, .tick))).rate = .fin r' ∧ 0 ≤ r' ∧ r' ≤ 3 := by
  obtain ⟨r', h1, h2, h3, -⟩ := C104_ewma_idle binary64 binary64_lawful ⟨true, .fin 3, 0, .fin (1 / 4), 5000000000⟩ (1 / 4) 3 (by norm_num) (by norm_num) rfl rfl rfl
    (by have := binary64_int (n := 3) (by norm_num); exact_mod_cast this) (by norm_num) rfl
    (by
      have := binary64_int (n := 5000000000) (by norm_num)
      show binary64.rnd ((5000000000 : Int) : ℚ) ≠ _
      rw [this]
      simp) [true, false, true, false, true, false, true, false, true, false]
  exact ⟨r', h1, h2, h3⟩

theorem step_errF (fu : Bool) {a D r x i j : ℚ} (hD : Mid D) (ha : 2 ^ (-40 : Int) ≤ a) (ha' : a ≤ 1 / 4)
    (hx : |x| ≤ D) (hj : |j| ≤ D) (hi : |i - j| ≤ 2 ^ (-53 : Int) * D) (hr : |r - x| ≤ 3 * (2 ^ (-53 : Int) * D) / a) :
    ∃ r', newRateF binary64 fu true (.fin a) (.fin r) (.fin i) = .fin r' ∧ |r' - (x + a * (j - x))| ≤ 3 * (2 ^ (-53 : Int) * D) / a := by
  have hD0 : 0 < D := lt_of_lt_of_le (by positivity) hD.lo
  have ha0 : 0 < a := lt_of_lt_of_le (by positivity) ha
  set v := (2 : ℚ) ^ (-53 : Int) * D with hv
  have hv0 : 0 < v := by positivity
  have hvD : v ≤ D / 1000 := by
    have : (2 : ℚ) ^ (-53 : Int) ≤ 1 / 1000 := by norm_num
    rw [hv]; nlinarith
  set E := 3 * v / a with hE
  have hEa : a * E = 3 * v := by rw [hE]; field_simp
  have hE0 : 0 < E := by positivity
  have hED : E ≤ D / 1000 := by
    rw [hE, div_le_iff₀ ha0]
    have h1 : 3 * v = D * (3 * 2 ^ (-53 : Int)) := by rw [hv]; ring
    rw [h1]
    have h2 : (3 : ℚ) * 2 ^ (-53 : Int) ≤ 1 / 1000 * 2 ^ (-40 : Int) := by norm_num
    calc D * (3 * 2 ^ (-53 : Int)) ≤ D * (1 / 1000 * 2 ^ (-40 : Int)) := mul_le_mul_of_nonneg_left h2 hD0.le
      _ ≤ D * (1 / 1000 * a) := by gcongr
      _ = D / 1000 * a := by ring
  have hra := abs_le_add hr hx
  have hia := abs_le_add hi hj
  -- the difference
  have hd : |i + -r| ≤ 2.02 * D := by
    rw [abs_le] at *; constructor <;> linarith [hra.1, hra.2, hia.1, hia.2]
  obtain ⟨s, e1, f1⟩ := hD.rnd (k := 2.02) (by norm_num) (by norm_num) hd
  have hs : |s| ≤ 2.02 * D + 2.02 * v := by
    have f1' : |s - (i + -r)| ≤ 2.02 * v := by refine f1.trans (le_of_eq ?_); rw [hv]; ring
    have := abs_le_add f1' hd
    linarith
  -- the product
  have hp0 : |a * s| ≤ 2.03 * a * D := by
    rw [abs_mul, abs_of_pos ha0]
    calc a * |s| ≤ a * (2.03 * D) := mul_le_mul_of_nonneg_left (by linarith) ha0.le
      _ = 2.03 * a * D := by ring
  obtain ⟨p, e2, hf2⟩ : ∃ p, (binary64.product fu).rnd (a * s) = .fin p ∧ |p - a * s| ≤ 2.03 * (a * v) := by
    cases fu with
    | true => exact ⟨a * s, rfl, by rw [sub_self, abs_zero]; positivity⟩
    | false =>
      obtain ⟨p, e2, f2⟩ := hD.rnd (k := 2.03 * a) (by
        calc (2 : ℚ) ^ (-50 : Int) ≤ 2 ^ (-40 : Int) := zpow_le_zpow_right₀ (by norm_num) (by norm_num)
          _ ≤ 2.03 * a := ha.trans (by linarith)) (by linarith) hp0
      exact ⟨p, e2, by refine f2.trans (le_of_eq ?_); rw [hv]; ring⟩
  have haD : a * D ≤ D / 4 := by nlinarith
  have hav : a * v ≤ v / 4 := by nlinarith
  have hp : |p| ≤ 2.04 * (a * D) := by
    have h1 := abs_le_add hf2 hp0
    have h2 : a * v ≤ a * (D / 1000) := mul_le_mul_of_nonneg_left hvD ha0.le
    have h3 : a * (D / 1000) = a * D / 1000 := by ring
    have h4 : 2.03 * a * D = 2.03 * (a * D) := by ring
    have h5 : 0 < a * D := by positivity
    rw [h3] at h2
    rw [h4] at h1
    refine h1.trans ?_
    linarith
  -- the sum
  have ho : |r + p| ≤ 1.53 * D := by
    rw [abs_le] at *; constructor <;> linarith [hra.1, hra.2, hp.1, hp.2]
  obtain ⟨r', e3, f3⟩ := hD.rnd (k := 1.53) (by norm_num) (by norm_num) ho
  refine ⟨r', ?_, ?_⟩
  · simp only [newRateF, if_true, F64.sub, F64.neg, F64.add, e1, F64.mul, e2, e3]
  · have hf1 : |a * (s - (i + -r))| ≤ 2.02 * (a * v) := by
      rw [abs_mul, abs_of_pos ha0]
      calc a * |s - (i + -r)| ≤ a * (2 ^ (-53 : Int) * (2.02 * D)) := mul_le_mul_of_nonneg_left f1 ha0.le
        _ = 2.02 * (a * v) := by rw [hv]; ring
    have hg : |a * (i - j)| ≤ a * v := by
      rw [abs_mul, abs_of_pos ha0]; exact mul_le_mul_of_nonneg_left hi ha0.le
    have hh : |(1 - a) * (r - x)| ≤ E - 3 * v := by
      rw [abs_mul, abs_of_pos (by linarith : (0 : ℚ) < 1 - a)]
      calc (1 - a) * |r - x| ≤ (1 - a) * E := mul_le_mul_of_nonneg_left hr (by linarith)
        _ = E - 3 * v := by rw [sub_mul, one_mul, hEa]
    have hf3 : |r' - (r + p)| ≤ 1.53 * v := by refine f3.trans (le_of_eq ?_); rw [hv]; ring
    have e : r' - (x + a * (j - x)) = (r' - (r + p)) + (p - a * s) + a * (s - (i + -r)) + a * (i - j) + (1 - a) * (r - x) := by ring
    rw [e]
    rw [abs_le] at hf3 hf2 hf1 hg hh ⊢
    constructor <;> linarith [hf3.1, hf3.2, hf2.1, hf2.2, hf1.1, hf1.2, hg.1, hg.2, hh.1, hh.2]

theorem foldl_errF {a D : ℚ} (hD : Mid D) (ha : 2 ^ (-40 : Int) ≤ a) (ha' : a ≤ 1 / 4) {I : Int} (hI : 0 < I) (hI' : I < 2 ^ 53) (r0 : F64) (c0 : Bool × Int)
    (cs : List (Bool × Int)) (hc : ∀ c ∈ c0 :: cs, |c.2| < 2 ^ 53 ∧ |(c.2 : ℚ) / I| ≤ D) :
    ∃ r, (c0 :: cs).foldl (coreTickF binary64 (.fin a) I) (false, r0) = (true, .fin r) ∧
      |r - Spec.average a I c0.2 (cs.map Prod.snd)| ≤ 3 * (2 ^ (-53 : Int) * D) / a ∧ |Spec.average a I c0.2 (cs.map Prod.snd)| ≤ D := by
  have ha0 : 0 < a := lt_of_lt_of_le (by positivity) ha
  have hD0 : 0 < D := lt_of_lt_of_le (by positivity) hD.lo
  have hin : ∀ cs : List (Bool × Int), (∀ c ∈ c0 :: cs, |c.2| < 2 ^ 53 ∧ |(c.2 : ℚ) / I| ≤ D) → |Spec.average a I c0.2 (cs.map Prod.snd)| ≤ D := by
    intro cs hc
    refine abs_le.2 (average_range ha0.le (by linarith) fun c hcm => ?_)
    rw [show c0.2 :: cs.map Prod.snd = (c0 :: cs).map Prod.snd from rfl] at hcm
    obtain ⟨d, hd, rfl⟩ := List.mem_map.1 hcm
    exact abs_le.1 (hc d hd).2
  induction cs using List.reverseRecOn with
  | nil =>
    obtain ⟨i, e1, e2⟩ := instant_err hD (hc c0 (by simp)).1 hI hI' (hc c0 (by simp)).2
    refine ⟨i, ?_, ?_, hin _ hc⟩
    · simp only [List.foldl_cons, List.foldl_nil, coreTickF, e1]
      simp [newRateF]
    · simp only [Spec.average, List.map_nil, List.length_nil, pow_zero, one_mul, Finset.range_zero, Finset.sum_empty, add_zero]
      refine e2.trans ?_
      rw [le_div_iff₀ ha0]
      have : 0 < (2 : ℚ) ^ (-53 : Int) * D := by positivity
      nlinarith
  | append_singleton cs c ih =>
    have hc' : ∀ c ∈ c0 :: cs, |c.2| < 2 ^ 53 ∧ |(c.2 : ℚ) / I| ≤ D := fun d hd => hc d (by
      rcases List.mem_cons.1 hd with rfl | hd <;> simp [*])
    obtain ⟨r, e1, e2, e3⟩ := ih hc'
    have hcc := hc c (by simp)
    obtain ⟨i, e4, e5⟩ := instant_err hD hcc.1 hI hI' hcc.2
    obtain ⟨r', e6, e7⟩ := step_errF c.1 hD ha ha' e3 hcc.2 e5 e2
    refine ⟨r', ?_, ?_, hin _ hc⟩
    · rw [← List.cons_append, List.foldl_append, e1]
      simp only [List.foldl_cons, List.foldl_nil, coreTickF, e4, e6]
    · rw [List.map_append, List.map_singleton, average_snoc]
      convert e7 using 2
      ring

/-- **C104.** `C92` holds however the compiler fuses: for `2⁻⁴⁰ ≤ alpha ≤ 1/4` and a history of calls of *any* length in which no tick counts more
than `M < 2⁵³` events, the rate in binary64 is finite and differs from the exactly computed one by at most `(4/alpha) 2⁻⁵³` of the largest rate `M/I`. -/
theorem _root_.GoMetrics.C104_ewma_accurate (a : ℚ) (ha : 2 ^ (-40 : Int) ≤ a) (ha' : a ≤ 1 / 4) (I : Int) (hI : 0 < I) (hI' : I < 2 ^ 53) (M : Int) (hM : 1 ≤ M)
    (hM' : M < 2 ^ 53) (h : List (Bool × Op)) (hne : Spec.tickCounts 0 (h.map Prod.snd) ≠ []) (hc : ∀ c ∈ Spec.tickCounts 0 (h.map Prod.snd), |c| ≤ M) (unit : Int)
    (hu : 0 < unit) (hu' : unit < 2 ^ 53) :
    ∃ r x, (runF binary64 (new (.fin a) I) h).getRate binary64 unit = .fin r ∧ (run exact (new (.fin a) I) (h.map Prod.snd)).getRate exact unit = .fin x ∧
      |r - x| ≤ 4 / a * 2 ^ (-53 : Int) * ((M : ℚ) / I * unit) := by
  have hne' : ticksF 0 h ≠ [] := fun e => hne (by rw [← ticksF_map, e]; rfl)
  obtain ⟨c0, cs, ht⟩ := List.exists_cons_of_ne_nil hne'
  have htc : Spec.tickCounts 0 (h.map Prod.snd) = c0.2 :: cs.map Prod.snd := by rw [← ticksF_map, ht]; rfl
  have hc : ∀ c ∈ c0 :: cs, |c.2| ≤ M := fun c hcm => hc c.2 (by rw [← ticksF_map, ht]; exact List.mem_map.2 ⟨c, hcm, rfl⟩)
  have ha0 : 0 < a := lt_of_lt_of_le (by positivity) ha
  have hIq : (0 : ℚ) < I := by exact_mod_cast hI
  have hMq : (1 : ℚ) ≤ M := by exact_mod_cast hM
  have huq : (1 : ℚ) ≤ unit := by exact_mod_cast hu
  have hIq' : (I : ℚ) ≤ 2 ^ (53 : Int) := by exact_mod_cast hI'.le
  have hMq' : (M : ℚ) ≤ 2 ^ (53 : Int) := by exact_mod_cast hM'.le
  have huq' : (unit : ℚ) ≤ 2 ^ (53 : Int) := by exact_mod_cast hu'.le
  have hI1 : (1 : ℚ) ≤ I := by exact_mod_cast hI
  have hlo : (2 : ℚ) ^ (-53 : Int) ≤ M / I := by
    rw [le_div_iff₀ hIq]
    calc (2 : ℚ) ^ (-53 : Int) * I ≤ 2 ^ (-53 : Int) * 2 ^ (53 : Int) := mul_le_mul_of_nonneg_left hIq' (by positivity)
      _ = 1 := by rw [← zpow_add₀ (by norm_num)]; norm_num
      _ ≤ M := hMq
  have hhi : (M : ℚ) / I ≤ 2 ^ (53 : Int) := by
    rw [div_le_iff₀ hIq]
    nlinarith
  have hD : Mid ((M : ℚ) / I) := ⟨le_trans (zpow_le_zpow_right₀ (by norm_num) (by norm_num)) hlo, hhi.trans (zpow_le_zpow_right₀ (by norm_num) (by norm_num))⟩
  have hcs : ∀ c ∈ c0 :: cs, |c.2| < 2 ^ 53 ∧ |(c.2 : ℚ) / I| ≤ (M : ℚ) / I := by
    intro c hcm
    have h1 := hc c hcm
    refine ⟨by omega, ?_⟩
    rw [abs_div, abs_of_pos hIq]
    apply div_le_div_of_nonneg_right _ hIq.le
    exact_mod_cast h1
  obtain ⟨x, e1, e2, e3⟩ := foldl_errF hD ha ha' hI hI' (.fin 0) c0 cs hcs
  have hcore := core_runF binary64 h (new (.fin a) I) 0 (by simp [new])
  rw [ht, show core (new (.fin a) I) = (false, .fin 0) from rfl, show (new (.fin a) I).alpha = .fin a from rfl,
    show (new (.fin a) I).interval = I from rfl, e1] at hcore
  have hrate : (runF binary64 (new (.fin a) I) h).rate = .fin x := congrArg Prod.snd hcore
  have hunit : F64.ofInt binary64 unit = .fin unit := binary64_int (by rw [abs_of_pos hu]; exact hu')
  have hexact : (run exact (new (.fin a) I) (h.map Prod.snd)).getRate exact unit = .fin (Spec.average a I c0.2 (cs.map Prod.snd) * unit) := by
    have hcore := core_run exact (h.map Prod.snd) (new (.fin a) I) 0 (by simp [new])
    rw [htc, show core (new (.fin a) I) = (false, .fin 0) from rfl, show (new (.fin a) I).alpha = .fin a from rfl,
      show (new (.fin a) I).interval = I from rfl, foldl_exact a hI.ne'] at hcore
    exact exact_getRate (congrArg Prod.snd hcore)
  have hD0 : 0 < (M : ℚ) / I := by positivity
  generalize (M : ℚ) / I = D at *
  have hED : 3 * (2 ^ (-53 : Int) * D) / a ≤ D / 100 := by
    rw [div_le_iff₀ ha0]
    calc 3 * ((2 : ℚ) ^ (-53 : Int) * D) = D * (3 * 2 ^ (-53 : Int)) := by ring
      _ ≤ D * (1 / 100 * 2 ^ (-40 : Int)) := mul_le_mul_of_nonneg_left (by norm_num) hD0.le
      _ ≤ D * (1 / 100 * a) := by gcongr
      _ = D / 100 * a := by ring
  have hx : |x * unit| ≤ 1.01 * D * unit := by
    rw [abs_mul, abs_of_pos (by linarith : (0 : ℚ) < unit)]
    apply mul_le_mul_of_nonneg_right _ (by linarith)
    have := abs_le_add e2 e3
    linarith
  obtain ⟨r, f1, f2⟩ := rnd_err' hx (by
      calc (2 : ℚ) ^ (-200 : Int) ≤ 1 * 2 ^ (-53 : Int) * 1 := by norm_num
        _ ≤ 1.01 * D * unit := by gcongr; norm_num) (by
      calc 1.01 * D * unit ≤ 2 * 2 ^ (53 : Int) * 2 ^ (53 : Int) := by gcongr; norm_num
        _ ≤ 2 ^ (200 : Int) := by norm_num)
  refine ⟨r, _, ?_, hexact, ?_⟩
  · unfold getRate
    rw [hrate, hunit]
    exact f1
  · generalize Spec.average a I c0.2 (cs.map Prod.snd) = A at *
    have e : r - A * unit = (r - x * unit) + (x - A) * unit := by ring
    rw [e]
    refine (abs_add_le _ _).trans ?_
    rw [abs_mul (x - _), abs_of_pos (by linarith : (0 : ℚ) < unit)]
    have h1 : |x - A| * unit ≤ 3 * (2 ^ (-53 : Int) * D) / a * unit := mul_le_mul_of_nonneg_right e2 (by linarith)
    have hP : 0 ≤ (2 : ℚ) ^ (-53 : Int) * (D * unit) := by positivity
    have h4 : 4 ≤ 1 / a := by rw [le_div_iff₀ ha0]; linarith
    have h5 : 1.01 * ((2 : ℚ) ^ (-53 : Int) * (D * unit)) ≤ 1 / a * (2 ^ (-53 : Int) * (D * unit)) := mul_le_mul_of_nonneg_right (by linarith) hP
    have h6 : (2 : ℚ) ^ (-53 : Int) * (1.01 * D * unit) = 1.01 * (2 ^ (-53 : Int) * (D * unit)) := by ring
    have h7 : 3 * ((2 : ℚ) ^ (-53 : Int) * D) / a * unit = 3 / a * (2 ^ (-53 : Int) * (D * unit)) := by ring
    have h8 : 4 / a * 2 ^ (-53 : Int) * (D * unit) = 3 / a * (2 ^ (-53 : Int) * (D * unit)) + 1 / a * (2 ^ (-53 : Int) * (D * unit)) := by ring
    rw [h6] at f2
    rw [h7] at h1
    rw [h8]
    linarith

/-- A history with every choice: a tick of 10 events, one of 3, one idle. -/
example : ∃ r x, (runF binary64 (new (.fin (1 / 8)) 5000000000) [(true, .tickN 10), (false, .update 3), (true, .tick), (false, .tick)]).getRate binary64 1000000000 = .fin r ∧
    (run exact (new (.fin (1 / 8)) 5000000000) [.tickN 10, .update 3, .tick, .tick]).getRate exact 1000000000 = .fin x ∧
    |r - x| ≤ 4 / (1 / 8) * 2 ^ (-53 : Int) * (((10 : Int) : ℚ) / (5000000000 : Int) * (1000000000 : Int)) :=
  C104_ewma_accurate (1 / 8) (by norm_num) (by norm_num) 5000000000 (by norm_num) (by norm_num) 10 (by norm_num) (by norm_num)
    [(true, .tickN 10), (false, .update 3), (true, .tick), (false, .tick)] (by decide) (by decide) 1000000000 (by norm_num) (by norm_num)

end EWMA
end GoMetrics
