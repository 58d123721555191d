import Verif.Proofs.EWMAIdeal
/-! # C92 — the standard moving averages are what they claim to be, in binary64, however long they run -/
namespace GoMetrics
namespace EWMA
open Rounding

/-- The rate of a rounded moving average against the exact one with the same smoothing constant. -/
theorem rate_err {a : ℚ} (ha : 2 ^ (-40 : Int) ≤ a) (ha' : a ≤ 1 / 4) {I : Int} (hI : 0 < I) (hI' : I < 2 ^ 53) {M : Int} (hM : 1 ≤ M) (hM' : M < 2 ^ 53)
    {h : List Op} {c0 : Int} {cs : List Int} (ht : Spec.tickCounts 0 h = c0 :: cs) (hc : ∀ c ∈ c0 :: cs, |c| ≤ M) {unit : Int} (hu : 0 < unit)
    (hu' : unit < 2 ^ 53) :
    ∃ r, (run binary64 (new (.fin a) I) h).getRate binary64 unit = .fin r ∧
      |r - Spec.average a I c0 cs * unit| ≤ (3 / a + 1.01) * (2 ^ (-53 : Int) * ((M : ℚ) / I * unit)) := by
  have hIq : (0 : ℚ) < I := by exact_mod_cast hI
  have hMq : (1 : ℚ) ≤ M := by exact_mod_cast hM
  have huq : (1 : ℚ) ≤ unit := by exact_mod_cast hu
  have hIq' : (I : ℚ) ≤ 2 ^ (53 : Int) := by exact_mod_cast hI'.le
  have hMq' : (M : ℚ) ≤ 2 ^ (53 : Int) := by exact_mod_cast hM'.le
  have huq' : (unit : ℚ) ≤ 2 ^ (53 : Int) := by exact_mod_cast hu'.le
  have hI1 : (1 : ℚ) ≤ I := by exact_mod_cast hI
  have hlo : (2 : ℚ) ^ (-53 : Int) ≤ M / I := by
    rw [le_div_iff₀ hIq]
    calc (2 : ℚ) ^ (-53 : Int) * I ≤ 2 ^ (-53 : Int) * 2 ^ (53 : Int) := mul_le_mul_of_nonneg_left hIq' (by positivity)
      _ = 1 := by rw [← zpow_add₀ (by norm_num)]; norm_num
      _ ≤ M := hMq
  have hhi : (M : ℚ) / I ≤ 2 ^ (53 : Int) := by
    rw [div_le_iff₀ hIq]
    nlinarith
  have hD : Mid ((M : ℚ) / I) := ⟨le_trans (zpow_le_zpow_right₀ (by norm_num) (by norm_num)) hlo, hhi.trans (zpow_le_zpow_right₀ (by norm_num) (by norm_num))⟩
  have hcs : ∀ c ∈ c0 :: cs, |c| < 2 ^ 53 ∧ |(c : ℚ) / I| ≤ (M : ℚ) / I := by
    intro c hcm
    have h1 := hc c hcm
    refine ⟨by omega, ?_⟩
    rw [abs_div, abs_of_pos hIq]
    apply div_le_div_of_nonneg_right _ hIq.le
    exact_mod_cast h1
  obtain ⟨x, e1, e2, e3⟩ := foldl_err hD ha ha' hI hI' (.fin 0) c0 cs hcs
  have hcore := core_run binary64 h (new (.fin a) I) 0 (by simp [new])
  rw [ht, show core (new (.fin a) I) = (false, .fin 0) from rfl, show (new (.fin a) I).alpha = .fin a from rfl,
    show (new (.fin a) I).interval = I from rfl, e1] at hcore
  have hrate : (run binary64 (new (.fin a) I) h).rate = .fin x := congrArg Prod.snd hcore
  have hunit : F64.ofInt binary64 unit = .fin unit := binary64_int (by rw [abs_of_pos hu]; exact hu')
  have hD0 : 0 < (M : ℚ) / I := by positivity
  generalize (M : ℚ) / I = D at *
  have ha0 : 0 < a := lt_of_lt_of_le (by positivity) ha
  have hED : 3 * (2 ^ (-53 : Int) * D) / a ≤ D / 100 := by
    rw [div_le_iff₀ ha0]
    calc 3 * ((2 : ℚ) ^ (-53 : Int) * D) = D * (3 * 2 ^ (-53 : Int)) := by ring
      _ ≤ D * (1 / 100 * 2 ^ (-40 : Int)) := mul_le_mul_of_nonneg_left (by norm_num) hD0.le
      _ ≤ D * (1 / 100 * a) := by gcongr
      _ = D / 100 * a := by ring
  have hx : |x * unit| ≤ 1.01 * D * unit := by
    rw [abs_mul, abs_of_pos (by linarith : (0 : ℚ) < unit)]
    apply mul_le_mul_of_nonneg_right _ (by linarith)
    have := abs_le_add e2 e3
    linarith
  obtain ⟨r, f1, f2⟩ := rnd_err' hx (by
      calc (2 : ℚ) ^ (-200 : Int) ≤ 1 * 2 ^ (-53 : Int) * 1 := by norm_num
        _ ≤ 1.01 * D * unit := by gcongr; norm_num) (by
      calc 1.01 * D * unit ≤ 2 * 2 ^ (53 : Int) * 2 ^ (53 : Int) := by gcongr; norm_num
        _ ≤ 2 ^ (200 : Int) := by norm_num)
  refine ⟨r, ?_, ?_⟩
  · unfold getRate
    rw [hrate, hunit]
    exact f1
  · have e : r - Spec.average a I c0 cs * unit = (r - x * unit) + (x - Spec.average a I c0 cs) * unit := by ring
    rw [e]
    refine (abs_add_le _ _).trans ?_
    rw [abs_mul (x - _), abs_of_pos (by linarith : (0 : ℚ) < unit)]
    have h1 : |x - Spec.average a I c0 cs| * unit ≤ 3 * (2 ^ (-53 : Int) * D) / a * unit := mul_le_mul_of_nonneg_right e2 (by linarith)
    have h2 : (3 / a + 1.01) * (2 ^ (-53 : Int) * (D * unit)) = 2 ^ (-53 : Int) * (1.01 * D * unit) + 3 * (2 ^ (-53 : Int) * D) / a * unit := by ring
    rw [h2]
    exact add_le_add f2 h1

/-- **C92.** Rounding errors of a moving average do not accumulate. For `2⁻⁴⁰ ≤ alpha ≤ 1/4` and a history of calls of *any* length in which no tick counts more
than `M < 2⁵³` events, the rate in binary64 is finite and differs from the exactly computed one by at most `(4/alpha) 2⁻⁵³` of the largest rate `M/I`. -/
theorem C92_accurate (a : ℚ) (ha : 2 ^ (-40 : Int) ≤ a) (ha' : a ≤ 1 / 4) (I : Int) (hI : 0 < I) (hI' : I < 2 ^ 53) (M : Int) (hM : 1 ≤ M) (hM' : M < 2 ^ 53)
    (h : List Op) (hne : Spec.tickCounts 0 h ≠ []) (hc : ∀ c ∈ Spec.tickCounts 0 h, |c| ≤ M) (unit : Int) (hu : 0 < unit) (hu' : unit < 2 ^ 53) :
    ∃ r x, (run binary64 (new (.fin a) I) h).getRate binary64 unit = .fin r ∧ (run exact (new (.fin a) I) h).getRate exact unit = .fin x ∧
      |r - x| ≤ 4 / a * 2 ^ (-53 : Int) * ((M : ℚ) / I * unit) := by
  obtain ⟨c0, cs, ht⟩ := List.exists_cons_of_ne_nil hne
  rw [ht] at hc
  obtain ⟨r, e1, e2⟩ := rate_err ha ha' hI hI' hM hM' ht hc hu hu'
  have ha0 : 0 < a := lt_of_lt_of_le (by positivity) ha
  refine ⟨r, Spec.average a I c0 cs * unit, e1, ?_, e2.trans ?_⟩
  · have hcore := core_run exact h (new (.fin a) I) 0 (by simp [new])
    rw [ht, show core (new (.fin a) I) = (false, .fin 0) from rfl, show (new (.fin a) I).alpha = .fin a from rfl,
      show (new (.fin a) I).interval = I from rfl, foldl_exact a hI.ne'] at hcore
    exact exact_getRate (congrArg Prod.snd hcore)
  · have hP : 0 ≤ (2 : ℚ) ^ (-53 : Int) * ((M : ℚ) / I * unit) := by
      have : (0 : ℚ) < I := by exact_mod_cast hI
      have : (0 : ℚ) < M := by exact_mod_cast hM
      have : (0 : ℚ) < unit := by exact_mod_cast hu
      positivity
    rw [mul_assoc (4 / a)]
    apply mul_le_mul_of_nonneg_right _ hP
    have : 4 ≤ 1 / a := by rw [le_div_iff₀ ha0]; linarith
    have e : 4 / a = 3 / a + 1 / a := by ring
    linarith

/-- The three standard averages and their time constants in minutes. -/
def standard (exp : F64 → F64) : List (EWMA × Int) :=
  [(newOneMinute binary64 exp, 1), (newFiveMinutes binary64 exp, 5), (newFifteenMinutes binary64 exp, 15)]

/-- **C92.** The one-, five- and fifteen-minute averages, as they come from their constructors and run in binary64 with any `math.Exp` that is accurate to 1 ulp:
after any history of calls, however long, in which no tick counts more than `M < 2⁵³` events, `GetRate` is the ideal (real-number) moving average with a time
constant of `N` minutes, up to `N 2⁻⁴⁶` of the largest rate. -/
theorem C92_standard (exp : F64 → F64) (hexp : Spec.GoodExp exp) (e : EWMA) (N : Int) (he : (e, N) ∈ standard exp) (h : List Op) (c0 : Int) (cs : List Int)
    (ht : Spec.tickCounts 0 h = c0 :: cs) (M : Int) (hM : 1 ≤ M) (hM' : M < 2 ^ 53) (hc : ∀ c ∈ c0 :: cs, |c| ≤ M) (unit : Int) (hu : 0 < unit)
    (hu' : unit < 2 ^ 53) :
    ∃ r : ℚ, (run binary64 e h).getRate binary64 unit = .fin r ∧
      |(r : ℝ) - Spec.ideal N c0 cs * unit| ≤ N * 2 ^ (-46 : Int) * ((M : ℝ) / 5000000000 * unit) := by
  have hN : 1 ≤ N ∧ N ≤ 15 ∧ e = new (standardAlpha binary64 exp N) 5000000000 := by
    simp only [standard, List.mem_cons, List.not_mem_nil, or_false, Prod.mk.injEq] at he
    rcases he with ⟨rfl, rfl⟩ | ⟨rfl, rfl⟩ | ⟨rfl, rfl⟩ <;> exact ⟨by norm_num, by norm_num, rfl⟩
  obtain ⟨hN1, hN2, rfl⟩ := hN
  obtain ⟨a, ea, fa⟩ := alpha_err hexp hN1 (by omega)
  have hNr : (1 : ℝ) ≤ N := by exact_mod_cast hN1
  have hNr' : (N : ℝ) ≤ 15 := by exact_mod_cast hN2
  obtain ⟨g1, g2⟩ := alpha_ge hNr
  set α := 1 - Real.exp (-(5 / 60) / N) with hα
  have hu53 : (2 : ℝ) ^ (-53 : Int) ≤ 1 / 1000000 := by norm_num
  have hu530 : (0 : ℝ) < (2 : ℝ) ^ (-53 : Int) := by positivity
  have hN195 : 1 / 195 ≤ 1 / (13 * (N : ℝ)) := one_div_le_one_div_of_le (by linarith) (by linarith)
  have fa' := abs_le.1 fa
  have har : 1 / (13.1 * (N : ℝ)) ≤ a := by
    have h1 : 1 / (13.1 * (N : ℝ)) = 1 / (13 * N) * (130 / 131) := by field_simp; norm_num
    have h2 : 1 / (13 * (N : ℝ)) * (130 / 131) ≤ 1 / (13 * (N : ℝ)) - 1 / 195 * (1 / 131) := by linarith
    rw [h1]
    linarith [fa'.1]
  have har' : (a : ℝ) ≤ 1 / 4 := by linarith [fa'.2]
  have hal : (1 : ℝ) / 200 ≤ a := by
    have : 1 / (13.1 * (15 : ℝ)) ≤ 1 / (13.1 * (N : ℝ)) := one_div_le_one_div_of_le (by linarith) (by linarith)
    have h3 : (1 : ℝ) / 200 ≤ 1 / (13.1 * 15) := by norm_num
    linarith
  have hq1 : (1 : ℚ) / 200 ≤ a := by
    have : (((1 : ℚ) / 200 : ℚ) : ℝ) ≤ (a : ℝ) := by push_cast; exact hal
    exact_mod_cast this
  have hq2 : a ≤ 1 / 4 := by
    have : (a : ℝ) ≤ (((1 : ℚ) / 4 : ℚ) : ℝ) := by push_cast; exact har'
    exact_mod_cast this
  obtain ⟨r, e1, e2⟩ := rate_err (le_trans (by norm_num) hq1) hq2 (by norm_num : (0 : Int) < 5000000000) (by norm_num) hM hM' ht hc hu hu'
  refine ⟨r, by rw [ea]; exact e1, ?_⟩
  have e2r : |(r : ℝ) - averageR a 5000000000 c0 cs * unit| ≤ (3 / a + 1.01) * (2 ^ (-53 : Int) * ((M : ℝ) / 5000000000 * unit)) := by
    rw [← cast_average]
    have h1 : ((|r - Spec.average a 5000000000 c0 cs * unit| : ℚ) : ℝ) ≤
        (((3 / a + 1.01) * (2 ^ (-53 : Int) * ((M : ℚ) / (5000000000 : Int) * unit)) : ℚ) : ℝ) := by exact_mod_cast e2
    push_cast at h1 ⊢
    exact h1
  have ha0 : (0 : ℝ) < a := by linarith
  have hur : (0 : ℝ) < unit := by exact_mod_cast hu
  have hMr : (0 : ℝ) < M := by exact_mod_cast hM
  have hdiff := averageR_diff (a := (a : ℝ)) (α := α) (D := (M : ℝ) / 5000000000) ha0 (by linarith) (by linarith) (by linarith) (I := 5000000000) (c0 := c0) (cs := cs) (by
    intro c hcm
    have h1 := hc c hcm
    rw [abs_div]
    push_cast
    rw [abs_of_pos (by norm_num : (0 : ℝ) < 5000000000)]
    apply div_le_div_of_nonneg_right _ (by norm_num)
    exact_mod_cast h1)
  rw [ideal_eq, ← hα]
  set D := (M : ℝ) / 5000000000 with hDdef
  have hD0 : 0 < D := by positivity
  set u := (2 : ℝ) ^ (-53 : Int) with hudef
  have e : (r : ℝ) - averageR α 5000000000 c0 cs * unit =
      (r - averageR a 5000000000 c0 cs * unit) + (averageR a 5000000000 c0 cs - averageR α 5000000000 c0 cs) * unit := by ring
  rw [e]
  refine (abs_add_le _ _).trans ?_
  rw [abs_mul (_ - _) (unit : ℝ), abs_of_pos hur]
  have h1 : 2 * D * |(a : ℝ) - α| / a * unit ≤ 4.6 / a * (u * (D * unit)) := by
    have : 2 * D * |(a : ℝ) - α| ≤ 2 * D * (2.3 * u) := mul_le_mul_of_nonneg_left fa (by linarith)
    calc 2 * D * |(a : ℝ) - α| / a * unit ≤ 2 * D * (2.3 * u) / a * unit := by gcongr
      _ = 4.6 / a * (u * (D * unit)) := by ring
  have h2 : |averageR a 5000000000 c0 cs - averageR α 5000000000 c0 cs| * unit ≤ 2 * D * |(a : ℝ) - α| / a * unit :=
    mul_le_mul_of_nonneg_right hdiff hur.le
  have h3 : 1 / (a : ℝ) ≤ 13.1 * N := by
    rw [div_le_iff₀ ha0]
    rw [div_le_iff₀ (by linarith)] at har
    linarith
  have h4 : (3 / (a : ℝ) + 1.01) + 4.6 / a ≤ 128 * N := by
    have : (3 / (a : ℝ) + 1.01) + 4.6 / a = 7.6 * (1 / a) + 1.01 := by ring
    rw [this]
    linarith
  have h46 : (2 : ℝ) ^ (-46 : Int) = 128 * u := by rw [hudef]; norm_num
  have hP : 0 ≤ u * (D * unit) := by positivity
  calc _ ≤ (3 / (a : ℝ) + 1.01) * (u * (D * unit)) + 4.6 / a * (u * (D * unit)) := add_le_add e2r (h2.trans h1)
    _ = ((3 / (a : ℝ) + 1.01) + 4.6 / a) * (u * (D * unit)) := by ring
    _ ≤ 128 * N * (u * (D * unit)) := mul_le_mul_of_nonneg_right h4 hP
    _ = N * 2 ^ (-46 : Int) * (D * unit) := by rw [h46]; ring

theorem averageR_zeros (a : ℝ) (I c0 : Int) (cs : List Int) (k : ℕ) :
    averageR a I c0 (cs ++ List.replicate k 0) = (1 - a) ^ k * averageR a I c0 cs := by
  induction k with
  | zero => simp
  | succ k ih => rw [List.replicate_succ', ← List.append_assoc, averageR_snoc, ih, pow_succ]; simp; ring

theorem averageR_const (a : ℝ) (I c : Int) (k : ℕ) : averageR a I c (List.replicate k c) = (c : ℝ) / I := by
  induction k with
  | zero => simp [averageR]
  | succ k ih => rw [List.replicate_succ', averageR_snoc, ih]; ring

/-- **C92.** Fading: `k` further ticks (`5 k` seconds) without events multiply the `N`-minute rate by `exp (-(5 k / 60) / N)`, up to rounding errors of
`2 N 2⁻⁴⁶` of the largest rate. After `N` idle minutes it is down to 1/e. -/
theorem C92_fades (exp : F64 → F64) (hexp : Spec.GoodExp exp) (e : EWMA) (N : Int) (he : (e, N) ∈ standard exp) (h h' : List Op) (c0 : Int) (cs : List Int) (k : ℕ)
    (ht : Spec.tickCounts 0 h = c0 :: cs) (ht' : Spec.tickCounts 0 h' = c0 :: cs ++ List.replicate k 0) (M : Int) (hM : 1 ≤ M) (hM' : M < 2 ^ 53)
    (hc : ∀ c ∈ c0 :: cs, |c| ≤ M) (unit : Int) (hu : 0 < unit) (hu' : unit < 2 ^ 53) :
    ∃ r r' : ℚ, (run binary64 e h).getRate binary64 unit = .fin r ∧ (run binary64 e h').getRate binary64 unit = .fin r' ∧
      |(r' : ℝ) - Real.exp (-(5 * k / 60) / N) * r| ≤ 2 * N * 2 ^ (-46 : Int) * ((M : ℝ) / 5000000000 * unit) := by
  obtain ⟨r, e1, e2⟩ := C92_standard exp hexp e N he h c0 cs ht M hM hM' hc unit hu hu'
  obtain ⟨r', e1', e2'⟩ := C92_standard exp hexp e N he h' c0 (cs ++ List.replicate k 0) (by rw [ht', List.cons_append]) M hM hM' (by
    intro c hcm
    rcases List.mem_cons.1 hcm with rfl | hcm
    · exact hc c (by simp)
    · rcases List.mem_append.1 hcm with hcm | hcm
      · exact hc c (by simp [hcm])
      · rw [List.eq_of_mem_replicate hcm, abs_zero]; omega) unit hu hu'
  refine ⟨r, r', e1, e1', ?_⟩
  have hN : (0 : ℝ) < N := by
    simp only [standard, List.mem_cons, List.not_mem_nil, or_false, Prod.mk.injEq] at he
    rcases he with ⟨-, rfl⟩ | ⟨-, rfl⟩ | ⟨-, rfl⟩ <;> norm_num
  rw [ideal_eq, averageR_zeros, ← exp_mul, ← ideal_eq] at e2'
  set F := Real.exp (-(5 * k / 60) / N) with hF
  have hF0 : 0 < F := Real.exp_pos _
  have hF1 : F ≤ 1 := by
    rw [hF, Real.exp_le_one_iff]
    apply div_nonpos_of_nonpos_of_nonneg _ hN.le
    have : (0 : ℝ) ≤ k := Nat.cast_nonneg k
    linarith
  set B := (N : ℝ) * 2 ^ (-46 : Int) * ((M : ℝ) / 5000000000 * unit) with hB
  have hB0 : 0 ≤ B := le_trans (abs_nonneg _) e2
  have h3 : |F * (r - Spec.ideal N c0 cs * unit)| ≤ B := by
    rw [abs_mul, abs_of_pos hF0]
    calc F * |(r : ℝ) - Spec.ideal N c0 cs * unit| ≤ 1 * B := mul_le_mul hF1 e2 (abs_nonneg _) (by norm_num)
      _ = B := one_mul B
  have e4 : (r' : ℝ) - F * r = (r' - F * Spec.ideal N c0 cs * unit) - F * (r - Spec.ideal N c0 cs * unit) := by ring
  have e5 : 2 * (N : ℝ) * 2 ^ (-46 : Int) * ((M : ℝ) / 5000000000 * unit) = B + B := by rw [hB]; ring
  rw [e4, e5]
  rw [abs_le] at *
  constructor <;> linarith [e2'.1, e2'.2, h3.1, h3.2]

/-- **C92.** Steady load: if every tick counts the same number `c` of events, the rate is `c` per 5 seconds, up to `N 2⁻⁴⁶` of it - from the first tick on
and for ever. -/
theorem C92_steady (exp : F64 → F64) (hexp : Spec.GoodExp exp) (e : EWMA) (N : Int) (he : (e, N) ∈ standard exp) (h : List Op) (c : Int) (k : ℕ)
    (ht : Spec.tickCounts 0 h = List.replicate (k + 1) c) (hc : 1 ≤ c) (hc' : c < 2 ^ 53) (unit : Int) (hu : 0 < unit) (hu' : unit < 2 ^ 53) :
    ∃ r : ℚ, (run binary64 e h).getRate binary64 unit = .fin r ∧
      |(r : ℝ) - c / 5000000000 * unit| ≤ N * 2 ^ (-46 : Int) * ((c : ℝ) / 5000000000 * unit) := by
  obtain ⟨r, e1, e2⟩ := C92_standard exp hexp e N he h c (List.replicate k c) (by rw [ht, List.replicate_succ]) c hc hc' (by
    intro d hd
    rw [← List.replicate_succ] at hd
    rw [List.eq_of_mem_replicate hd, abs_of_pos (by omega)]) unit hu hu'
  refine ⟨r, e1, ?_⟩
  rw [ideal_eq, averageR_const] at e2
  exact_mod_cast e2

/-- There are functions that satisfy the assumption on `math.Exp`. -/
example : ∃ exp, Spec.GoodExp exp := by
  have h : ∀ x : ℚ, ∃ y : ℚ, |(y : ℝ) - Real.exp x| ≤ 2 ^ (-52 : Int) * Real.exp x := by
    intro x
    have h0 : (0 : ℝ) < 2 ^ (-52 : Int) * Real.exp x := by positivity
    obtain ⟨y, h1, h2⟩ := exists_rat_btwn (show Real.exp x < Real.exp x + 2 ^ (-52 : Int) * Real.exp x by linarith)
    exact ⟨y, by rw [abs_le]; constructor <;> linarith⟩
  choose f hf using h
  exact ⟨fun x => match x with | .fin q => .fin (f q) | _ => .nan, fun x _ _ _ => ⟨f x, rfl, hf x⟩⟩

/-- A history with a busy and an idle phase, for `C92_fades`. -/
example : Spec.tickCounts 0 [.update 3, .tick, .tickN 40] = 3 :: [40] ∧
    Spec.tickCounts 0 ([.update 3, .tick, .tickN 40] ++ List.replicate 12 .tick) = 3 :: [40] ++ List.replicate 12 0 ∧ (∀ c ∈ [(3 : Int), 40], |c| ≤ 40) := by
  decide

end EWMA
end GoMetrics
