import Verif.Proofs.Signed
import Verif.Props.EDR
/-! # C106 — the sign of zero -/
namespace GoMetrics

open Z64

theorem Z64.binary64_one : Rounding.binary64.rnd 1 = .fin 1 := by
  have := Rounding.binary64_int (n := 1) (by norm_num)
  simpa using this

/-- A float64 that is not -0, times a positive integer. -/
theorem Z64.mul_ofInt_ne {x : Z64} (hx : x ≠ zero true) (hf : IsFloat64 x) {n : Int} (hn : 0 < n) : mul .binary64 x (ofInt .binary64 n) ≠ zero true := by
  rcases ofInt_pos Rounding.binary64_lawful binary64_one hn with e | ⟨b, hb, e, hb1⟩
  · rw [e]; cases x <;> simp [mul]
  · rw [e]
    cases x with
    | nan => simp [mul]
    | inf s => simp [mul]
    | zero s =>
      cases s
      · intro h
        have h : round .binary64 0 (false != decide (b < 0)) = zero true := h
        rcases (round_eq_negZero h).2 with ⟨_, h2⟩ | h2
        · simp at h2; linarith
        · linarith
      · exact absurd rfl hx
    | fin a ha =>
      intro h
      have h : round .binary64 (a * b) false = zero true := h
      refine binary64_ne_zero ?_ (round_eq_negZero h).1
      obtain ⟨k, hk⟩ := binary64_grid (hf a ha rfl)
      have h1 := grid_le (k := k) (by rintro rfl; simp at hk; exact ha hk)
      rw [← hk] at h1
      rw [abs_mul, abs_of_pos (by linarith : 0 < b)]
      exact h1.trans (le_mul_of_one_le_right (abs_nonneg a) hb1)

/-- The quotient of an integer by a non-negative int64. -/
theorem Z64.div_ofInt_ne (c : Int) {n : Int} (hn : 0 ≤ n) (hn' : InI64 n) : div .binary64 (ofInt .binary64 c) (ofInt .binary64 n) ≠ zero true := by
  have hR := Rounding.binary64_lawful
  rcases hn.eq_or_lt with rfl | hn
  · rw [ofInt_zero hR]
    cases ofInt .binary64 c <;> simp [div]
  · obtain ⟨q, hq⟩ := EDR.binary64_i64 n hn'
    rcases ofInt_pos hR binary64_one hn with e | ⟨b, hb, e, hb1⟩
    · have := congrArg unsigned e
      rw [unsigned_ofInt, hq] at this
      simp at this
    · have hlt : |b| < 2 ^ (1024 : Int) := by
        have := congrArg unsigned e
        rw [unsigned_ofInt, unsigned_fin] at this
        exact binary64_lt this
      rw [e]
      have key : ∀ a ha, 1 ≤ |a| → div .binary64 (fin a ha) (fin b hb) ≠ zero true := by
        intro a ha h1 h
        have h : round .binary64 (a / b) false = zero true := h
        refine binary64_ne_zero ?_ (round_eq_negZero h).1
        rw [abs_div, le_div_iff₀ (abs_pos.2 hb)]
        have h2 : (2 : ℚ) ^ (-1074 : Int) * |b| ≤ 2 ^ (-1074 : Int) * 2 ^ (1024 : Int) := mul_le_mul_of_nonneg_left hlt.le (two_zpow_pos _).le
        have h3 : (2 : ℚ) ^ (-1074 : Int) * 2 ^ (1024 : Int) ≤ 1 := by
          rw [← zpow_add₀ (by norm_num)]
          exact zpow_le_one_of_nonpos₀ (by norm_num) (by norm_num)
        exact h2.trans (h3.trans h1)
      rcases lt_trichotomy c 0 with hc | rfl | hc
      · rcases ofInt_neg hR binary64_one hc with e' | ⟨a, ha, e', h1⟩
        · rw [e']; simp [div]
        · rw [e']; exact key a ha (by rw [abs_of_neg (by linarith)]; linarith)
      · rw [ofInt_zero hR]
        intro h
        have h : round .binary64 0 (false != decide (b < 0)) = zero true := h
        rcases (round_eq_negZero h).2 with ⟨_, h2⟩ | h2
        · simp at h2; linarith
        · linarith
      · rcases ofInt_pos hR binary64_one hc with e' | ⟨a, ha, e', h1⟩
        · rw [e']; simp [div]
        · rw [e']; exact key a ha (by rw [abs_of_pos (by linarith)]; exact h1)

namespace EWMAZ

/-- Without the signs of zeros. -/
def unsigned (e : EWMAZ) : EWMA := ⟨e.initialized, e.rate.unsigned, e.uncounted, e.alpha.unsigned, e.interval⟩

theorem unsigned_step {R : Rounding} (hR : R.Lawful) (h1 : R.rnd 1 = .fin 1) (e : EWMAZ) (o : EWMA.Op) : (step R e o).unsigned = EWMA.step R e.unsigned o := by
  have hi : ∀ (e : EWMAZ) c, EWMA.instantRate R e.unsigned c = (e.instantRate R c).unsigned := by
    intro e c
    unfold instantRate EWMA.instantRate
    rw [unsigned_div _ _ (ofInt_ne hR h1 _), unsigned_ofInt, unsigned_ofInt]
    rfl
  have ht : ∀ (e : EWMAZ) c, (e.tickN R c).unsigned = EWMA.tickN R e.unsigned c := by
    intro e c
    unfold tickN EWMA.tickN
    rw [hi e c]
    generalize instantRate R e c = i
    unfold newRate EWMA.newRate unsigned
    cases e.initialized <;> simp
  cases o with
  | update n => rfl
  | tick => exact ht _ _
  | tickN c => exact ht _ _

theorem unsigned_run {R : Rounding} (hR : R.Lawful) (h1 : R.rnd 1 = .fin 1) (h : List EWMA.Op) : ∀ e : EWMAZ, (run R e h).unsigned = EWMA.run R e.unsigned h := by
  induction h with
  | nil => intro e; rfl
  | cons o h ih =>
    intro e
    have : run R e (o :: h) = run R (step R e o) h := rfl
    rw [this, ih, unsigned_step hR h1]
    rfl

/-- The average is never -0. -/
theorem rate_inv (h : List EWMA.Op) : ∀ e : EWMAZ, 0 ≤ e.interval → InI64 e.interval → e.rate ≠ zero true → IsFloat64 e.rate →
    (run .binary64 e h).rate ≠ zero true ∧ IsFloat64 (run .binary64 e h).rate := by
  induction h with
  | nil => intro e _ _ h1 h2; exact ⟨h1, h2⟩
  | cons o h ih =>
    intro e hi hi' he hf
    have : run .binary64 e (o :: h) = run .binary64 (step .binary64 e o) h := rfl
    rw [this]
    have ht : ∀ (e : EWMAZ) c, 0 ≤ e.interval → InI64 e.interval → e.rate ≠ zero true → IsFloat64 e.rate →
        (e.tickN .binary64 c).rate ≠ zero true ∧ IsFloat64 (e.tickN .binary64 c).rate := by
      intro e c hi hi' he hf
      unfold tickN newRate
      simp only
      split
      · exact ⟨fun h => he (add_eq_negZero hf (isFloat64_mul _ _) h).1, isFloat64_add _ _⟩
      · exact ⟨div_ofInt_ne c hi hi', isFloat64_div _ _⟩
    cases o with
    | update n => exact ih _ hi hi' he hf
    | tick =>
      have := ht { e with uncounted := 0 } e.uncounted hi hi' he hf
      exact ih _ hi hi' this.1 this.2
    | tickN c =>
      have := ht e c hi hi' he hf
      exact ih _ hi hi' this.1 this.2

end EWMAZ

/-- **C106.** Moving averages: with IEEE zeros the rates are those of the model without signs, for every history (so what is proved of that model is true of the code);
and with binary64, a rate per positive unit is never -0. -/
theorem C106_ewma (alpha : Z64) (interval : Int) (h : List EWMA.Op) (unit : Int) :
    (∀ R : Rounding, R.Lawful → R.rnd 1 = .fin 1 →
      ((EWMAZ.run R (EWMAZ.new alpha interval) h).getRate R unit).unsigned = (EWMA.run R (EWMA.new alpha.unsigned interval) h).getRate R unit) ∧
    (0 ≤ interval → interval < 9223372036854775808 → 0 < unit → (EWMAZ.run .binary64 (EWMAZ.new alpha interval) h).getRate .binary64 unit ≠ .zero true) := by
  constructor
  · intro R hR h1
    have := EWMAZ.unsigned_run hR h1 h (EWMAZ.new alpha interval)
    have h2 : (EWMAZ.new alpha interval).unsigned = EWMA.new alpha.unsigned interval := rfl
    rw [h2] at this
    rw [← this]
    unfold EWMAZ.getRate EWMA.getRate
    rw [unsigned_mul, unsigned_ofInt]
    rfl
  · intro h0 h1 hu
    have := EWMAZ.rate_inv h (EWMAZ.new alpha interval) h0 ⟨by show (-9223372036854775808 : Int) ≤ interval; omega, h1⟩ (by show zero false ≠ zero true; simp) (isFloat64_zero _)
    exact mul_ofInt_ne this.1 this.2 hu

/-- **C106.** `GetMeanRate()` of a compass. -/
theorem C106_mean_rate {σ : Type} (c : Compass σ) (tick : Int) :
    (∀ R : Rounding, R.Lawful → R.rnd 1 = .fin 1 → (c.getMeanRateZ R tick).unsigned = c.getMeanRate R tick) ∧
    c.getMeanRateZ .binary64 tick ≠ .zero true := by
  constructor
  · intro R hR h1
    unfold Compass.getMeanRateZ Compass.getMeanRate
    simp only
    split
    · rfl
    · rw [unsigned_mul, unsigned_div _ _ (ofInt_ne hR h1 _)]
      simp
  · unfold Compass.getMeanRateZ
    simp only
    split
    · simp
    · rename_i h
      push Not at h
      exact mul_ofInt_ne (div_ofInt_ne _ h.2.le (i64_in _)) (isFloat64_div _ _) (by unfold Compass.second; norm_num)

/-- **C106.** `GetMean()` of a bucket snapshot; a negative number of updates is possible after an overflow only. -/
theorem C106_bucket_mean (b : BucketSnapshot) (hc : InI64 b.count) :
    (∀ R : Rounding, R.Lawful → R.rnd 1 = .fin 1 → (b.getMeanZ R).unsigned = b.getMean R) ∧
    (0 ≤ b.count → b.getMeanZ .binary64 ≠ .ok (.zero true)) := by
  constructor
  · intro R hR h1
    unfold BucketSnapshot.getMeanZ BucketSnapshot.getMean
    split
    · rfl
    · simp only [Ret.unsigned]
      rw [unsigned_div _ _ (ofInt_ne hR h1 _)]
      simp
  · intro h0
    unfold BucketSnapshot.getMeanZ
    split
    · simp
    · intro h
      simp only [Ret.ok.injEq] at h
      exact div_ofInt_ne _ h0 hc h

/-- **C106.** The seconds of a bucket interval (`int64(interval.Seconds())`). -/
theorem C106_seconds (R : Rounding) (hR : R.Lawful) (h1 : R.rnd 1 = .fin 1) (d : Int) : (secondsZ R d).toInt64 = toInt64 (seconds R d) := by
  unfold secondsZ seconds Z64.toInt64
  rw [unsigned_add, unsigned_div _ _ (ofInt_ne hR h1 _)]
  simp

/-- **C106.** `DeltaCompareFloat64` does not see the sign of a zero. -/
theorem C106_delta_compare (R : Rounding) (expected actual delta : Z64) :
    deltaCompareZ R expected actual delta = deltaCompareFloat64 R expected.unsigned actual.unsigned delta.unsigned := by
  have hle : ∀ x y : Z64, decide ((Z64.sub R x y).le delta) = decide ((F64.sub R x.unsigned y.unsigned).le delta.unsigned) := by
    intro x y
    refine decide_eq_decide.2 ?_
    unfold Z64.le
    rw [unsigned_sub]
  unfold deltaCompareZ deltaCompareFloat64
  by_cases h : actual.lt expected
  · rw [if_pos h, if_pos (show F64.lt actual.unsigned expected.unsigned from h), hle]
  · rw [if_neg h, if_neg (show ¬ F64.lt actual.unsigned expected.unsigned from h), hle]

namespace UniformSnapshot

theorem unsigned_getValue (R : Rounding) (u : UniformSnapshot) (q : Z64) : (u.getValueZ R q).unsigned = u.getValue R q.unsigned := by
  have hp : (u.positionZ R q).unsigned = u.position R q.unsigned := by
    unfold positionZ position
    rw [unsigned_mul, unsigned_ofInt]
  have hi : (u.positionZ R q).truncInt = truncInt (u.position R q.unsigned) := by unfold Z64.truncInt; rw [hp]
  unfold getValueZ getValue
  rw [badQuantile_unsigned]
  by_cases h1 : badQuantile q.unsigned = true
  · rw [if_pos h1, if_pos h1]; rfl
  rw [if_neg h1, if_neg h1]
  by_cases h2 : u.size = 0
  · rw [if_pos h2, if_pos h2]; rfl
  rw [if_neg h2, if_neg h2]
  simp only
  rw [hi]
  by_cases h3 : truncInt (u.position R q.unsigned) < 1
  · rw [if_pos h3, if_pos h3]
    cases index u.values 0 with
    | none => rfl
    | some v => simp [Ret.unsigned]
  rw [if_neg h3, if_neg h3]
  by_cases h4 : truncInt (u.position R q.unsigned) ≥ u.size
  · rw [if_pos h4, if_pos h4]
    cases index u.values (u.size - 1) with
    | none => rfl
    | some v => simp [Ret.unsigned]
  rw [if_neg h4, if_neg h4]
  cases index u.values (truncInt (u.position R q.unsigned) - 1) with
  | none => rfl
  | some lower =>
    cases index u.values (truncInt (u.position R q.unsigned)) with
    | none => rfl
    | some upper => simp [Ret.unsigned, hp]

theorem getValueZ_ne (u : UniformSnapshot) (q : Z64) : u.getValueZ .binary64 q ≠ .ok (.zero true) ∧ u.getValueZ .binary64 q ≠ .err (.zero true) := by
  have hR := Rounding.binary64_lawful
  have ho : ∀ n, ofInt .binary64 n ≠ zero true := ofInt_ne hR binary64_one
  unfold getValueZ
  by_cases h1 : q.badQuantile = true
  · rw [if_pos h1]; simp
  rw [if_neg h1]
  by_cases h2 : u.size = 0
  · rw [if_pos h2]; simp
  rw [if_neg h2]
  simp only
  split
  · cases index u.values 0 <;> simp [ho]
  · split
    · cases index u.values (u.size - 1) <;> simp [ho]
    · cases index u.values ((u.positionZ .binary64 q).truncInt - 1) <;> cases index u.values (u.positionZ .binary64 q).truncInt <;> simp
      rename_i lower upper
      intro h
      exact ho _ (add_eq_negZero (isFloat64_ofInt _) (isFloat64_mul _ _) h).1

theorem unsigned_getMean {R : Rounding} (hR : R.Lawful) (h1 : R.rnd 1 = .fin 1) (u : UniformSnapshot) : (u.getMeanZ R).unsigned = u.getMean R := by
  unfold getMeanZ getMean
  split
  · rfl
  · rw [unsigned_div _ _ (ofInt_ne hR h1 _)]; simp

theorem unsigned_diffSum {R : Rounding} (m : Z64) (l : List Int) : (diffSumZ R m l).unsigned = diffSum R m.unsigned l := by
  have : ∀ (l : List Int) (s : Z64), (l.foldl (fun s v => Z64.add R s (Z64.mul R (Z64.sub R (Z64.ofInt R v) m) (Z64.sub R (Z64.ofInt R v) m))) s).unsigned =
      l.foldl (fun s v => F64.add R s (F64.mul R (F64.sub R (F64.ofInt R v) m.unsigned) (F64.sub R (F64.ofInt R v) m.unsigned))) s.unsigned := by
    intro l
    induction l with
    | nil => intro s; rfl
    | cons v l ih => intro s; simp only [List.foldl_cons]; rw [ih]; simp
  exact this l _

theorem pos_diffSum {R : Rounding} (hR : R.Lawful) (m : Z64) (l : List Int) : Pos (diffSumZ R m l) := by
  have : ∀ (l : List Int) (s : Z64), Pos s → Pos (l.foldl (fun s v => Z64.add R s (Z64.mul R (Z64.sub R (Z64.ofInt R v) m) (Z64.sub R (Z64.ofInt R v) m))) s) := by
    intro l
    induction l with
    | nil => intro s hs; exact hs
    | cons v l ih => intro s hs; exact ih _ (pos_add hR hs (pos_square hR _))
  exact this l _ (.inr (.inr (.inl rfl)))

end UniformSnapshot

/-- **C106.** Uniform snapshots: percentiles for every quantile (also -0), mean and standard deviation. `math.Sqrt` is any function that, apart from the sign of zero, is
the one of the model, and gives -0 for -0 only. -/
theorem C106_uniform (vs : List Int) (hl : vs.length < 9223372036854775808) (q : Z64) (sqrt : Z64 → Z64) (sqrt' : F64 → F64)
    (hs : ∀ x, (sqrt x).unsigned = sqrt' x.unsigned) (hs' : ∀ x, sqrt x = .zero true → x = .zero true) :
    let u := UniformSnapshot.new vs
    (∀ R : Rounding, R.Lawful → R.rnd 1 = .fin 1 →
      (u.getValueZ R q).unsigned = u.getValue R q.unsigned ∧ (u.getMeanZ R).unsigned = u.getMean R ∧ (u.getStdDevZ R sqrt).unsigned = u.getStdDev R sqrt') ∧
    u.getValueZ .binary64 q ≠ .ok (.zero true) ∧ u.getValueZ .binary64 q ≠ .err (.zero true) ∧ u.getMeanZ .binary64 ≠ .zero true ∧
    u.getStdDevZ .binary64 sqrt ≠ .zero true := by
  intro u
  have hsz : u.size = vs.length := by show ((UniformSnapshot.new vs).values.length : Int) = _; simp [UniformSnapshot.new]
  refine ⟨?_, (u.getValueZ_ne q).1, (u.getValueZ_ne q).2, ?_, ?_⟩
  · intro R hR h1
    refine ⟨u.unsigned_getValue R q, u.unsigned_getMean hR h1, ?_⟩
    unfold UniformSnapshot.getStdDevZ UniformSnapshot.getStdDev
    split
    · rfl
    · rw [hs]
      unfold UniformSnapshot.varianceZ UniformSnapshot.variance
      rw [unsigned_div _ _ (ofInt_ne hR h1 _), UniformSnapshot.unsigned_diffSum, UniformSnapshot.unsigned_getMean hR h1, unsigned_ofInt]
  · unfold UniformSnapshot.getMeanZ
    split
    · simp
    · exact div_ofInt_ne _ (by omega) ⟨by omega, by omega⟩
  · unfold UniformSnapshot.getStdDevZ
    split
    · simp
    · intro h
      exact (pos_div Rounding.binary64_lawful (UniformSnapshot.pos_diffSum Rounding.binary64_lawful _ _) (pos_ofInt Rounding.binary64_lawful (by omega))).ne (hs' _ h)

namespace WeightedSnapshotZ

/-- Without the signs of zeros. -/
def unsigned (w : WeightedSnapshotZ) : WeightedSnapshot := ⟨w.values, w.normalizedWeights.map Z64.unsigned, w.quantiles.map Z64.unsigned⟩

variable {R : Rounding}

theorem unsigned_total (l : List SampleZ) : (totalWeight R l).unsigned = WeightedSnapshot.totalWeight R (l.map SampleZ.unsigned) := by
  have : ∀ (l : List SampleZ) (s : Z64), (l.foldl (fun t s => Z64.add R t s.weight) s).unsigned =
      (l.map SampleZ.unsigned).foldl (fun t s => F64.add R t s.weight) s.unsigned := by
    intro l
    induction l with
    | nil => intro s; rfl
    | cons x l ih => intro s; simp only [List.foldl_cons, List.map_cons]; rw [ih, unsigned_add]; rfl
  exact this l _

theorem unsigned_cumulative (l : List Z64) : ∀ acc, (cumulative R acc l).map Z64.unsigned = WeightedSnapshot.cumulative R acc.unsigned (l.map Z64.unsigned) := by
  induction l with
  | nil => intro acc; rfl
  | cons x l ih =>
    intro acc
    simp only [cumulative, List.map_cons, WeightedSnapshot.cumulative]
    rw [ih, unsigned_add]

theorem unsigned_new (samples cp : List SampleZ) (ht : totalWeight R samples ≠ .zero true) :
    (new R samples cp).unsigned = WeightedSnapshot.new R (samples.map SampleZ.unsigned) (cp.map SampleZ.unsigned) := by
  unfold new WeightedSnapshot.new
  rw [List.length_map]
  split
  · rfl
  · have hw : (cp.map fun s => Z64.div R s.weight (totalWeight R samples)).map Z64.unsigned =
        (cp.map SampleZ.unsigned).map fun s => F64.div R s.weight (WeightedSnapshot.totalWeight R (samples.map SampleZ.unsigned)) := by
      rw [List.map_map, List.map_map]
      apply List.map_congr_left
      intro s _
      simp only [Function.comp_apply]
      rw [unsigned_div _ _ ht, unsigned_total]
      rfl
    have hval : cp.map (fun s => s.value) = (cp.map SampleZ.unsigned).map (fun s => s.value) := by rw [List.map_map]; rfl
    simp only [unsigned]
    rw [unsigned_cumulative, hw, hval]
    rfl

theorem unsigned_at (l : List Z64) (i : Nat) : ((l[i]?).getD .nan).unsigned = ((l.map Z64.unsigned)[i]?).getD .nan := by
  rw [List.getElem?_map]
  cases l[i]? <;> rfl

theorem unsigned_getValue (w : WeightedSnapshotZ) (q : Z64) : (w.getValue R q).unsigned = w.unsigned.getValue R q.unsigned := by
  have hp : w.searchPos q = w.unsigned.searchPos q.unsigned := by
    unfold searchPos WeightedSnapshot.searchPos
    have hl : w.unsigned.quantiles.length = w.quantiles.length := by show (w.quantiles.map _).length = _; rw [List.length_map]
    rw [hl]
    congr 1
    funext i
    refine decide_eq_decide.2 ?_
    show q.unsigned.le _ ↔ _
    rw [unsigned_at]; rfl
  have hf : w.searchFound q = w.unsigned.searchFound q.unsigned := by
    unfold searchFound WeightedSnapshot.searchFound
    have hl : w.unsigned.quantiles.length = w.quantiles.length := by show (w.quantiles.map _).length = _; rw [List.length_map]
    rw [hl]
    have : (fun i : Nat => decide (Z64.eq ((w.quantiles[i]?).getD .nan) q)) = fun i : Nat => decide (F64.eq ((w.unsigned.quantiles[i]?).getD .nan) q.unsigned) := by
      funext i
      refine decide_eq_decide.2 ?_
      show (F64.le _ _ ∧ F64.le _ _) ↔ _
      rw [unsigned_at]; rfl
    rw [this]
  have hat : ∀ i, (match index w.values i with | none => Ret.panic | some v => .ok (Z64.ofInt R v)).unsigned =
      (match index w.values i with | none => Ret.panic | some v => .ok (F64.ofInt R v)) := by
    intro i
    cases index w.values i with
    | none => rfl
    | some v => simp [Ret.unsigned]
  unfold getValue WeightedSnapshot.getValue
  rw [badQuantile_unsigned, hf, hp]
  have hv : w.unsigned.values = w.values := rfl
  rw [hv]
  simp only
  generalize (if w.unsigned.searchFound q.unsigned = true then (w.unsigned.searchPos q.unsigned : Int) else (w.unsigned.searchPos q.unsigned : Int) - 1) = pos
  split
  · rfl
  split
  · rfl
  split
  · exact hat _
  split
  · exact hat _
  · exact hat _

theorem unsigned_weightedSum (l : List (Int × Z64)) : ∀ acc, (weightedSum R acc l).unsigned =
    WeightedSnapshot.weightedSum R acc.unsigned (l.map fun p => (p.1, p.2.unsigned)) := by
  induction l with
  | nil => intro acc; rfl
  | cons p l ih =>
    intro acc
    obtain ⟨v, w⟩ := p
    simp only [weightedSum, List.map_cons, WeightedSnapshot.weightedSum]
    rw [ih]
    simp

theorem unsigned_zip (w : WeightedSnapshotZ) : (w.values.zip w.normalizedWeights).map (fun p => (p.1, p.2.unsigned)) = w.unsigned.values.zip w.unsigned.normalizedWeights := by
  show _ = w.values.zip (w.normalizedWeights.map Z64.unsigned)
  rw [List.zip_map_right]
  rfl

theorem unsigned_getMean (w : WeightedSnapshotZ) : (w.getMean R).unsigned = w.unsigned.getMean R := by
  unfold getMean WeightedSnapshot.getMean
  have hv : w.unsigned.values.length = w.values.length := rfl
  rw [hv]
  split
  · rfl
  · simp only [Ret.unsigned]
    rw [unsigned_weightedSum, unsigned_zip]
    rfl

theorem unsigned_varianceSum (m : Z64) (l : List (Int × Z64)) : ∀ acc, (varianceSum R m acc l).unsigned =
    WeightedSnapshot.varianceSum R m.unsigned acc.unsigned (l.map fun p => (p.1, p.2.unsigned)) := by
  induction l with
  | nil => intro acc; rfl
  | cons p l ih =>
    intro acc
    obtain ⟨v, w⟩ := p
    simp only [varianceSum, List.map_cons, WeightedSnapshot.varianceSum]
    rw [ih]
    simp

theorem unsigned_variance (w : WeightedSnapshotZ) : (w.variance R).unsigned = w.unsigned.variance R := by
  unfold variance WeightedSnapshot.variance
  rw [unsigned_varianceSum, unsigned_zip, ← unsigned_getMean]
  congr 1
  unfold meanOf
  cases w.getMean R <;> rfl

theorem weightedSum_ne (l : List (Int × Z64)) : ∀ acc, acc ≠ .zero true → IsFloat64 acc → weightedSum .binary64 acc l ≠ .zero true := by
  induction l with
  | nil => intro acc h _; exact h
  | cons p l ih =>
    intro acc h hf
    obtain ⟨v, w⟩ := p
    exact ih _ (fun h' => h (add_eq_negZero hf (isFloat64_mul _ _) h').1) (isFloat64_add _ _)

theorem varianceSum_ne (m : Z64) (l : List (Int × Z64)) : ∀ acc, acc ≠ .zero true → IsFloat64 acc → varianceSum .binary64 m acc l ≠ .zero true := by
  induction l with
  | nil => intro acc h _; exact h
  | cons p l ih =>
    intro acc h hf
    obtain ⟨v, w⟩ := p
    exact ih _ (fun h' => h (add_eq_negZero hf (isFloat64_mul _ _) h').1) (isFloat64_add _ _)

theorem getValue_ne (w : WeightedSnapshotZ) (q : Z64) : w.getValue .binary64 q ≠ .ok (.zero true) ∧ w.getValue .binary64 q ≠ .err (.zero true) := by
  have ho : ∀ n, ofInt .binary64 n ≠ zero true := ofInt_ne Rounding.binary64_lawful binary64_one
  have hat : ∀ i, (match index w.values i with | none => Ret.panic | some v => .ok (Z64.ofInt .binary64 v)) ≠ .ok (.zero true) ∧
      (match index w.values i with | none => Ret.panic | some v => .ok (Z64.ofInt .binary64 v)) ≠ .err (.zero true) := by
    intro i
    cases index w.values i <;> simp [ho]
  unfold getValue
  simp only
  generalize (if w.searchFound q = true then (w.searchPos q : Int) else (w.searchPos q : Int) - 1) = pos
  split
  · simp
  split
  · simp
  split
  · exact hat _
  split
  · exact hat _
  · exact hat _

theorem total_ne_aux (l : List SampleZ) (hl : ∀ s ∈ l, IsFloat64 s.weight) : totalWeight .binary64 l ≠ .zero true := by
  have : ∀ (l : List SampleZ) (acc : Z64), acc ≠ .zero true → IsFloat64 acc → (∀ s ∈ l, IsFloat64 s.weight) → l.foldl (fun t s => Z64.add .binary64 t s.weight) acc ≠ .zero true := by
    intro l
    induction l with
    | nil => intro acc h _ _; exact h
    | cons x l ih =>
      intro acc h hf hl
      simp only [List.foldl_cons]
      exact ih _ (fun h' => h (add_eq_negZero hf (hl x (by simp)) h').1) (isFloat64_add _ _) (fun s hs => hl s (by simp [hs]))
  exact this l _ (by simp) (isFloat64_zero _) hl

theorem pos_total (hR : R.Lawful) (l : List SampleZ) (hl : ∀ s ∈ l, Pos s.weight) : Pos (totalWeight R l) := by
  have : ∀ (l : List SampleZ) (acc : Z64), Pos acc → (∀ s ∈ l, Pos s.weight) → Pos (l.foldl (fun t s => Z64.add R t s.weight) acc) := by
    intro l
    induction l with
    | nil => intro acc h _; exact h
    | cons x l ih => intro acc h hl; exact ih _ (pos_add hR h (hl x (by simp))) (fun s hs => hl s (by simp [hs]))
  exact this l _ (.inr (.inr (.inl rfl))) hl

theorem unsigned_getStdDev {sqrt : Z64 → Z64} {sqrt' : F64 → F64} (hs : ∀ x, (sqrt x).unsigned = sqrt' x.unsigned) (w : WeightedSnapshotZ) :
    (w.getStdDev R sqrt).unsigned = w.unsigned.getStdDev R sqrt' := by
  unfold getStdDev WeightedSnapshot.getStdDev
  have hv : w.unsigned.values.length = w.values.length := rfl
  rw [hv]
  split
  · rfl
  · simp only [Ret.unsigned]
    rw [hs, unsigned_variance]

theorem stats_ne {sqrt : Z64 → Z64} (hs' : ∀ x, sqrt x = .zero true → x = .zero true) (w : WeightedSnapshotZ) :
    w.getMean .binary64 ≠ .ok (.zero true) ∧ w.getMean .binary64 ≠ .err (.zero true) ∧ w.getStdDev .binary64 sqrt ≠ .ok (.zero true) := by
  refine ⟨?_, ?_, ?_⟩
  · unfold getMean
    split
    · simp
    · intro h
      simp only [Ret.ok.injEq] at h
      exact weightedSum_ne _ _ (by simp) (isFloat64_zero _) h
  · unfold getMean
    split <;> simp
  · unfold getStdDev
    split
    · simp
    · intro h
      simp only [Ret.ok.injEq] at h
      exact varianceSum_ne _ _ _ (by simp) (isFloat64_zero _) (hs' _ h)

end WeightedSnapshotZ

/-- **C106.** Weighted snapshots made from any samples with float64 weights (`cp` is what sorting left): percentiles for every quantile, mean and standard deviation. -/
theorem C106_weighted (samples cp : List SampleZ) (hw : ∀ s ∈ samples, s.weight.IsFloat64) (q : Z64) (sqrt : Z64 → Z64) (sqrt' : F64 → F64)
    (hs : ∀ x, (sqrt x).unsigned = sqrt' x.unsigned) (hs' : ∀ x, sqrt x = .zero true → x = .zero true) :
    let w := WeightedSnapshotZ.new .binary64 samples cp
    let w' := WeightedSnapshot.new .binary64 (samples.map SampleZ.unsigned) (cp.map SampleZ.unsigned)
    (w.getValue .binary64 q).unsigned = w'.getValue .binary64 q.unsigned ∧ (w.getMean .binary64).unsigned = w'.getMean .binary64 ∧
    (w.getStdDev .binary64 sqrt).unsigned = w'.getStdDev .binary64 sqrt' ∧
    w.getValue .binary64 q ≠ .ok (.zero true) ∧ w.getValue .binary64 q ≠ .err (.zero true) ∧
    w.getMean .binary64 ≠ .ok (.zero true) ∧ w.getMean .binary64 ≠ .err (.zero true) ∧ w.getStdDev .binary64 sqrt ≠ .ok (.zero true) := by
  intro w w'
  have h : w.unsigned = w' := WeightedSnapshotZ.unsigned_new samples cp (WeightedSnapshotZ.total_ne_aux samples hw)
  rw [← h]
  exact ⟨w.unsigned_getValue q, w.unsigned_getMean, w.unsigned_getStdDev hs, (w.getValue_ne q).1, (w.getValue_ne q).2, w.stats_ne hs'⟩

namespace SkipListZ

theorem compare_unsigned (a b : SampleZ) : a.compare b = a.unsigned.compare b.unsigned := rfl

theorem unsigned_insert (s : SampleZ) (l : SkipListZ) : (insert s l).map SampleZ.unsigned = SkipList.insert s.unsigned (l.map SampleZ.unsigned) := by
  induction l with
  | nil => rfl
  | cons e t ih =>
    simp only [insert, List.map_cons, SkipList.insert]
    rw [compare_unsigned]
    by_cases h1 : e.unsigned.compare s.unsigned < 0
    · rw [if_pos h1, if_pos h1, List.map_cons, ih]
    · rw [if_neg h1, if_neg h1]
      by_cases h2 : e.unsigned.compare s.unsigned = 0
      · rw [if_pos h2, if_pos h2]; rfl
      · rw [if_neg h2, if_neg h2]; rfl

theorem unsigned_get (s : SampleZ) (l : SkipListZ) : (get? s l).map SampleZ.unsigned = SkipList.get? s.unsigned (l.map SampleZ.unsigned) := by
  induction l with
  | nil => rfl
  | cons e t ih =>
    simp only [get?, List.map_cons, SkipList.get?]
    rw [compare_unsigned]
    by_cases h1 : e.unsigned.compare s.unsigned < 0
    · rw [if_pos h1, if_pos h1, ih]
    · rw [if_neg h1, if_neg h1]
      by_cases h2 : e.unsigned.compare s.unsigned = 0
      · rw [if_pos h2, if_pos h2]; rfl
      · rw [if_neg h2, if_neg h2]; rfl

theorem unsigned_delete (s : SampleZ) (l : SkipListZ) : (delete s l).map SampleZ.unsigned = SkipList.delete s.unsigned (l.map SampleZ.unsigned) := by
  induction l with
  | nil => rfl
  | cons e t ih =>
    simp only [delete, List.map_cons, SkipList.delete]
    rw [compare_unsigned]
    by_cases h1 : e.unsigned.compare s.unsigned < 0
    · rw [if_pos h1, if_pos h1, List.map_cons, ih]
    · rw [if_neg h1, if_neg h1]
      by_cases h2 : e.unsigned.compare s.unsigned = 0
      · rw [if_pos h2, if_pos h2]
      · rw [if_neg h2, if_neg h2]; rfl

theorem unsigned_overwrite (s : SampleZ) (l : SkipListZ) : (overwrite s l).map SampleZ.unsigned = SkipList.overwrite s.unsigned (l.map SampleZ.unsigned) := by
  induction l with
  | nil => rfl
  | cons e t ih =>
    simp only [overwrite, List.map_cons, SkipList.overwrite]
    rw [compare_unsigned]
    by_cases h1 : e.unsigned.compare s.unsigned < 0
    · rw [if_pos h1, if_pos h1, List.map_cons, ih]
    · rw [if_neg h1, if_neg h1]
      by_cases h2 : e.unsigned.compare s.unsigned = 0
      · rw [if_pos h2, if_pos h2]; rfl
      · rw [if_neg h2, if_neg h2]; rfl

theorem unsigned_iter (s : SampleZ) (l : SkipListZ) : (iter s l).map SampleZ.unsigned = SkipList.iter s.unsigned (l.map SampleZ.unsigned) := by
  unfold iter SkipList.iter
  induction l with
  | nil => rfl
  | cons e t ih =>
    simp only [List.dropWhile_cons, List.map_cons]
    rw [compare_unsigned]
    by_cases h1 : e.unsigned.compare s.unsigned < 0
    · rw [if_pos (by simpa using h1), if_pos (by simpa using h1)]; exact ih
    · rw [if_neg (by simpa using h1), if_neg (by simpa using h1)]; rfl

theorem mem_insert {s x : SampleZ} {l : SkipListZ} (h : x ∈ insert s l) : x = s ∨ x ∈ l := by
  induction l with
  | nil => simpa [insert] using h
  | cons e t ih =>
    simp only [insert] at h
    split at h
    · rcases List.mem_cons.1 h with h | h
      · exact .inr (by simp [h])
      · rcases ih h with h | h
        · exact .inl h
        · exact .inr (by simp [h])
    · split at h
      · rcases List.mem_cons.1 h with h | h
        · exact .inl h
        · exact .inr (by simp [h])
      · rcases List.mem_cons.1 h with h | h
        · exact .inl h
        · exact .inr h

theorem mem_delete {s x : SampleZ} {l : SkipListZ} (h : x ∈ delete s l) : x ∈ l := by
  induction l with
  | nil => simp [delete] at h
  | cons e t ih =>
    simp only [delete] at h
    split at h
    · rcases List.mem_cons.1 h with h | h
      · simp [h]
      · simp [ih h]
    · split at h
      · simp [h]
      · exact h

theorem pos_overwrite {s : SampleZ} {l : SkipListZ} (hs : Pos s.weight) (hl : ∀ x ∈ l, Pos x.weight) : ∀ x ∈ overwrite s l, Pos x.weight := by
  induction l with
  | nil => simp [overwrite]
  | cons e t ih =>
    have ih := ih fun x hx => hl x (by simp [hx])
    intro x hx
    simp only [overwrite] at hx
    split at hx
    · rcases List.mem_cons.1 hx with rfl | hx
      · exact hl _ (by simp)
      · exact ih x hx
    · split at hx
      · rcases List.mem_cons.1 hx with rfl | hx
        · exact hs
        · exact hl x (by simp [hx])
      · exact hl x hx

end SkipListZ

namespace EDRZ

/-- Without the signs of zeros. -/
def unsigned (r : EDRZ) : EDR := ⟨r.values.map SampleZ.unsigned, r.alpha.unsigned, r.size, r.count, r.startTime, r.nextScaleTime⟩

/-- What an update does, without the signs of zeros. -/
def unsignedRes : Res EDRZ → Res EDR
  | .ok r => .ok r.unsigned
  | .panic r => .panic r.unsigned

variable {A : Arith} {exp' : F64 → F64}

theorem unsigned_getValues (r : EDRZ) : r.getValues.map SampleZ.unsigned = r.unsigned.getValues := SkipListZ.unsigned_iter _ _

theorem unsigned_rescaleLoop (f : Z64) (samples : List SampleZ) : ∀ l : SkipListZ, (rescaleLoop A f samples l).map SampleZ.unsigned =
    EDR.rescaleLoop ⟨A.R, exp'⟩ f.unsigned (samples.map SampleZ.unsigned) (l.map SampleZ.unsigned) := by
  unfold rescaleLoop EDR.rescaleLoop
  induction samples with
  | nil => intro l; rfl
  | cons s t ih =>
    intro l
    simp only [List.foldl_cons, List.map_cons]
    have hsc : (scale A f s).unsigned = EDR.scale ⟨A.R, exp'⟩ f.unsigned s.unsigned := by
      unfold scale EDR.scale SampleZ.unsigned
      simp
    rw [ih, SkipListZ.unsigned_insert, SkipListZ.unsigned_delete, hsc]

theorem unsigned_rescale (he : ∀ x, (A.exp x).unsigned = exp' x.unsigned) (r : EDRZ) (tick time : Int) :
    (rescaleIfNeeded A r tick time).unsigned = EDR.rescaleIfNeeded ⟨A.R, exp'⟩ r.unsigned tick time := by
  have hl : ∀ r : EDRZ, (rescaleLocked A r time).unsigned = EDR.rescaleLocked ⟨A.R, exp'⟩ r.unsigned time := by
    intro r
    have hf : (scalingFactor A r.alpha r.startTime (EDR.currentTimeInSecond time)).unsigned =
        EDR.scalingFactor ⟨A.R, exp'⟩ r.unsigned.alpha r.unsigned.startTime (EDR.currentTimeInSecond time) := by
      unfold scalingFactor EDR.scalingFactor
      rw [he]
      simp only [unsigned_mul, unsigned_neg, unsigned_ofInt]
      rfl
    unfold rescaleLocked EDR.rescaleLocked
    simp only
    generalize scalingFactor A r.alpha r.startTime (EDR.currentTimeInSecond time) = f at hf
    rw [← hf]
    by_cases h0 : Z64.eq f (.zero false)
    · rw [if_pos h0, if_pos (show F64.eq f.unsigned (.fin 0) from h0)]
      rfl
    · rw [if_neg h0, if_neg (show ¬ F64.eq f.unsigned (.fin 0) from h0)]
      have h2 := unsigned_rescaleLoop (A := A) (exp' := exp') f ({ r with startTime := EDR.currentTimeInSecond time } : EDRZ).getValues r.values
      rw [unsigned_getValues] at h2
      have h3 : ({ r with startTime := EDR.currentTimeInSecond time } : EDRZ).unsigned = { r.unsigned with startTime := EDR.currentTimeInSecond time } := rfl
      rw [h3] at h2
      have h4 : r.unsigned.values = r.values.map SampleZ.unsigned := rfl
      rw [← h4] at h2
      rw [← h2, List.length_map]
      rfl
  unfold rescaleIfNeeded EDR.rescaleIfNeeded
  have hn : r.unsigned.nextScaleTime = r.nextScaleTime := rfl
  rw [hn]
  split
  · exact hl _
  · rfl

theorem unsigned_record (r : EDRZ) (p : Z64) (v : Int) (w : Z64) : unsignedRes (record r p v w) = EDR.record r.unsigned p.unsigned v w.unsigned := by
  have hg := unsigned_getValues { r with count := i64 (r.count + 1) }
  have hu : ({ r with count := i64 (r.count + 1) } : EDRZ).unsigned = { r.unsigned with count := i64 (r.unsigned.count + 1) } := rfl
  rw [hu] at hg
  unfold record EDR.record
  simp only
  rw [← hg]
  by_cases h1 : i64 (r.count + 1) ≤ r.size
  · rw [if_pos h1, if_pos (show i64 (r.unsigned.count + 1) ≤ r.unsigned.size from h1)]
    simp only [unsignedRes, unsigned]
    rw [SkipListZ.unsigned_insert]
    rfl
  · rw [if_neg h1, if_neg (show ¬ i64 (r.unsigned.count + 1) ≤ r.unsigned.size from h1)]
    cases hv : ({ r with count := i64 (r.count + 1) } : EDRZ).getValues with
    | nil => rfl
    | cons first t =>
      simp only [List.map_cons]
      by_cases h2 : p.le first.key
      · rw [if_pos h2, if_pos (show p.unsigned.le first.unsigned.key from h2)]
        rfl
      · rw [if_neg h2, if_neg (show ¬ p.unsigned.le first.unsigned.key from h2)]
        have hgt := SkipListZ.unsigned_get ⟨p, v, w⟩ r.values
        have hs : (⟨p, v, w⟩ : SampleZ).unsigned = ⟨p.unsigned, v, w.unsigned⟩ := rfl
        have hvl : r.unsigned.values = r.values.map SampleZ.unsigned := rfl
        rw [hs] at hgt
        rw [hvl, ← hgt]
        cases SkipListZ.get? ⟨p, v, w⟩ r.values with
        | some e =>
          simp only [Option.map_some, unsignedRes, unsigned]
          rw [SkipListZ.unsigned_overwrite]
          rfl
        | none =>
          simp only [Option.map_none, unsignedRes, unsigned]
          rw [SkipListZ.unsigned_insert, SkipListZ.unsigned_delete]
          rfl

theorem unsigned_step (he : ∀ x, (A.exp x).unsigned = exp' x.unsigned) (r : EDRZ) (o : Op) (hu : ∀ env v, o = .updateN env v → env.u ≠ .zero true) :
    unsignedRes (step A r o) = EDR.step ⟨A.R, exp'⟩ r.unsigned o.unsigned := by
  cases o with
  | getSnapshot tick t =>
    show Res.ok _ = Res.ok _
    rw [unsigned_rescale he]
    rfl
  | updateN env v =>
    show unsignedRes (updateN A r env v) = EDR.updateN ⟨A.R, exp'⟩ r.unsigned ⟨env.tick, env.scaleTime, env.time, env.u.unsigned⟩ v
    unfold updateN EDR.updateN
    simp only
    rw [unsigned_record, ← unsigned_rescale he]
    generalize rescaleIfNeeded A r env.tick env.scaleTime = r1
    have hw : (weight A r1.alpha (i64 (EDR.currentTimeInSecond env.time - r1.startTime))).unsigned =
        EDR.weight ⟨A.R, exp'⟩ r1.unsigned.alpha (i64 (EDR.currentTimeInSecond env.time - r1.unsigned.startTime)) := by
      unfold weight EDR.weight
      rw [he]
      simp only [unsigned_mul, unsigned_ofInt]
      rfl
    rw [hw]
    congr 1
    unfold priority EDR.priority
    rw [unsigned_div _ _ (hu env v rfl), hw]

theorem unsignedRes_state (x : Res EDRZ) : (unsignedRes x).state = x.state.unsigned := by cases x <;> rfl

theorem unsigned_run (he : ∀ x, (A.exp x).unsigned = exp' x.unsigned) (h : List Op) : ∀ r : EDRZ, (∀ env v, Op.updateN env v ∈ h → env.u ≠ .zero true) →
    (run A r h).unsigned = EDR.run ⟨A.R, exp'⟩ r.unsigned (h.map Op.unsigned) := by
  induction h with
  | nil => intro r _; rfl
  | cons o h ih =>
    intro r hu
    have e1 : run A r (o :: h) = run A (step A r o).state h := rfl
    have e2 : EDR.run ⟨A.R, exp'⟩ r.unsigned ((o :: h).map Op.unsigned) = EDR.run ⟨A.R, exp'⟩ (EDR.step ⟨A.R, exp'⟩ r.unsigned o.unsigned).state (h.map Op.unsigned) := rfl
    rw [e1, e2, ih _ fun env v hm => hu env v (by simp [hm]), ← unsigned_step he r o fun env v e => hu env v (by simp [e]), unsignedRes_state]

/-! ## Weights are not negative -/

theorem pos_rescale (hR : A.R.Lawful) (hp : ∀ x, Pos (A.exp x)) {r : EDRZ} (h : ∀ s ∈ r.values, Pos s.weight) (tick time : Int) :
    ∀ s ∈ (rescaleIfNeeded A r tick time).values, Pos s.weight := by
  have hloop : ∀ (f : Z64) (samples : List SampleZ) (l : SkipListZ), Pos f → (∀ s ∈ samples, Pos s.weight) → (∀ s ∈ l, Pos s.weight) →
      ∀ s ∈ rescaleLoop A f samples l, Pos s.weight := by
    intro f samples
    unfold rescaleLoop
    induction samples with
    | nil => intro l _ _ hl; exact hl
    | cons x t ih =>
      intro l hf hs hl
      simp only [List.foldl_cons]
      refine ih _ hf (fun s hs' => hs s (by simp [hs'])) ?_
      intro s hs'
      rcases SkipListZ.mem_insert hs' with rfl | hs'
      · exact pos_mul hR (hs x (by simp)) hf
      · exact hl s (SkipListZ.mem_delete hs')
  unfold rescaleIfNeeded
  split
  · unfold rescaleLocked
    simp only
    split
    · simp
    · refine hloop _ _ _ (hp _) ?_ h
      intro s hs
      exact h s ((List.dropWhile_sublist _).subset hs)
  · exact h

theorem pos_step (hR : A.R.Lawful) (hp : ∀ x, Pos (A.exp x)) {r : EDRZ} (h : ∀ s ∈ r.values, Pos s.weight) (o : Op) :
    ∀ s ∈ (step A r o).state.values, Pos s.weight := by
  cases o with
  | getSnapshot tick t => exact pos_rescale hR hp h tick t
  | updateN env v =>
    have h1 := pos_rescale hR hp h env.tick env.scaleTime
    show ∀ s ∈ (updateN A r env v).state.values, Pos s.weight
    unfold updateN
    simp only
    generalize rescaleIfNeeded A r env.tick env.scaleTime = r1 at h1
    have hw : Pos (weight A r1.alpha (i64 (EDR.currentTimeInSecond env.time - r1.startTime))) := hp _
    generalize weight A r1.alpha (i64 (EDR.currentTimeInSecond env.time - r1.startTime)) = w at hw
    generalize priority A w env.u = p
    unfold record
    simp only
    split
    · intro s hs
      rcases SkipListZ.mem_insert hs with rfl | hs
      · exact hw
      · exact h1 s hs
    · split
      · exact h1
      · split
        · exact h1
        · split
          · exact SkipListZ.pos_overwrite hw h1
          · intro s hs
            rcases SkipListZ.mem_insert hs with rfl | hs
            · exact hw
            · exact h1 s (SkipListZ.mem_delete hs)

theorem pos_run (hR : A.R.Lawful) (hp : ∀ x, Pos (A.exp x)) (h : List Op) : ∀ r : EDRZ, (∀ s ∈ r.values, Pos s.weight) → ∀ s ∈ (run A r h).values, Pos s.weight := by
  induction h with
  | nil => intro r hr; exact hr
  | cons o h ih => intro r hr; exact ih _ (pos_step hR hp hr o)

end EDRZ

/-- **C106.** Decaying reservoirs: for every history with draws other than -0, the samples, `Size()`, whether an update panics, and the statistics of snapshots are those of the model
without signs, and statistics of snapshots are never -0. `math.Exp` and `math.Sqrt` are any functions that, apart from the sign of zero, are those of the model; `Exp` is neither
negative nor -0. -/
theorem C106_decaying (A : EDRZ.Arith) (exp' : F64 → F64) (hR : A.R.Lawful) (he : ∀ x, (A.exp x).unsigned = exp' x.unsigned)
    (he0 : ∀ x, ¬ (A.exp x).lt (.zero false) ∧ A.exp x ≠ .zero true) (size : Int) (alpha : Z64) (time tick : Int) (h : List EDRZ.Op)
    (hu : ∀ env v, EDRZ.Op.updateN env v ∈ h → env.u ≠ .zero true) (q : Z64) (sqrt : Z64 → Z64) (sqrt' : F64 → F64)
    (hs : ∀ x, (sqrt x).unsigned = sqrt' x.unsigned) (hs' : ∀ x, sqrt x = .zero true → x = .zero true) :
    let B : EDR.Arith := ⟨A.R, exp'⟩
    let r := EDRZ.run A (EDRZ.new size alpha time tick) h
    let r' := EDR.run B (EDR.new size alpha.unsigned time tick) (h.map EDRZ.Op.unsigned)
    r.getValues.map SampleZ.unsigned = r'.getValues ∧ r.getSize = r'.getSize ∧
    (∀ env v, env.u ≠ .zero true → ((∃ s, EDRZ.updateN A r env v = .panic s) ↔
      ∃ s, EDR.updateN B r' ⟨env.tick, env.scaleTime, env.time, env.u.unsigned⟩ v = .panic s)) ∧
    ∀ tick' time' cp, 
      let w := r.getSnapshot A tick' time' cp
      let w' := r'.getSnapshot B tick' time' (cp.map SampleZ.unsigned)
      (w.getValue A.R q).unsigned = w'.getValue A.R q.unsigned ∧ (w.getMean A.R).unsigned = w'.getMean A.R ∧
      (w.getStdDev A.R sqrt).unsigned = w'.getStdDev A.R sqrt' ∧
      (A.R = .binary64 → w.getValue A.R q ≠ .ok (.zero true) ∧ w.getValue A.R q ≠ .err (.zero true) ∧
        w.getMean A.R ≠ .ok (.zero true) ∧ w.getMean A.R ≠ .err (.zero true) ∧ w.getStdDev A.R sqrt ≠ .ok (.zero true)) := by
  intro B r r'
  have hp : ∀ x, Pos (A.exp x) := fun x => pos_of_nonNeg (he0 x).1 (he0 x).2
  have hr : r.unsigned = r' := EDRZ.unsigned_run he h _ hu
  refine ⟨?_, ?_, ?_, ?_⟩
  · rw [← hr]; exact EDRZ.unsigned_getValues r
  · rw [← hr]; rfl
  · intro env v hne
    have := EDRZ.unsigned_step he r (.updateN env v) (fun env' v' e => by simp only [EDRZ.Op.updateN.injEq] at e; rw [← e.1]; exact hne)
    rw [hr] at this
    have e1 : EDRZ.step A r (.updateN env v) = EDRZ.updateN A r env v := rfl
    have e2 : EDR.step B r' (EDRZ.Op.unsigned (.updateN env v)) = EDR.updateN B r' ⟨env.tick, env.scaleTime, env.time, env.u.unsigned⟩ v := rfl
    rw [e1, e2] at this
    rw [← this]
    cases EDRZ.updateN A r env v <;> simp [EDRZ.unsignedRes]
  · intro tick' time' cp w w'
    have hpr := EDRZ.pos_rescale hR hp (EDRZ.pos_run hR hp h (EDRZ.new size alpha time tick) (by simp [EDRZ.new])) tick' time'
    have ht : WeightedSnapshotZ.totalWeight A.R (EDRZ.rescaleIfNeeded A r tick' time').getValues ≠ .zero true :=
      (WeightedSnapshotZ.pos_total hR _ fun s hs => hpr s ((List.dropWhile_sublist _).subset hs)).ne
    have hw : w.unsigned = w' := by
      show (WeightedSnapshotZ.new A.R _ cp).unsigned = WeightedSnapshot.new A.R (EDR.afterSnapshot B r' tick' time').getValues _
      rw [WeightedSnapshotZ.unsigned_new _ _ ht, EDRZ.unsigned_getValues, EDRZ.unsigned_rescale he, hr]
      rfl
    rw [← hw]
    refine ⟨w.unsigned_getValue q, w.unsigned_getMean, w.unsigned_getStdDev hs, ?_⟩
    intro hb
    rw [hb]
    exact ⟨(w.getValue_ne q).1, (w.getValue_ne q).2, w.stats_ne hs'⟩

/-- A value without sign, with +0 for zero. -/
def Z64.lift : F64 → Z64
  | .nan => .nan
  | .inf s => .inf s
  | .fin q => if h : q = 0 then .zero false else .fin q h

theorem Z64.lift_unsigned (x : F64) : (Z64.lift x).unsigned = x := by
  cases x with
  | fin q =>
    by_cases h : q = 0
    · simp [Z64.lift, h]
    · simp [Z64.lift, h]
  | _ => rfl

theorem Z64.lift_ne (x : F64) : Z64.lift x ≠ .zero true := by
  cases x with
  | fin q => by_cases h : q = 0 <;> simp [Z64.lift, h]
  | _ => simp [Z64.lift]

/-- The hypotheses of C106_decaying, C106_weighted and C106_uniform can be met: binary64 with powers of two; and a square root that keeps -0. -/
example : ∃ (A : EDRZ.Arith) (exp' : F64 → F64), A.R = .binary64 ∧ A.R.Lawful ∧ (∀ x, (A.exp x).unsigned = exp' x.unsigned) ∧
    ∀ x, ¬ (A.exp x).lt (.zero false) ∧ A.exp x ≠ .zero true :=
  ⟨⟨.binary64, fun x => Z64.lift (EDR.demo.exp x.unsigned)⟩, EDR.demo.exp, rfl, Rounding.binary64_lawful, fun x => Z64.lift_unsigned _, fun x =>
    ⟨by have := EDR.demo_lawful.nonneg x.unsigned
        show ¬ F64.lt _ _
        rw [Z64.lift_unsigned]
        exact this, Z64.lift_ne _⟩⟩

example : ∃ (sqrt : Z64 → Z64) (sqrt' : F64 → F64), sqrt (.zero true) = .zero true ∧ (∀ x, (sqrt x).unsigned = sqrt' x.unsigned) ∧ ∀ x, sqrt x = .zero true → x = .zero true := by
  refine ⟨fun x => match x with | .zero s => .zero s | x => Z64.lift x.unsigned, id, rfl, ?_, ?_⟩
  · intro x; cases x <;> simp [Z64.lift_unsigned]
  · intro x h
    cases x with
    | zero s => exact h
    | nan => exact absurd h (Z64.lift_ne _)
    | inf s => exact absurd h (Z64.lift_ne _)
    | fin q hq => exact absurd h (Z64.lift_ne _)

/-- `GetRate` of a new average per negative unit is -0: the restriction to positive units in C106_ewma is needed. -/
theorem C106_negative_unit_refuted (alpha : Z64) : (EWMAZ.new alpha 5000000000).getRate .binary64 (-1) = .zero true := by
  have hR := Rounding.binary64_lawful
  show mul .binary64 (zero false) (ofInt .binary64 (-1)) = zero true
  have h1 : Rounding.binary64.rnd ((-1 : Int) : ℚ) = .fin (-1) := by
    have := hR.odd 1
    rw [binary64_one] at this
    push_cast
    exact this
  have h2 : ofInt .binary64 (-1) = fin (-1) (by norm_num) := by
    unfold ofInt Z64.round
    rw [h1]
    simp
  rw [h2]
  simp [mul, Z64.round, hR.zero]

/-- As a divisor -0 is not +0: the theorems above depend on which divisors occur. -/
example : (div .binary64 (fin 1 (by norm_num)) (zero true)).unsigned = .inf true ∧ F64.div .binary64 (.fin 1) (zero true).unsigned = .inf false := by
  constructor
  · simp [div]
  · simp [F64.div]

/-- The quantile -0 is not rejected: the answer is the smallest value. -/
example : ((UniformSnapshot.new [7, 3, 9]).getValueZ .binary64 (.zero true)).unsigned = .ok (.fin 3) := by
  rw [UniformSnapshot.unsigned_getValue]
  decide +kernel

/-- A weighted snapshot with a weight of -0. -/
example : ((WeightedSnapshotZ.new .binary64 [⟨.zero false, 7, .zero true⟩, ⟨.zero false, 9, ofInt .binary64 1⟩]
    [⟨.zero false, 7, .zero true⟩, ⟨.zero false, 9, ofInt .binary64 1⟩]).getMean .binary64).unsigned = .ok (.fin 9) := by
  rw [WeightedSnapshotZ.unsigned_getMean, WeightedSnapshotZ.unsigned_new _ _ (WeightedSnapshotZ.total_ne_aux _ (by
    intro s hs
    simp only [List.mem_cons, List.not_mem_nil, or_false] at hs
    rcases hs with rfl | rfl
    · exact isFloat64_zero _
    · exact isFloat64_ofInt _))]
  simp only [List.map_cons, List.map_nil, SampleZ.unsigned, unsigned_zero, unsigned_ofInt]
  decide +kernel

end GoMetrics
