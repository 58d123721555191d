import Verif.Props.FusedEWMA
import Verif.Props.UniformPercentile
/-! # C104 — uniform snapshots, if the compiler fuses multiplications and additions -/
namespace GoMetrics
open Rounding
namespace UniformSnapshot

/-- Nothing fused: the code of Model/UniformSnapshot.lean. -/
theorem getValueF_false (R : Rounding) (u : UniformSnapshot) (q : F64) : u.getValueF R false false q = u.getValue R q := rfl

/-- The three branches of `GetValue` for a permitted quantile and a non-empty snapshot. -/
theorem getValueF_cases (R : Rounding) (fr su : Bool) (u : UniformSnapshot) {q : F64} (hq : badQuantile q = false) (hn : 0 < u.values.length) :
    (truncInt (u.position R q) < 1 ∧ u.getValueF R fr su q = .ok (F64.ofInt R u.values[0])) ∨
    (1 ≤ truncInt (u.position R q) ∧ (u.values.length : Int) ≤ truncInt (u.position R q) ∧
      u.getValueF R fr su q = .ok (F64.ofInt R (u.values[u.values.length - 1]'(by omega)))) ∨
    ∃ (i : Nat) (hi : i + 1 < u.values.length) (p : ℚ), u.position R q = .fin p ∧ truncInt (u.position R q) = (i : Int) + 1 ∧ ⌊p⌋ = (i : Int) + 1 ∧
      u.getValueF R fr su q = .ok (F64.add R (F64.ofInt R u.values[i])
        (F64.mul (R.product su) (u.fractionF R fr q) (F64.ofInt R (i64 (u.values[i + 1] - u.values[i]))))) := by
  have hs : u.size = (u.values.length : Int) := rfl
  have e0 : ¬ u.size = 0 := by rw [hs]; omega
  unfold getValueF
  rw [hq]
  simp only [Bool.false_eq_true, if_false, e0]
  by_cases h1 : truncInt (u.position R q) < 1
  · left
    refine ⟨h1, ?_⟩
    obtain ⟨h, e⟩ := index_some (s := u.values) (i := 0) (by omega) (by omega)
    rw [if_pos h1, e]; rfl
  · right
    rw [if_neg h1]
    by_cases h2 : truncInt (u.position R q) ≥ u.size
    · left
      refine ⟨by omega, by omega, ?_⟩
      obtain ⟨h, e⟩ := index_some (s := u.values) (i := u.size - 1) (by omega) (by omega)
      rw [if_pos h2, e]
      have : (u.size - 1).toNat = u.values.length - 1 := by omega
      simp only [this]
    · right
      rw [if_neg h2]
      obtain ⟨p, hp, hf, hp1⟩ := trunc_floor (by omega : 1 ≤ truncInt (u.position R q))
      obtain ⟨i, hi⟩ : ∃ i : Nat, truncInt (u.position R q) = (i : Int) + 1 := ⟨(truncInt (u.position R q) - 1).toNat, by omega⟩
      rw [hi] at h1 h2 ⊢
      rw [hi] at hf
      refine ⟨i, by omega, p, hp, rfl, hf.symm, ?_⟩
      obtain ⟨a1, a2⟩ := index_some (s := u.values) (i := (i : Int) + 1 - 1) (by omega) (by omega)
      obtain ⟨b1, b2⟩ := index_some (s := u.values) (i := (i : Int) + 1) (by omega) (by omega)
      rw [a2, b2]
      have ea : ((i : Int) + 1 - 1).toNat = i := by omega
      have eb : ((i : Int) + 1).toNat = i + 1 := by omega
      simp only [ea, eb]

theorem fraction_false {R : Rounding} {u : UniformSnapshot} {q : F64} {p : ℚ} {i : Int} (hp : u.position R q = .fin p) (hf : ⌊p⌋ = i) :
    u.fractionF R false q = R.rnd (p - i) := by
  have e : F64.mul (R.product false) q (F64.ofInt R (u.size + 1)) = u.position R q := rfl
  unfold fractionF
  rw [e, hp]
  simp only [F64.floor, F64.sub, F64.neg, F64.add, hf, sub_eq_add_neg]

theorem fraction_true {R : Rounding} {u : UniformSnapshot} {q p N : ℚ} {i : Int} (hN : F64.ofInt R (u.size + 1) = .fin N) (hp : u.position R (.fin q) = .fin p)
    (hf : ⌊p⌋ = i) : u.fractionF R true (.fin q) = R.rnd (q * N - i) := by
  unfold fractionF
  rw [hN, hp]
  simp only [Rounding.product, if_true, exact, F64.mul, F64.floor, F64.sub, F64.neg, F64.add, hf, sub_eq_add_neg]

/-- The interpolated value is between the two neighbours, ... -/
theorem interp_betweenF {R : Rounding} (hR : R.Lawful) (su : Bool) {p : ℚ} {i : Int} (hf : ⌊p⌋ = i) (h1 : R.Rep 1) {a b : Int} (hab : a ≤ b)
    (ha : R.Rep a) (hb : R.Rep b) (hd : R.Rep ((b - a : Int) : ℚ)) (hw : InI64 (b - a)) :
    ∃ r : ℚ, F64.add R (F64.ofInt R a) (F64.mul (R.product su) (R.rnd (p - (i : Int))) (F64.ofInt R (i64 (b - a)))) = .fin r ∧ (a : ℚ) ≤ r ∧ r ≤ b := by
  cases su with
  | false => exact interp_between hR hf h1 hab ha hb hd hw
  | true =>
    have f0 : (0 : ℚ) ≤ p - i := by rw [← hf]; linarith [Int.floor_le p]
    have f1 : p - i ≤ 1 := by rw [← hf]; linarith [Int.lt_floor_add_one p]
    obtain ⟨f, ef, hf0, hf1, -⟩ := hR.between hR.rep_zero h1 f0 f1
    have hc : ((b - a : Int) : ℚ) = b - a := by push_cast; ring
    have hdpos : (0 : ℚ) ≤ (b : ℚ) - a := by rw [← hc]; exact_mod_cast (by omega : (0 : Int) ≤ b - a)
    rw [i64_of_in hw]
    unfold F64.ofInt
    rw [ef, ha, hd, hc]
    simp only [F64.mul, Rounding.product, if_true, exact, F64.add]
    obtain ⟨r, er, hr0, hr1, -⟩ := hR.between (q := a + f * ((b : ℚ) - a)) ha hb (by nlinarith) (by nlinarith)
    exact ⟨r, er, hr0, hr1⟩

/-- ... and grows with the position. -/
theorem interp_monoF {R : Rounding} (hR : R.Lawful) (su : Bool) {p p' : ℚ} {i : Int} (hf : ⌊p⌋ = i) (hf' : ⌊p'⌋ = i) (hpp : p ≤ p') (h1 : R.Rep 1)
    {a b : Int} (hab : a ≤ b) (ha : R.Rep a) (hd : R.Rep ((b - a : Int) : ℚ)) (hw : InI64 (b - a)) {r r' : ℚ}
    (hr : F64.add R (F64.ofInt R a) (F64.mul (R.product su) (R.rnd (p - (i : Int))) (F64.ofInt R (i64 (b - a)))) = .fin r)
    (hr' : F64.add R (F64.ofInt R a) (F64.mul (R.product su) (R.rnd (p' - (i : Int))) (F64.ofInt R (i64 (b - a)))) = .fin r') : r ≤ r' := by
  cases su with
  | false => exact interp_mono hR hf hf' hpp h1 hab ha hd hw hr hr'
  | true =>
    have f0 : (0 : ℚ) ≤ p - i := by rw [← hf]; linarith [Int.floor_le p]
    have f1 : p - i ≤ 1 := by rw [← hf]; linarith [Int.lt_floor_add_one p]
    have f0' : (0 : ℚ) ≤ p' - i := by linarith
    have f1' : p' - i ≤ 1 := by rw [← hf']; linarith [Int.lt_floor_add_one p']
    obtain ⟨f, ef, hf0, hf1⟩ := hR.between hR.rep_zero h1 f0 f1
    obtain ⟨f', ef', hf0', hf1'⟩ := hR.between hR.rep_zero h1 f0' f1'
    have hff : f ≤ f' := by
      have := hR.mono (p - i) (p' - i) (by linarith)
      rw [ef, ef'] at this; exact this
    have hdpos : (0 : ℚ) ≤ ((b - a : Int) : ℚ) := by exact_mod_cast (by omega : (0 : Int) ≤ b - a)
    rw [i64_of_in hw] at hr hr'
    unfold F64.ofInt at hr hr'
    rw [ef, ha, hd] at hr
    rw [ef', ha, hd] at hr'
    simp only [F64.mul, Rounding.product, if_true, exact, F64.add] at hr hr'
    have := hR.mono (a + f * ((b - a : Int) : ℚ)) (a + f' * ((b - a : Int) : ℚ)) (by nlinarith)
    rw [hr, hr'] at this; exact this

theorem range_auxF {R : Rounding} (hR : R.Lawful) (su : Bool) {vs : List Int} (hfit : Fits R vs) (hne : vs ≠ []) {q : ℚ} (h0 : 0 ≤ q) (h1 : q ≤ 1) :
    ∃ (r : ℚ) (hn : 0 < (new vs).values.length), (new vs).getValueF R false su (.fin q) = .ok (.fin r) ∧
      ((new vs).values[0] : ℚ) ≤ r ∧ r ≤ ((new vs).values[(new vs).values.length - 1]'(by omega) : ℚ) := by
  have hn : 0 < (new vs).values.length := by rw [length_new]; exact List.length_pos_iff.2 hne
  have hs := sorted_new vs
  have hm : ∀ {i : Nat} (h : i < (new vs).values.length), (new vs).values[i] ∈ vs := fun h => mem_new.1 (List.getElem_mem h)
  rcases getValueF_cases R false su (new vs) ((bad_fin q).2 ⟨h0, h1⟩) hn with ⟨_, e⟩ | ⟨_, _, e⟩ | ⟨i, hi, p, hp, _, hf, e⟩
  · refine ⟨_, hn, by rw [e, F64.ofInt, hfit.val _ (hm hn)], le_refl _, ?_⟩
    exact_mod_cast sorted_get hs _ _ (by omega)
  · refine ⟨_, hn, by rw [e, F64.ofInt, hfit.val _ (hm (by omega))], ?_, le_refl _⟩
    exact_mod_cast sorted_get hs _ _ (by omega)
  · have hab := sorted_get hs (show i < (new vs).values.length by omega) hi (by omega)
    rw [fraction_false hp hf] at e
    obtain ⟨r, er, hr0, hr1⟩ := interp_betweenF hR su hf hfit.one hab (hfit.val _ (hm _)) (hfit.val _ (hm hi)) (hfit.diff _ (hm _) _ (hm hi) hab)
      (hfit.nowrap _ (hm _) _ (hm hi) hab)
    refine ⟨r, hn, by rw [e, er], ?_, ?_⟩
    · refine le_trans ?_ hr0
      exact_mod_cast sorted_get hs hn (show i < (new vs).values.length by omega) (by omega)
    · refine le_trans hr1 ?_
      exact_mod_cast sorted_get hs hi (show (new vs).values.length - 1 < _ by omega) (by omega)

theorem emptyF (R : Rounding) (fr su : Bool) (q : ℚ) (h0 : 0 ≤ q) (h1 : q ≤ 1) : (new []).getValueF R fr su (.fin q) = .ok (.fin 0) := by
  have := (bad_fin q).2 ⟨h0, h1⟩
  unfold getValueF
  rw [this]; simp [new, size]

theorem mono_auxF {R : Rounding} (hR : R.Lawful) (su : Bool) {vs : List Int} (hfit : Fits R vs) (hsize : R.Rep ((vs.length + 1 : Int) : ℚ))
    (hlen : vs.length + 1 < 2 ^ 63) {q q' : ℚ} (h0 : 0 ≤ q) (hqq : q ≤ q') (h1 : q' ≤ 1) {r r' : ℚ}
    (hr : (new vs).getValueF R false su (.fin q) = .ok (.fin r)) (hr' : (new vs).getValueF R false su (.fin q') = .ok (.fin r')) : r ≤ r' := by
  have hg := (bad_fin q).2 ⟨h0, by linarith⟩
  have hg' := (bad_fin q').2 ⟨by linarith, h1⟩
  by_cases hne : vs = []
  · subst hne
    rw [emptyF R _ _ q h0 (by linarith)] at hr
    rw [emptyF R _ _ q' (by linarith) h1] at hr'
    simp only [Ret.ok.injEq, F64.fin.injEq] at hr hr'
    rw [← hr, ← hr']
  have hlen' : vs.length + 1 < 9223372036854775808 := by norm_num at hlen; exact hlen
  have hll := length_new vs
  have hn : 0 < (new vs).values.length := by rw [length_new]; exact List.length_pos_iff.2 hne
  have hs := sorted_new vs
  have hm : ∀ {i : Nat} (h : i < (new vs).values.length), (new vs).values[i] ∈ vs := fun h => mem_new.1 (List.getElem_mem h)
  have hsz : (new vs).size = (vs.length : Int) := by unfold size; rw [length_new]
  have hN : (0 : ℚ) ≤ ((vs.length + 1 : Int) : ℚ) := by exact_mod_cast (by omega : (0 : Int) ≤ (vs.length : Int) + 1)
  have hposn : ∀ x : ℚ, 0 ≤ x → x ≤ 1 → ∃ p : ℚ, (new vs).position R (.fin x) = .fin p ∧ R.rnd (x * ((vs.length + 1 : Int) : ℚ)) = .fin p ∧
      0 ≤ p ∧ p ≤ ((vs.length + 1 : Int) : ℚ) := by
    intro x hx0 hx1
    obtain ⟨p, ep, hp0, hp1, _⟩ := hR.between (q := x * ((vs.length + 1 : Int) : ℚ)) hR.rep_zero hsize (by nlinarith) (by nlinarith)
    refine ⟨p, ?_, ep, hp0, hp1⟩
    unfold position F64.ofInt
    rw [hsz, hsize]
    simp only [F64.mul]; exact ep
  obtain ⟨p, ep, er, hp0, hp1⟩ := hposn q h0 (by linarith)
  obtain ⟨p', ep', er', hp0', hp1'⟩ := hposn q' (by linarith) h1
  have hpp : p ≤ p' := by
    have := hR.mono (q * ((vs.length + 1 : Int) : ℚ)) (q' * ((vs.length + 1 : Int) : ℚ)) (by nlinarith)
    rw [er, er'] at this; exact this
  have htr : ∀ x : ℚ, 0 ≤ x → x ≤ ((vs.length + 1 : Int) : ℚ) → truncInt (.fin x) = ⌊x⌋ := by
    intro x hx0 hx1
    have hf0 : 0 ≤ ⌊x⌋ := Int.floor_nonneg.2 hx0
    have hf1 : ⌊x⌋ ≤ vs.length + 1 := by
      have := Int.floor_mono hx1
      rwa [Int.floor_intCast] at this
    unfold truncInt toInt64
    simp only
    rw [if_pos hx0, if_pos (by omega)]; rfl
  have ht := htr p hp0 hp1
  have ht' := htr p' hp0' hp1'
  have hff : ⌊p⌋ ≤ ⌊p'⌋ := Int.floor_mono hpp
  have hc1 := getValueF_cases R false su (new vs) hg hn
  have hc2 := getValueF_cases R false su (new vs) hg' hn
  rw [ep, ht] at hc1
  rw [ep', ht'] at hc2
  rcases hc1 with ⟨ha, e⟩ | ⟨ha1, ha2, e⟩ | ⟨i, hi, pp, hpe, ha, hf, e⟩
  · obtain ⟨s, _, es, hs1, _⟩ := range_auxF hR su hfit hne (by linarith : 0 ≤ q') h1
    rw [hr'] at es
    rw [hr, F64.ofInt, hfit.val _ (hm hn)] at e
    simp only [Ret.ok.injEq, F64.fin.injEq] at e es
    rw [e, es]; exact hs1
  · rcases hc2 with ⟨hb, e'⟩ | ⟨hb1, hb2, e'⟩ | ⟨i', hi', pp', hpe', hb, hf', e'⟩
    · omega
    · rw [hr] at e; rw [hr'] at e'
      rw [← e'] at e
      simp only [Ret.ok.injEq, F64.fin.injEq] at e
      rw [e]
    · omega
  · simp only [F64.fin.injEq] at hpe
    subst hpe
    rw [fraction_false ep hf] at e
    have hi0 : i < (new vs).values.length := by omega
    have hab := sorted_get hs hi0 hi (by omega)
    obtain ⟨z, ez, hz0, hz1⟩ := interp_betweenF hR su hf hfit.one hab (hfit.val _ (hm hi0)) (hfit.val _ (hm hi)) (hfit.diff _ (hm hi0) _ (hm hi) hab)
      (hfit.nowrap _ (hm hi0) _ (hm hi) hab)
    have hz : r = z := by rw [hr, ez] at e; simpa using e
    rcases hc2 with ⟨hb, e'⟩ | ⟨hb1, hb2, e'⟩ | ⟨i', hi', pp', hpe', hb, hf', e'⟩
    · omega
    · have hlast : (new vs).values.length - 1 < (new vs).values.length := by omega
      rw [hr', F64.ofInt, hfit.val _ (hm hlast)] at e'
      simp only [Ret.ok.injEq, F64.fin.injEq] at e'
      rw [e', hz]
      refine le_trans hz1 ?_
      exact_mod_cast sorted_get hs hi hlast (by omega)
    · simp only [F64.fin.injEq] at hpe'
      subst hpe'
      rw [fraction_false ep' hf'] at e'
      have hi0' : i' < (new vs).values.length := by omega
      have hab' := sorted_get hs hi0' hi' (by omega)
      obtain ⟨z', ez', hz0', hz1'⟩ := interp_betweenF hR su hf' hfit.one hab' (hfit.val _ (hm hi0')) (hfit.val _ (hm hi'))
        (hfit.diff _ (hm hi0') _ (hm hi') hab') (hfit.nowrap _ (hm hi0') _ (hm hi') hab')
      have hz' : r' = z' := by rw [hr', ez'] at e'; simpa using e'
      rcases Nat.lt_or_eq_of_le (by omega : i ≤ i') with hlt | heq
      · rw [hz, hz']
        refine le_trans hz1 (le_trans ?_ hz0')
        exact_mod_cast sorted_get hs hi hi0' (by omega)
      · subst heq
        rw [hz, hz']
        exact interp_monoF hR su hf hf' hpp hfit.one hab (hfit.val _ (hm hi0)) (hfit.diff _ (hm hi0) _ (hm hi) hab)
          (hfit.nowrap _ (hm hi0) _ (hm hi) hab) ez ez'

end UniformSnapshot
open UniformSnapshot

/-- **C104.** However the compiler fuses, `GetValue` fails exactly for quantiles outside [0, 1] and never panics. -/
theorem C104_percentile_errors (R : Rounding) (fr su : Bool) (u : UniformSnapshot) (q : F64) :
    u.getValueF R fr su q ≠ .panic ∧ ((∃ v, u.getValueF R fr su q = .err v) ↔ q = .nan ∨ q.lt (.fin 0) ∨ F64.lt (.fin 1) q) := by
  have hbad : badQuantile q = true ↔ q = .nan ∨ q.lt (.fin 0) ∨ F64.lt (.fin 1) q := by
    unfold badQuantile
    cases q <;> simp [F64.isNaN, or_comm]
  by_cases hq : badQuantile q = true
  · have e : u.getValueF R fr su q = .err (.fin 0) := by unfold getValueF; rw [if_pos hq]
    rw [e]
    exact ⟨by simp, ⟨fun _ => hbad.1 hq, fun _ => ⟨_, rfl⟩⟩⟩
  · have hq' : badQuantile q = false := by simpa using hq
    have hno : ¬ (q = .nan ∨ q.lt (.fin 0) ∨ F64.lt (.fin 1) q) := fun h => hq (hbad.2 h)
    have hok : ∃ v, u.getValueF R fr su q = .ok v := by
      by_cases hn : 0 < u.values.length
      · rcases getValueF_cases R fr su u hq' hn with ⟨_, e⟩ | ⟨_, _, e⟩ | ⟨i, hi, p, hp, _, hf, e⟩ <;> exact ⟨_, e⟩
      · have e0 : u.size = 0 := by unfold size; omega
        refine ⟨.fin 0, ?_⟩
        unfold getValueF
        rw [hq', if_neg (by simp), if_pos e0]
    obtain ⟨v, e⟩ := hok
    rw [e]
    exact ⟨by simp, ⟨fun h => by (obtain ⟨w, h⟩ := h; cases h), fun h => absurd h hno⟩⟩

/-- **C104.** `C54` holds with a fused addition in line 59, for every lawful rounding that represents the integers below 2^53: for every quantile in [0, 1] the
answer lies between `GetMin()` and `GetMax()`. -/
theorem C104_percentile_range (R : Rounding) (hR : R.Lawful) (hI : R.Ints) (su : Bool) (vs : List Int) (hv : ∀ v ∈ vs, |v| < 2 ^ 52) (hne : vs ≠ [])
    (q : ℚ) (h0 : 0 ≤ q) (h1 : q ≤ 1) :
    ∃ (r : ℚ) (lo hi : Int), (new vs).getValueF R false su (.fin q) = .ok (.fin r) ∧ (new vs).getMin = .ok lo ∧ (new vs).getMax = .ok hi ∧
      lo ≤ r ∧ r ≤ hi := by
  obtain ⟨r, hn, e, a, b⟩ := range_auxF hR su (fits_of_small hI hv) hne h0 h1
  obtain ⟨_, c, d⟩ := C54_bounds_are vs hne
  exact ⟨r, _, _, e, c, d, a, b⟩

/-- **C104.** `C55` holds with a fused addition in line 59: quantiles are monotone. -/
theorem C104_percentile_monotone (R : Rounding) (hR : R.Lawful) (hI : R.Ints) (su : Bool) (vs : List Int) (hv : ∀ v ∈ vs, |v| < 2 ^ 52)
    (hlen : vs.length + 1 < 2 ^ 53) (q q' : ℚ) (h0 : 0 ≤ q) (hqq : q ≤ q') (h1 : q' ≤ 1) :
    ∃ r r' : ℚ, (new vs).getValueF R false su (.fin q) = .ok (.fin r) ∧ (new vs).getValueF R false su (.fin q') = .ok (.fin r') ∧ r ≤ r' := by
  by_cases hne : vs = []
  · subst hne
    exact ⟨0, 0, emptyF R _ _ q h0 (by linarith), emptyF R _ _ q' (by linarith) h1, le_refl _⟩
  have hfit := fits_of_small hI hv
  obtain ⟨r, _, e, _, _⟩ := range_auxF hR su hfit hne h0 (by linarith : q ≤ 1)
  obtain ⟨r', _, e', _, _⟩ := range_auxF hR su hfit hne (by linarith : 0 ≤ q') h1
  exact ⟨r, r', e, e', mono_auxF hR su hfit (hI _ (by rw [abs_lt]; constructor <;> omega)) (by norm_num at hlen ⊢; omega) h0 hqq h1 e e'⟩

/-- The quartiles of four durations in binary64, with the addition fused. -/
example : ∃ r r' : ℚ, (new [8, 1, 4, 2]).getValueF binary64 false true (.fin (1 / 4)) = .ok (.fin r) ∧
    (new [8, 1, 4, 2]).getValueF binary64 false true (.fin (3 / 4)) = .ok (.fin r') ∧ r ≤ r' :=
  C104_percentile_monotone binary64 binary64_lawful binary64_ints true [8, 1, 4, 2] (by decide) (by norm_num) (1 / 4) (3 / 4) (by norm_num) (by norm_num) (by norm_num)

set_option maxRecDepth 1000000 in
/-- **C104, refuted.** With the subtraction of line 59 fused into the product of line 45 the answers can leave the range of the values: the 95th percentile of 38
times 0 and one 1000000 is negative. (0.95 as a `float64` is less than 0.95, `0.95 * 40` is rounded up to 38, and the fused fraction is the rounding error, which is
negative.) -/
theorem C104_percentile_negative_refuted :
    ¬ ∀ (vs : List Int) (su : Bool) (v : F64), (∀ x ∈ vs, 0 ≤ x ∧ x < 2 ^ 52) → (new vs).getValueF binary64 true su (binary64.rnd (95 / 100)) = .ok v → F64.le (.fin 0) v := by
  intro h
  have key : (new (1000000 :: List.replicate 38 0)).getValueF binary64 true false (binary64.rnd (95 / 100)) = .ok (.fin (-15625 / 8796093022208)) := by decide +kernel
  have := h (1000000 :: List.replicate 38 0) false _ (by decide) key
  simp only [F64.le] at this
  norm_num at this

end GoMetrics
