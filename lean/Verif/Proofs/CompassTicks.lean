import Verif.Proofs.Compass
/-! # Compass: moving averages and the tick schedule -/
namespace GoMetrics
namespace Compass
open Spec
variable {σ X : Type}

/-- An average whose `interval` and `alpha` were never set. -/
structure Broken (e : EWMA) : Prop where
  alpha : e.alpha = .fin 0
  interval : e.interval = 0
  before : e.initialized = false → e.rate = .fin 0
  after : e.initialized = true → e.rate.isFinite = false

theorem broken_zero : Broken EWMA.zeroValue := ⟨rfl, rfl, fun _ => rfl, by simp [EWMA.zeroValue]⟩

theorem div_zero_not_finite (R : Rounding) (x : F64) : (F64.div R x (.fin 0)).isFinite = false := by
  cases x with
  | nan => rfl
  | inf s => rfl
  | fin a => by_cases h : a = 0 <;> simp [F64.div, h, F64.isFinite]

theorem add_not_finite (R : Rounding) (x y : F64) (h : x.isFinite = false) : (F64.add R x y).isFinite = false := by
  cases x with
  | nan => rfl
  | inf s =>
    cases y with
    | nan => rfl
    | inf s' => by_cases hs : s = s' <;> simp [F64.add, hs, F64.isFinite]
    | fin b => rfl
  | fin a => simp [F64.isFinite] at h

theorem mul_not_finite (R : Rounding) (x y : F64) (h : x.isFinite = false) : (F64.mul R x y).isFinite = false := by
  cases x with
  | nan => rfl
  | inf s =>
    cases y with
    | nan => rfl
    | inf s' => rfl
    | fin b => by_cases hb : b = 0 <;> simp [F64.mul, hb, F64.isFinite]
  | fin a => simp [F64.isFinite] at h

theorem broken_tickN {R : Rounding} (hR : R.Lawful) {e : EWMA} (h : Broken e) (c : Int) :
    Broken (e.tickN R c) ∧ (e.tickN R c).initialized = true := by
  have h0 : F64.ofInt R 0 = .fin 0 := by
    have := hR.zero
    simpa [F64.ofInt] using this
  have hinst : (e.instantRate R c).isFinite = false := by
    unfold EWMA.instantRate
    rw [h.interval, h0]
    exact div_zero_not_finite R _
  refine ⟨⟨h.alpha, h.interval, by simp [EWMA.tickN], fun _ => ?_⟩, rfl⟩
  simp only [EWMA.tickN, EWMA.newRate]
  cases hi : e.initialized
  · simpa using hinst
  · simpa using add_not_finite R _ _ (h.after hi)

/-- All three averages are broken and agree on whether they have ticked. -/
structure AllBroken (c : Compass σ) (ticked : Bool) : Prop where
  b1 : Broken c.m1Rate
  b5 : Broken c.m5Rate
  b15 : Broken c.m15Rate
  i1 : c.m1Rate.initialized = ticked
  i5 : c.m5Rate.initialized = ticked
  i15 : c.m15Rate.initialized = ticked

theorem allBroken_iterate {R : Rounding} (hR : R.Lawful) (k : Nat) (c : Compass σ) (b : Bool) (h : AllBroken c b) :
    AllBroken ((tickOnce R)^[k + 1] c) true := by
  induction k generalizing c b with
  | zero =>
    have a1 := broken_tickN hR h.b1 c.uncounted
    have a2 := broken_tickN hR h.b5 c.uncounted
    have a3 := broken_tickN hR h.b15 c.uncounted
    exact ⟨a1.1, a2.1, a3.1, a1.2, a2.2, a3.2⟩
  | succ k ih =>
    rw [Function.iterate_succ_apply]
    have a1 := broken_tickN hR h.b1 c.uncounted
    have a2 := broken_tickN hR h.b5 c.uncounted
    have a3 := broken_tickN hR h.b15 c.uncounted
    exact ih (tickOnce R c) true ⟨a1.1, a2.1, a3.1, a1.2, a2.2, a3.2⟩

theorem iterate_lastTick (R : Rounding) (k : Nat) (c : Compass σ) : ((tickOnce R)^[k] c).lastTick = c.lastTick := by
  induction k generalizing c with
  | zero => rfl
  | succ k ih => rw [Function.iterate_succ_apply, ih]; rfl

theorem ticksDue_pos (c : Compass σ) (tick : Int) (h : c.age tick > tickInterval) : 0 < c.ticksDue tick := by
  unfold ticksDue
  rw [if_pos h]
  have h1 : 1 ≤ (c.age tick).tdiv tickInterval := by
    have hp : 0 ≤ c.age tick := by unfold tickInterval at h; omega
    rw [Int.tdiv_eq_ediv_of_nonneg hp]
    unfold tickInterval at *
    omega
  omega

theorem allBroken_tick {R : Rounding} (hR : R.Lawful) (c : Compass σ) (tick : Int) (hI : c.bucketInterval ≠ 0) (b : Bool)
    (h : AllBroken c b) :
    AllBroken (c.tickIfNecessary R tick).state (b || decide (c.age tick > tickInterval)) ∧
      (¬ c.age tick > tickInterval → (c.tickIfNecessary R tick).state.lastTick = c.lastTick) := by
  unfold tickIfNecessary
  by_cases ht : c.age tick > tickInterval
  · simp only [if_pos ht, if_neg hI, Res.state_ok, ht, decide_true, Bool.or_true, not_true_eq_false, false_imp_iff, and_true]
    obtain ⟨k, hk⟩ : ∃ k, c.ticksDue tick = k + 1 := ⟨c.ticksDue tick - 1, by have := ticksDue_pos c tick ht; omega⟩
    rw [hk]
    apply allBroken_iterate hR k _ b
    exact ⟨h.b1, h.b5, h.b15, h.i1, h.i5, h.i15⟩
  · simp only [if_neg ht, Res.state_ok, ht, decide_false, Bool.or_false]
    exact ⟨h, fun _ => by simp⟩

/-- Every call of the API begins with `tickIfNecessary` and touches neither the averages nor the tick clock afterwards. -/
theorem step_tick (R : Rounding) (S : ReservoirImpl σ X) (c : Compass σ) (env : Env X) (op : Op)
    (hI : c.bucketInterval ≠ 0) :
    (step R S c env op).state.m1Rate = (c.tickIfNecessary R env.tick).state.m1Rate ∧
    (step R S c env op).state.m5Rate = (c.tickIfNecessary R env.tick).state.m5Rate ∧
    (step R S c env op).state.m15Rate = (c.tickIfNecessary R env.tick).state.m15Rate ∧
    (step R S c env op).state.lastTick = (c.tickIfNecessary R env.tick).state.lastTick := by
  cases op with
  | readRate => exact ⟨rfl, rfl, rfl, rfl⟩
  | update d =>
    obtain ⟨-, -, -, -, -, -, -, -, -, h⟩ := update_total R S c env d hI
    exact h
  | updateWithError d s code addon =>
    obtain ⟨-, -, -, -, -, -, -, -, -, h⟩ := update_total R S c env d hI
    simp only [step]
    apply updateWithError_of (P := fun c' => c'.m1Rate = (c.tickIfNecessary R env.tick).state.m1Rate ∧
      c'.m5Rate = (c.tickIfNecessary R env.tick).state.m5Rate ∧
      c'.m15Rate = (c.tickIfNecessary R env.tick).state.m15Rate ∧
      c'.lastTick = (c.tickIfNecessary R env.tick).state.lastTick)
    · exact h
    · rintro c' ⟨p1, p2, p3, p4⟩
      obtain ⟨-, -, -, -, -, -, -, -, q1, q2, q3, q4⟩ := successStep_frame c' env.tSuccess s
      exact ⟨q1.trans p1, q2.trans p2, q3.trans p3, q4.trans p4⟩
    · rintro c' ⟨p1, p2, p3, p4⟩
      obtain ⟨-, -, -, -, -, -, -, -, q1, q2, q3, q4⟩ := errorStep_frame c' env.tErrNew env.tErr code
      exact ⟨q1.trans p1, q2.trans p2, q3.trans p3, q4.trans p4⟩
    · rintro c' ⟨p1, p2, p3, p4⟩
      obtain ⟨-, -, -, -, -, -, -, -, q1, q2, q3, q4⟩ := addonStep_frame c' env.tAddonNew env.tAddon addon
      exact ⟨q1.trans p1, q2.trans p2, q3.trans p3, q4.trans p4⟩

/-- Has any call of the history seen a tick more than 5 s after `start`? -/
def anyLate (start : Int) (h : List (Env X × Op)) : Bool := h.any fun e => decide (i64 (e.1.tick - start) > tickInterval)

theorem broken_run {R : Rounding} (hR : R.Lawful) (S : ReservoirImpl σ X) (r0 : σ) (n : Nat) (I maxErr maxAdd : Int)
    (ne : NewEnv) (hI : I ≠ 0) (h : List (Env X × Op)) :
    AllBroken (run R S (new r0 n I maxErr maxAdd ne) h) (anyLate ne.now h) ∧
      (anyLate ne.now h = false → (run R S (new r0 n I maxErr maxAdd ne) h).lastTick = ne.now) := by
  induction h using List.reverseRecOn with
  | nil => exact ⟨⟨broken_zero, broken_zero, broken_zero, rfl, rfl, rfl⟩, fun _ => rfl⟩
  | append_singleton h e ih =>
    rw [run_snoc]
    have hb := basic_run R S r0 n I maxErr maxAdd ne hI h
    generalize run R S (new r0 n I maxErr maxAdd ne) h = c at *
    have hcI : c.bucketInterval ≠ 0 := by rw [hb.interval]; exact hI
    obtain ⟨t1, t2, t3, t4⟩ := step_tick R S c e.1 e.2 hcI
    obtain ⟨hA, hL⟩ := allBroken_tick hR c e.1.tick hcI _ ih.1
    have hany : anyLate ne.now (h ++ [e]) = (anyLate ne.now h || decide (c.age e.1.tick > tickInterval)) := by
      simp only [anyLate, List.any_append, List.any_cons, List.any_nil, Bool.or_false]
      cases hl : anyLate ne.now h
      · have hlt := ih.2 hl
        simp only [anyLate] at hl
        simp only [hl, Bool.false_or, age, hlt]
      · simp only [anyLate] at hl
        simp [hl]
    rw [hany]
    refine ⟨⟨?_, ?_, ?_, ?_, ?_, ?_⟩, ?_⟩
    · rw [t1]; exact hA.b1
    · rw [t2]; exact hA.b5
    · rw [t3]; exact hA.b15
    · rw [t1]; exact hA.i1
    · rw [t2]; exact hA.i5
    · rw [t3]; exact hA.i15
    · intro hf
      simp only [Bool.or_eq_false_iff, decide_eq_false_iff_not] at hf
      rw [t4, hL hf.2, ih.2 hf.1]

/-- How often the loop that feeds the averages ran during a history. -/
def ticksPerformed (R : Rounding) (S : ReservoirImpl σ X) (c : Compass σ) : List (Env X × Op) → Nat
  | [] => 0
  | e :: h => c.ticksDue e.1.tick + ticksPerformed R S (step R S c e.1 e.2).state h

theorem ticksPerformed_snoc (R : Rounding) (S : ReservoirImpl σ X) (c : Compass σ) (h e) :
    ticksPerformed R S c (h ++ [e]) = ticksPerformed R S c h + (run R S c h).ticksDue e.1.tick := by
  induction h generalizing c with
  | nil => simp [ticksPerformed, run]
  | cons a h ih =>
    simp only [List.cons_append, ticksPerformed, ih]
    have : run R S c (a :: h) = run R S (step R S c a.1 a.2).state h := rfl
    rw [this]; omega

theorem tick_lastTick (R : Rounding) (c : Compass σ) (tick : Int) (hI : c.bucketInterval ≠ 0) :
    (c.tickIfNecessary R tick).state.lastTick =
      if c.age tick > tickInterval then i64 (tick - (c.age tick).tmod c.bucketInterval) else c.lastTick := by
  unfold tickIfNecessary
  by_cases ht : c.age tick > tickInterval
  · simp only [if_pos ht, if_neg hI, Res.state_ok, iterate_lastTick]
  · simp only [if_neg ht, Res.state_ok]

/-- The readings of a history never go down and never go below `lo`; `newest` is the last one. -/
def Monotone' (lo : Int) : List Int → Prop
  | [] => True
  | t :: ts => lo ≤ t ∧ Monotone' t ts

/-- The newest reading. -/
def newest (lo : Int) (ts : List Int) : Int := ts.getLastD lo

theorem monotone_snoc (lo : Int) (ts : List Int) (t : Int) : Monotone' lo (ts ++ [t]) ↔ Monotone' lo ts ∧ newest lo ts ≤ t := by
  induction ts generalizing lo with
  | nil => simp [Monotone', newest]
  | cons a ts ih =>
    simp only [List.cons_append, Monotone', ih, newest]
    rw [and_assoc]
    have : (a :: ts).getLastD lo = ts.getLastD a := by cases ts <;> simp [List.getLastD]
    rw [this]

theorem newest_ge (lo : Int) (ts : List Int) (h : Monotone' lo ts) : lo ≤ newest lo ts := by
  induction ts generalizing lo with
  | nil => simp [newest]
  | cons a ts ih =>
    have : (a :: ts).getLastD lo = ts.getLastD a := by cases ts <;> simp [List.getLastD]
    unfold newest
    rw [this]
    exact le_trans h.1 (ih a h.2)

theorem schedule (R : Rounding) (S : ReservoirImpl σ X) (r0 : σ) (n : Nat) (I maxErr maxAdd : Int)
    (ne : NewEnv) (hI : 0 < I) (hdvd : I ∣ tickInterval) (h0 : 0 ≤ ne.now) (h : List (Env X × Op))
    (hm : Monotone' ne.now (h.map fun e => e.1.tick))
    (hmax : newest ne.now (h.map fun e => e.1.tick) < 2 ^ 63) :
    let c := run R S (new r0 n I maxErr maxAdd ne) h
    let k := ticksPerformed R S (new r0 n I maxErr maxAdd ne) h
    let t := newest ne.now (h.map fun e => e.1.tick)
    ne.now + 5000000000 * k ≤ c.lastTick ∧ c.lastTick ≤ t ∧ t - c.lastTick ≤ 5000000000 ∧
      (I = tickInterval → ne.now + 5000000000 * k = c.lastTick) := by
  induction h using List.reverseRecOn with
  | nil => simp [run, new, ticksPerformed, newest]
  | append_singleton h e ih =>
    intro c k t
    simp only [List.map_append, List.map_cons, List.map_nil] at hm hmax
    rw [monotone_snoc] at hm
    have hnew : newest ne.now ((h.map fun e => e.1.tick) ++ [e.1.tick]) = e.1.tick := by simp [newest]
    rw [hnew] at hmax
    have ht : t = e.1.tick := by simp [t, newest]
    have hn0 := newest_ge _ _ hm.1
    obtain ⟨i1, i2, i3, i4⟩ := ih hm.1 (by omega)
    have hb := basic_run R S r0 n I maxErr maxAdd ne (by omega) h
    have hk : k = ticksPerformed R S (new r0 n I maxErr maxAdd ne) h +
        (run R S (new r0 n I maxErr maxAdd ne) h).ticksDue e.1.tick := ticksPerformed_snoc R S _ h e
    have hc : c = (step R S (run R S (new r0 n I maxErr maxAdd ne) h) e.1 e.2).state := run_snoc R S _ h e
    clear_value c k t
    subst hc hk ht
    generalize run R S (new r0 n I maxErr maxAdd ne) h = c at *
    generalize ticksPerformed R S (new r0 n I maxErr maxAdd ne) h = k at *
    have hcI : c.bucketInterval = I := hb.interval
    have hcI0 : c.bucketInterval ≠ 0 := by omega
    rw [(step_tick R S c e.1 e.2 hcI0).2.2.2, tick_lastTick R c _ hcI0]
    have hage : c.age e.1.tick = e.1.tick - c.lastTick := by
      unfold age; apply i64_of_in; unfold InI64; norm_num at hmax; omega
    unfold ticksDue
    rw [hage, hcI]
    by_cases hlate : e.1.tick - c.lastTick > tickInterval
    · rw [if_pos hlate, if_pos hlate]
      unfold tickInterval at *
      have hp : 0 ≤ e.1.tick - c.lastTick := by omega
      rw [Int.tdiv_eq_ediv_of_nonneg hp, Int.tmod_eq_emod_of_nonneg hp]
      have r1 := Int.emod_nonneg (e.1.tick - c.lastTick) (by omega : I ≠ 0)
      have r2 := Int.emod_lt_of_pos (e.1.tick - c.lastTick) hI
      have hIle : I ≤ 5000000000 := Int.le_of_dvd (by norm_num) hdvd
      have hin : i64 (e.1.tick - (e.1.tick - c.lastTick) % I) = e.1.tick - (e.1.tick - c.lastTick) % I := by
        apply i64_of_in; unfold InI64; norm_num at hmax; omega
      rw [hin]
      have hq : 0 ≤ (e.1.tick - c.lastTick) / 5000000000 := by omega
      have hcast : (((e.1.tick - c.lastTick) / 5000000000).toNat : Int) = (e.1.tick - c.lastTick) / 5000000000 :=
        Int.toNat_of_nonneg hq
      have hmod : (e.1.tick - c.lastTick) % I ≤ (e.1.tick - c.lastTick) % 5000000000 := by
        rw [← Int.emod_emod_of_dvd (e.1.tick - c.lastTick) hdvd]
        have ha : 0 ≤ (e.1.tick - c.lastTick) % 5000000000 := by omega
        have hd := Int.ediv_nonneg ha (by omega : 0 ≤ I)
        have he := Int.mul_ediv_add_emod ((e.1.tick - c.lastTick) % 5000000000) I
        nlinarith
      push_cast
      rw [hcast]
      refine ⟨by omega, by omega, by omega, ?_⟩
      intro hIe
      subst hIe
      have := i4 rfl
      omega
    · rw [if_neg hlate, if_neg hlate]
      unfold tickInterval at *
      refine ⟨by simpa using i1, by omega, by omega, ?_⟩
      intro hIe
      simpa using i4 hIe

end Compass
end GoMetrics
