import Verif.Props.Compass
/-! # C25 for every reservoir and every interval -/
namespace GoMetrics
open Compass
variable {σ X : Type}

namespace Compass

/-- Every counter of the compass has the interval of the compass. -/
structure Even (I maxErr maxAdd : Int) (c : Compass σ) : Prop where
  total : c.totalCount.interval = I
  success : c.successCount.interval = I
  errs : ∀ k b, c.errorCodes.get? k = some b → b.interval = I
  adds : ∀ k b, c.addons.get? k = some b → b.interval = I
  interval : c.bucketInterval = I
  hmaxErr : c.maxErrorCodeCount = maxErr
  hmaxAdd : c.maxAddonCount = maxAdd

theorem interval_update (b : BucketCounter) (t : Int) : (b.update t).state.interval = b.interval := by
  unfold BucketCounter.update
  cases ha : BucketCounter.alignTimestamp b.interval t with
  | none => rw [BucketCounter.updateN_of_none ha]; exact BucketCounter.bumpTotal_interval _ _
  | some a =>
    rw [BucketCounter.updateN_of_align ha]
    simp

variable {I maxErr maxAdd : Int}

theorem even_tickOnce (R : Rounding) (k : Nat) {c : Compass σ} (h : Even I maxErr maxAdd c) : Even I maxErr maxAdd ((tickOnce R)^[k] c) := by
  induction k generalizing c with
  | zero => exact h
  | succ k ih => exact ih (c := tickOnce R c) ⟨h.1, h.2, h.3, h.4, h.5, h.6, h.7⟩

theorem even_tick (R : Rounding) {c : Compass σ} (h : Even I maxErr maxAdd c) (t : Int) : Even I maxErr maxAdd (c.tickIfNecessary R t).state := by
  unfold tickIfNecessary
  split
  · split
    · exact h
    · exact even_tickOnce R _ ⟨h.1, h.2, h.3, h.4, h.5, h.6, h.7⟩
  · exact h

theorem even_andThen {r : Res (Compass σ)} {f : Compass σ → Res (Compass σ)} {P : Compass σ → Prop} (h : P r.state)
    (hf : ∀ c, P c → P (f c).state) : P (r.andThen f).state := by
  cases r with
  | ok c => exact hf c h
  | panic c => exact h

theorem even_update (R : Rounding) (S : ReservoirImpl σ X) {c : Compass σ} (h : Even I maxErr maxAdd c) (env : Env X) (d : Int) :
    Even I maxErr maxAdd (c.update R S env d).state := by
  unfold update
  refine even_andThen (even_tick R h _) fun c h => even_andThen ?_ fun c h => ?_
  · rw [Res.lift_state]
    exact ⟨by rw [← h.total]; exact interval_update _ _, h.2, h.3, h.4, h.5, h.6, h.7⟩
  · rw [Res.lift_state]
    exact ⟨h.1, h.2, h.3, h.4, h.5, h.6, h.7⟩

theorem even_bump {n : Nat} {limit : Int} {m : GoMap String BucketCounter} (h : ∀ k b, m.get? k = some b → b.interval = I) (k : String) (t0 t : Int) :
    ∀ k' b, (bump I n limit m k t0 t).state.get? k' = some b → b.interval = I := by
  intro k' b hb
  have key : ∀ b0 : BucketCounter, b0.interval = I → (m.set k (b0.update t).state).get? k' = some b → b.interval = I := by
    intro b0 h0 hb
    by_cases hk : k = k'
    · subst hk
      rw [GoMap.get?_set_self] at hb
      rw [← Option.some.inj hb, interval_update]; exact h0
    · rw [GoMap.get?_set_ne _ _ hk] at hb
      exact h k' b hb
  unfold bump at hb
  cases hg : m.get? k with
  | some b0 =>
    rw [hg] at hb
    simp only [Res.lift_state] at hb
    exact key b0 (h k b0 hg) hb
  | none =>
    rw [hg] at hb
    simp only at hb
    split at hb
    · rw [Res.lift_state] at hb
      exact key _ rfl hb
    · exact h k' b hb

theorem even_success {c : Compass σ} (h : Even I maxErr maxAdd c) (t : Int) (s : Bool) : Even I maxErr maxAdd (c.successStep t s).state := by
  unfold successStep
  split
  · rw [Res.lift_state]
    exact ⟨h.1, by rw [← h.success]; exact interval_update _ _, h.3, h.4, h.5, h.6, h.7⟩
  · exact h

theorem even_error {c : Compass σ} (h : Even I maxErr maxAdd c) (t0 t : Int) (k : String) : Even I maxErr maxAdd (c.errorStep t0 t k).state := by
  unfold errorStep
  split
  · rw [Res.lift_state]
    exact ⟨h.1, h.2, by rw [h.interval]; exact even_bump h.errs _ _ _, h.4, h.5, h.6, h.7⟩
  · exact h

theorem even_addon {c : Compass σ} (h : Even I maxErr maxAdd c) (t0 t : Int) (k : String) : Even I maxErr maxAdd (c.addonStep t0 t k).state := by
  unfold addonStep
  split
  · rw [Res.lift_state]
    exact ⟨h.1, h.2, h.3, by rw [h.interval]; exact even_bump h.adds _ _ _, h.5, h.6, h.7⟩
  · exact h

theorem even_step (R : Rounding) (S : ReservoirImpl σ X) {c : Compass σ} (h : Even I maxErr maxAdd c) (env : Env X) (op : Op) :
    Even I maxErr maxAdd (step R S c env op).state := by
  cases op with
  | update d => exact even_update R S h env d
  | readRate => exact even_tick R h _
  | updateWithError d s code addon =>
    exact even_andThen (even_update R S h env d) fun c h => even_andThen (even_success h _ _) fun c h =>
      even_andThen (even_error h _ _ _) fun c h => even_addon h _ _ _

theorem even_run (R : Rounding) (S : ReservoirImpl σ X) (h : List (Env X × Op)) (c : Compass σ) (hc : Even I maxErr maxAdd c) :
    Even I maxErr maxAdd (run R S c h) := by
  induction h generalizing c with
  | nil => exact hc
  | cons e h ih => exact ih _ (even_step R S hc e.1 e.2)

theorem even_new (r0 : σ) (n : Nat) (I maxErr maxAdd : Int) (ne : NewEnv) : Even I maxErr maxAdd (new r0 n I maxErr maxAdd ne) :=
  ⟨rfl, rfl, (by intro k b h; cases h), (by intro k b h; cases h), rfl, rfl, rfl⟩

theorem andThen_panicked (r : Res (Compass σ)) (f : Compass σ → Res (Compass σ)) :
    (r.andThen f).panicked = true ↔ r.panicked = true ∨ (r.panicked = false ∧ (f r.state).panicked = true) := by
  cases r <;> simp [Res.andThen]

/-- A label: what makes its step panic when no counter does. -/
theorem bump_panics {n : Nat} {limit : Int} {m : GoMap String BucketCounter} (h : ∀ k b, m.get? k = some b → b.interval = I)
    (hI : 1000000000 ≤ I ∨ I ≤ -1000000000) (k : String) (t0 t : Int) :
    (bump I n limit m k t0 t).panicked = true ↔ m.get? k = none ∧ limit ≤ m.length := by
  unfold bump
  cases hg : m.get? k with
  | some b =>
    simp only [Res.lift_panicked]
    have := (C08_no_panic b (by rw [h k b hg]; exact hI) t 1 0 .update).1
    unfold BucketCounter.update
    simp [this]
  | none =>
    simp only
    split
    · rename_i hl
      rw [Res.lift_panicked]
      have := (C08_no_panic (BucketCounter.new I n t0 true) hI t 1 0 .update).1
      unfold BucketCounter.update
      rw [this]
      simp; exact hl
    · rename_i hl
      simp; omega

end Compass

/-- **C25.** For every reservoir (also one that panics) and every interval: in every reachable state `UpdateWithError` panics exactly when
`Update` with the same duration and clock readings panics there, or its error code is new although `maxErr` codes have counters, or its error
code is accepted and its addon is new although `maxAdd` addons have counters. -/
theorem C25_panics_iff_update (R : Rounding) (S : ReservoirImpl σ X) (r0 : σ) (n : Nat) (I maxErr maxAdd : Int) (ne : NewEnv)
    (h : List (Env X × Op)) (env : Env X) (d : Int) (s : Bool) (code addon : String) :
    let c := run R S (new r0 n I maxErr maxAdd ne) h
    (step R S c env (.updateWithError d s code addon)).panicked = true ↔
      (step R S c env (.update d)).panicked = true ∨
      (code ≠ "" ∧ c.getErrorCodeCounts.get? code = none ∧ maxErr ≤ c.getErrorCodeCounts.length) ∨
      ((code = "" ∨ c.getErrorCodeCounts.get? code ≠ none ∨ (c.getErrorCodeCounts.length : Int) < maxErr) ∧
        addon ≠ "" ∧ c.getAddonCounts.get? addon = none ∧ maxAdd ≤ c.getAddonCounts.length) := by
  intro c
  have hc : Even I maxErr maxAdd c := even_run R S h _ (even_new r0 n I maxErr maxAdd ne)
  have hc0 : Even I maxErr maxAdd (c.update R S env d).state := even_update R S hc env d
  have hmaps : (c.update R S env d).state.errorCodes = c.errorCodes ∧ (c.update R S env d).state.addons = c.addons := by
    have key : ∀ (k : Nat) (c : Compass σ), ((tickOnce R)^[k] c).errorCodes = c.errorCodes ∧ ((tickOnce R)^[k] c).addons = c.addons := by
      intro k
      induction k with
      | zero => intro c; exact ⟨rfl, rfl⟩
      | succ k ih => intro c; exact ih (tickOnce R c)
    have hP : ∀ (r : Res (Compass σ)) (f : Compass σ → Res (Compass σ)), (r.state.errorCodes = c.errorCodes ∧ r.state.addons = c.addons) →
        (∀ c', (c'.errorCodes = c.errorCodes ∧ c'.addons = c.addons) → ((f c').state.errorCodes = c.errorCodes ∧ (f c').state.addons = c.addons)) →
        ((r.andThen f).state.errorCodes = c.errorCodes ∧ (r.andThen f).state.addons = c.addons) := fun r f h hf =>
      even_andThen (P := fun c' : Compass σ => c'.errorCodes = c.errorCodes ∧ c'.addons = c.addons) h hf
    unfold update
    refine hP _ _ ?_ fun c1 h1 => hP _ _ ?_ fun c2 h2 => ?_
    · unfold tickIfNecessary
      split
      · split
        · exact ⟨rfl, rfl⟩
        · exact key _ _
      · exact ⟨rfl, rfl⟩
    · rw [Res.lift_state]; exact h1
    · rw [Res.lift_state]; exact h2
  have lab : ∀ k : String, k.length > 0 ↔ k ≠ "" := by
    intro k
    rw [gt_iff_lt, Nat.pos_iff_ne_zero]
    exact not_congr (by rw [String.length_eq_zero_iff])
  show (updateWithError R S c env d s code addon).panicked = true ↔ (c.update R S env d).panicked = true ∨ _
  unfold updateWithError
  rw [andThen_panicked]
  by_cases hu : (c.update R S env d).panicked = true
  · simp [hu]
  have hI : 1000000000 ≤ I ∨ I ≤ -1000000000 := by
    by_contra hno
    apply hu
    have ht : ∀ c' : Compass σ, c'.totalCount.interval = I → (c'.totalCount.update env.tTotal).panicked = true := fun c' h' =>
      (C08_subsecond_panics c'.totalCount (by rw [h']; omega) _ _ 0).1
    unfold update
    rw [andThen_panicked]
    by_cases h1 : (c.tickIfNecessary R env.tick).panicked = true
    · exact Or.inl h1
    · refine Or.inr ⟨by simpa using h1, ?_⟩
      rw [andThen_panicked]
      refine Or.inl ?_
      rw [Res.lift_panicked]
      exact ht _ (even_tick R hc env.tick).total
  rw [Bool.not_eq_true] at hu
  simp only [hu, Bool.false_eq_true, false_or, true_and]
  set c0 := (c.update R S env d).state with hc0d
  have hsP : (c0.successStep env.tSuccess s).panicked = false := by
    unfold successStep
    split
    · rw [Res.lift_panicked]
      exact (C08_no_panic c0.successCount (by rw [hc0.success]; exact hI) _ 1 0 .update).1
    · rfl
  have hc1 := even_success hc0 env.tSuccess s
  have hf := successStep_frame c0 env.tSuccess s
  set c1 := (c0.successStep env.tSuccess s).state with hc1d
  have he1 : c1.errorCodes = c.errorCodes := hf.2.2.2.2.2.2.1.trans hmaps.1
  have ha1 : c1.addons = c.addons := by
    have : c1.addons = c0.addons := by
      rw [hc1d]; unfold successStep; split
      · rw [Res.lift_state]
      · rfl
    exact this.trans hmaps.2
  rw [andThen_panicked, hsP]
  simp only [Bool.false_eq_true, false_or, true_and]
  have hE : (c1.errorStep env.tErrNew env.tErr code).panicked = true ↔ code ≠ "" ∧ c.errorCodes.get? code = none ∧ maxErr ≤ c.errorCodes.length := by
    unfold errorStep
    by_cases hl : code.length > 0
    · rw [if_pos hl, Res.lift_panicked, hc1.interval, bump_panics hc1.errs hI, he1, hc1.hmaxErr]
      have := (lab code).1 hl
      tauto
    · rw [if_neg hl]
      have := (lab code).not.1 hl
      simp; tauto
  have hc2 := even_error hc1 env.tErrNew env.tErr code
  have ha2 : (c1.errorStep env.tErrNew env.tErr code).state.addons = c.addons := by
    rw [← ha1]; unfold errorStep; split
    · rw [Res.lift_state]
    · rfl
  have hA : ((c1.errorStep env.tErrNew env.tErr code).state.addonStep env.tAddonNew env.tAddon addon).panicked = true ↔
      addon ≠ "" ∧ c.addons.get? addon = none ∧ maxAdd ≤ c.addons.length := by
    unfold addonStep
    by_cases hl : addon.length > 0
    · rw [if_pos hl, Res.lift_panicked, hc2.interval, bump_panics hc2.adds hI, ha2, hc2.hmaxAdd]
      have := (lab addon).1 hl
      tauto
    · rw [if_neg hl]
      have := (lab addon).not.1 hl
      simp; tauto
  rw [andThen_panicked, hA, hE]
  unfold getErrorCodeCounts getAddonCounts
  have hE' : (c1.errorStep env.tErrNew env.tErr code).panicked = false ↔
      (code = "" ∨ c.errorCodes.get? code ≠ none ∨ (c.errorCodes.length : Int) < maxErr) := by
    rw [← Bool.not_eq_true, hE]
    have : ¬ maxErr ≤ (c.errorCodes.length : Int) ↔ (c.errorCodes.length : Int) < maxErr := by omega
    rw [not_and_or, not_and_or, this, ne_eq, not_not]
  rw [hE']

/-- All three causes: a reservoir that panics, a 500 ms interval, a second code where one is allowed; and a call that returns. -/
example :
    let u := Op.updateWithError 1 true "b" ""
    (step .exact angryReservoir (new () 2 1000000000 5 5 ⟨0, 0, 0⟩) (envAt 0) u).panicked = true ∧
    (step .exact quietReservoir (new () 2 500000000 5 5 ⟨0, 0, 0⟩) (envAt 0) u).panicked = true ∧
    (step .exact quietReservoir (run .exact quietReservoir (new () 2 1000000000 1 5 ⟨0, 0, 0⟩) [(envAt 0, .updateWithError 1 true "a" "")])
      (envAt 0) u).panicked = true ∧
    (step .exact quietReservoir (new () 2 1000000000 1 5 ⟨0, 0, 0⟩) (envAt 0) u).panicked = false := by
  decide +kernel

end GoMetrics
