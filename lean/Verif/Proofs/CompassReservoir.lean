import Verif.Proofs.Compass
/-! # A compass and its reservoir -/
namespace GoMetrics
namespace Compass
variable {σ X : Type}

/-- A compass without its reservoir. -/
def erase (c : Compass σ) : Compass Unit where
  totalCount := c.totalCount
  successCount := c.successCount
  errorCodes := c.errorCodes
  addons := c.addons
  m1Rate := c.m1Rate
  m5Rate := c.m5Rate
  m15Rate := c.m15Rate
  startTime := c.startTime
  lastTick := c.lastTick
  uncounted := c.uncounted
  maxErrorCodeCount := c.maxErrorCodeCount
  maxAddonCount := c.maxAddonCount
  bucketInterval := c.bucketInterval
  numberOfBucket := c.numberOfBucket
  reservoir := ()

/-- An environment without what it supplies to the reservoir. -/
def Env.erase (e : Env X) : Env Unit := ⟨e.tick, e.tTotal, (), e.tSuccess, e.tErrNew, e.tErr, e.tAddonNew, e.tAddon⟩

/-- The duration a call records. -/
def Op.duration? : Op → Option Int
  | .update d => some d
  | .updateWithError d _ _ _ => some d
  | .readRate => none

/-- A reservoir that does nothing. -/
def noReservoir : ReservoirImpl Unit Unit := ⟨fun s _ _ => .ok s⟩

theorem erase_iterate (R : Rounding) (k : Nat) (c : Compass σ) : ((tickOnce R)^[k] c).erase = (tickOnce R)^[k] c.erase := by
  induction k generalizing c with
  | zero => rfl
  | succ k ih => rw [Function.iterate_succ_apply, Function.iterate_succ_apply, ih]; rfl

theorem reservoir_iterate (R : Rounding) (k : Nat) (c : Compass σ) : ((tickOnce R)^[k] c).reservoir = c.reservoir := by
  induction k generalizing c with
  | zero => rfl
  | succ k ih => rw [Function.iterate_succ_apply, ih]; rfl

theorem tick_erase (R : Rounding) (c : Compass σ) (tick : Int) : (c.tickIfNecessary R tick).lift erase = c.erase.tickIfNecessary R tick := by
  unfold tickIfNecessary
  have h1 : c.erase.age tick = c.age tick := rfl
  have h2 : c.erase.bucketInterval = c.bucketInterval := rfl
  have h3 : c.erase.ticksDue tick = c.ticksDue tick := rfl
  rw [h1, h2, h3]
  split
  · split
    · rfl
    · simp only [Res.lift, erase_iterate]; rfl
  · rfl

theorem tick_reservoir (R : Rounding) (c : Compass σ) (tick : Int) : (c.tickIfNecessary R tick).state.reservoir = c.reservoir := by
  unfold tickIfNecessary
  split
  · split
    · rfl
    · simp only [Res.state_ok, reservoir_iterate]
  · rfl

theorem lift_andThen {σ τ : Type} (f : σ → τ) (r : Res σ) (g : σ → Res σ) (g' : τ → Res τ) (h : ∀ s, r = .ok s → (g s).lift f = g' (f s)) :
    (r.andThen g).lift f = (r.lift f).andThen g' := by
  cases r with
  | ok s => exact h s rfl
  | panic s => rfl

theorem lift_lift {σ τ υ : Type} (r : Res σ) (f : σ → τ) (g : τ → υ) : (r.lift f).lift g = r.lift (g ∘ f) := by cases r <;> rfl

theorem update_erase (R : Rounding) (S : ReservoirImpl σ X) (c : Compass σ) (env : Env X) (d : Int)
    (hq : (S.updateN c.reservoir env.x d).panicked = false) :
    (c.update R S env d).lift erase = c.erase.update R noReservoir env.erase d := by
  unfold update
  rw [lift_andThen erase _ _ _ ?_, tick_erase]
  · rfl
  · intro c1 h1
    have hr1 : c1.reservoir = c.reservoir := by have := tick_reservoir R c env.tick; rw [h1] at this; exact this
    rw [lift_andThen erase _ _ _ ?_]
    · rw [lift_lift]; rfl
    · intro c2 h2
      have hr2 : c2.reservoir = c.reservoir := by
        cases hb : c1.addUncounted.totalCount.update env.tTotal with
        | ok b =>
          rw [hb] at h2
          simp only [Res.lift, Res.ok.injEq] at h2
          rw [← h2]; exact hr1
        | panic b => rw [hb] at h2; simp [Res.lift] at h2
      rw [hr2]
      cases hS : S.updateN c.reservoir env.x d with
      | ok r => rfl
      | panic r => rw [hS] at hq; simp at hq

theorem successStep_erase (c : Compass σ) (t : Int) (s : Bool) : (c.successStep t s).lift erase = c.erase.successStep t s := by
  unfold successStep
  cases s
  · rfl
  · simp only [if_true]; rw [lift_lift]; rfl

theorem errorStep_erase (c : Compass σ) (t0 t : Int) (s : String) : (c.errorStep t0 t s).lift erase = c.erase.errorStep t0 t s := by
  unfold errorStep
  split
  · rw [lift_lift]; rfl
  · rfl

theorem addonStep_erase (c : Compass σ) (t0 t : Int) (s : String) : (c.addonStep t0 t s).lift erase = c.erase.addonStep t0 t s := by
  unfold addonStep
  split
  · rw [lift_lift]; rfl
  · rfl

/-- A call does the same to everything but the reservoir, and panics in the same cases, as with a reservoir that does nothing. -/
theorem step_erase (R : Rounding) (S : ReservoirImpl σ X) (c : Compass σ) (env : Env X) (op : Op)
    (hq : ∀ d, op.duration? = some d → (S.updateN c.reservoir env.x d).panicked = false) :
    (step R S c env op).lift erase = step R noReservoir c.erase env.erase op := by
  cases op with
  | update d => exact update_erase R S c env d (hq d rfl)
  | readRate => exact tick_erase R c env.tick
  | updateWithError d s code addon =>
    simp only [step]
    unfold updateWithError
    rw [lift_andThen erase _ _ _ ?_, update_erase R S c env d (hq d rfl)]
    · intro c1 _
      rw [lift_andThen erase _ _ _ ?_, successStep_erase]
      · rfl
      · intro c2 _
        rw [lift_andThen erase _ _ _ ?_, errorStep_erase]
        · rfl
        · intro c3 _
          rw [addonStep_erase]; rfl

theorem update_reservoir (R : Rounding) (S : ReservoirImpl σ X) (c : Compass σ) (env : Env X) (d : Int) (hI : c.bucketInterval ≠ 0)
    (ht : 1000000000 ≤ c.totalCount.interval) : (c.update R S env d).state.reservoir = (S.updateN c.reservoir env.x d).state := by
  have f := tick_frame R c env.tick
  have hr := tick_reservoir R c env.tick
  unfold update
  rw [tick_ok R c env.tick hI]
  simp only [Res.andThen, Res.state_ok]
  generalize (c.tickIfNecessary R env.tick).state = c1 at *
  have e : c1.addUncounted.totalCount = c.totalCount := f.total
  rw [e, update_ok _ _ ht]
  simp only [Res.lift]
  have hr' : c1.addUncounted.reservoir = c.reservoir := hr
  rw [hr']
  cases S.updateN c.reservoir env.x d <;> rfl

/-- With a proper interval every recording call hands its duration to the reservoir, once, and no other call touches it. -/
theorem step_reservoir (R : Rounding) (S : ReservoirImpl σ X) (c : Compass σ) (env : Env X) (op : Op) (hI : c.bucketInterval ≠ 0)
    (ht : 1000000000 ≤ c.totalCount.interval) :
    (step R S c env op).state.reservoir = match op.duration? with | none => c.reservoir | some d => (S.updateN c.reservoir env.x d).state := by
  cases op with
  | update d => exact update_reservoir R S c env d hI ht
  | readRate => exact tick_reservoir R c env.tick
  | updateWithError d s code addon =>
    simp only [step, Op.duration?]
    apply updateWithError_of (P := fun c' => c'.reservoir = (S.updateN c.reservoir env.x d).state)
    · exact update_reservoir R S c env d hI ht
    · intro c' hc
      rw [← hc]; unfold successStep; split
      · rw [Res.lift_state]
      · rfl
    · intro c' hc
      rw [← hc]; unfold errorStep; split
      · rw [Res.lift_state]
      · rfl
    · intro c' hc
      rw [← hc]; unfold addonStep; split
      · rw [Res.lift_state]
      · rfl

/-- What a reservoir sees of a history: environment and duration of each recording call. -/
def feed (h : List (Env X × Op)) : List (X × Int) := h.filterMap fun e => e.2.duration?.map fun d => (e.1.x, d)

/-- The state of a reservoir after it was fed. -/
def fed (S : ReservoirImpl σ X) (r : σ) (l : List (X × Int)) : σ := l.foldl (fun r e => (S.updateN r e.1 e.2).state) r

theorem reservoir_run (R : Rounding) (S : ReservoirImpl σ X) (r0 : σ) (n : Nat) (I maxErr maxAdd : Int) (ne : NewEnv) (hI : 1000000000 ≤ I)
    (h : List (Env X × Op)) : (run R S (new r0 n I maxErr maxAdd ne) h).reservoir = fed S r0 (feed h) := by
  induction h using List.reverseRecOn with
  | nil => rfl
  | append_singleton h e ih =>
    have hb := basic_run R S r0 n I maxErr maxAdd ne (by omega) h
    rw [run_snoc, step_reservoir R S _ e.1 e.2 (by rw [hb.interval]; omega) (by rw [hb.total, BucketCounter.run_interval]; exact hI), ih]
    obtain ⟨env, op⟩ := e
    unfold feed fed
    rw [List.filterMap_append, List.foldl_append]
    cases hd : op.duration? with
    | none => simp [hd]
    | some d => simp [hd]

/-- The reservoir does not panic while it is fed. -/
def NoPanic (S : ReservoirImpl σ X) (r0 : σ) (l : List (X × Int)) : Prop :=
  ∀ pre e post, l = pre ++ e :: post → (S.updateN (fed S r0 pre) e.1 e.2).panicked = false

/-- The history a compass without a reservoir sees. -/
def eraseHistory (h : List (Env X × Op)) : List (Env Unit × Op) := h.map fun e => (e.1.erase, e.2)

theorem erase_run (R : Rounding) (S : ReservoirImpl σ X) (r0 : σ) (n : Nat) (I maxErr maxAdd : Int) (ne : NewEnv) (hI : 1000000000 ≤ I)
    (h : List (Env X × Op)) (hq : NoPanic S r0 (feed h)) :
    (run R S (new r0 n I maxErr maxAdd ne) h).erase = run R noReservoir (new () n I maxErr maxAdd ne) (eraseHistory h) := by
  induction h using List.reverseRecOn with
  | nil => rfl
  | append_singleton h e ih =>
    obtain ⟨env, op⟩ := e
    have hfeed : feed (h ++ [(env, op)]) = feed h ++ feed [(env, op)] := by simp [feed, List.filterMap_append]
    have ih' := ih (fun pre x post hx => hq pre x (post ++ feed [(env, op)]) (by rw [hfeed, hx]; simp))
    have hE : eraseHistory (h ++ [(env, op)]) = eraseHistory h ++ [(env.erase, op)] := by simp [eraseHistory]
    rw [run_snoc, hE, run_snoc, ← ih', ← step_erase, Res.lift_state]
    intro d hd
    rw [reservoir_run R S r0 n I maxErr maxAdd ne hI h]
    exact hq (feed h) (env.x, d) [] (by rw [hfeed]; simp [feed, hd])

end Compass
end GoMetrics
