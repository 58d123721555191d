import Verif.Spec.CompassEstimate
import Verif.Proofs.CompassType
import Verif.Props.UniformWords
import Verif.Props.EDRStep
/-! # The reservoir in a compass, whatever the calls do -/
namespace GoMetrics
open Spec
namespace Compass

/-- The intervals of a compass do not change. -/
theorem step_intervals {σ X : Type} (R : Rounding) (S : ReservoirImpl σ X) (c : Compass σ) (env : Env X) (op : Op) :
    (step R S c env op).state.bucketInterval = c.bucketInterval ∧ (step R S c env op).state.totalCount.interval = c.totalCount.interval := by
  have hu : ∀ d, (c.update R S env d).state.bucketInterval = c.bucketInterval ∧ (c.update R S env d).state.totalCount.interval = c.totalCount.interval := by
    intro d
    have f := tick_frame R c env.tick
    unfold update
    cases ht : c.tickIfNecessary R env.tick with
    | panic c1 => rw [ht] at f; exact ⟨f.interval, congrArg BucketCounter.interval f.total⟩
    | ok c1 =>
      rw [ht] at f
      simp only [Res.andThen]
      have e2 : (c1.addUncounted.totalCount.update env.tTotal).state.interval = c.totalCount.interval := by
        have : c1.addUncounted.totalCount = c.totalCount := f.total
        rw [this]
        exact BucketCounter.updateN_interval _ _ _
      have f1 : c1.bucketInterval = c.bucketInterval := f.interval
      cases hb : c1.addUncounted.totalCount.update env.tTotal with
      | panic b => rw [hb] at e2; exact ⟨f1, e2⟩
      | ok b =>
        rw [hb] at e2
        simp only [Res.lift, Res.lift_state]
        cases S.updateN _ env.x d <;> exact ⟨f1, e2⟩
  cases op with
  | readRate =>
    have f := tick_frame R c env.tick
    exact ⟨f.interval, congrArg BucketCounter.interval f.total⟩
  | update d => exact hu d
  | updateWithError d s code addon =>
    simp only [step]
    apply updateWithError_of (P := fun c' => c'.bucketInterval = c.bucketInterval ∧ c'.totalCount.interval = c.totalCount.interval)
    · exact hu d
    · intro c' hc
      have f := successStep_frame c' env.tSuccess s
      exact ⟨f.2.2.2.2.1.trans hc.1, (congrArg BucketCounter.interval f.1).trans hc.2⟩
    · intro c' hc
      have f := errorStep_frame c' env.tErrNew env.tErr code
      exact ⟨f.2.2.2.2.1.trans hc.1, (congrArg BucketCounter.interval f.1).trans hc.2⟩
    · intro c' hc
      have f := addonStep_frame c' env.tAddonNew env.tAddon addon
      exact ⟨f.2.2.2.2.1.trans hc.1, (congrArg BucketCounter.interval f.1).trans hc.2⟩

/-- A uniform reservoir in a compass sees the durations, whether the calls return or not. -/
theorem trun_uniform (R : Rounding) (A : EDR.Arith) (c : Compass AnyReservoir) (u : UniformReservoir) (hr : c.reservoir = .uniform u)
    (hI : c.bucketInterval ≠ 0) (ht : 1000000000 ≤ c.totalCount.interval) (h : List TCall) :
    (trun R A c h).reservoir = .uniform (uniformAlone u h) := by
  induction h generalizing c u with
  | nil => exact hr
  | cons o h ih =>
    unfold trun uniformAlone
    rw [List.foldl_cons, List.foldl_cons]
    cases o with
    | snapshot env =>
      have e : (tstep R A c (.snapshot env)).state = c := by
        simp only [tstep, getSnapshot, hr, afterSnapshot, Res.state_ok]
      rw [e]
      exact ih c u hr hI ht
    | call env op =>
      obtain ⟨f1, f2⟩ := step_intervals R (AnyReservoir.impl A) c env op
      have e := step_reservoir R (AnyReservoir.impl A) c env op hI ht
      rw [hr] at e
      refine ih (step R (AnyReservoir.impl A) c env op).state _ ?_ (by rw [f1]; exact hI) (by rw [f2]; exact ht)
      rw [e]
      cases hd : op.duration? with
      | none => simp only [hd, Option.map_none, Option.getD_none]
      | some d => simp only [hd, Option.map_some, Option.getD_some, AnyReservoir.impl, AnyReservoir.updateN, Res.lift_state]

/-- So does a decaying reservoir, which also sees the snapshots. -/
theorem trun_edr (R : Rounding) (A : EDR.Arith) (c : Compass AnyReservoir) (r : EDR) (hr : c.reservoir = .edr r)
    (hI : c.bucketInterval ≠ 0) (ht : 1000000000 ≤ c.totalCount.interval) (h : List TCall) :
    (trun R A c h).reservoir = .edr (EDR.run A r (sampling h)) := by
  induction h generalizing c r with
  | nil => exact hr
  | cons o h ih =>
    unfold trun
    rw [List.foldl_cons]
    cases o with
    | snapshot env =>
      have e : (tstep R A c (.snapshot env)).state = { c with reservoir := .edr (EDR.afterSnapshot A r env.tick env.scaleTime) } := by
        simp only [tstep, getSnapshot, hr, afterSnapshot, Res.state_ok]
      rw [e]
      exact ih { c with reservoir := .edr (EDR.afterSnapshot A r env.tick env.scaleTime) } _ rfl hI ht
    | call env op =>
      obtain ⟨f1, f2⟩ := step_intervals R (AnyReservoir.impl A) c env op
      have e := step_reservoir R (AnyReservoir.impl A) c env op hI ht
      rw [hr] at e
      have e' : sampling (.call env op :: h) = match op.duration? with | some d => .updateN env.x.edr d :: sampling h | none => sampling h := rfl
      rw [e']
      cases hd : op.duration? with
      | none =>
        rw [hd] at e
        exact ih (step R (AnyReservoir.impl A) c env op).state r e (by rw [f1]; exact hI) (by rw [f2]; exact ht)
      | some d =>
        rw [hd] at e
        refine ih (step R (AnyReservoir.impl A) c env op).state _ ?_ (by rw [f1]; exact hI) (by rw [f2]; exact ht)
        rw [e]
        simp only [AnyReservoir.impl, AnyReservoir.updateN, Res.lift_state]
        rfl

theorem uniform_reword (u : UniformReservoir) (h : List TCall) (ws : List (List Int)) (hl : (durations h).length ≤ ws.length) :
    uniformAlone u (reword h ws) = u.run (List.zip (durations h) ws) := by
  induction h generalizing u ws with
  | nil => cases ws <;> rfl
  | cons o h ih =>
    cases o with
    | snapshot env => exact ih u ws hl
    | call env op =>
      have e1 : reword (.call env op :: h) ws = match op.duration? with
        | some _ => .call { env with x := { env.x with uniform := ws.headD [] } } op :: reword h ws.tail
        | none => .call env op :: reword h ws := rfl
      have e2 : durations (.call env op :: h) = match op.duration? with | some d => d :: durations h | none => durations h := rfl
      rw [e1, e2]
      rw [e2] at hl
      cases hd : op.duration? with
      | none =>
        rw [hd] at hl
        have := ih u ws hl
        unfold uniformAlone at this ⊢
        rw [List.foldl_cons]
        simp only [hd, Option.map_none, Option.getD_none]
        exact this
      | some d =>
        rw [hd] at hl
        cases ws with
        | nil => simp at hl
        | cons w ws =>
          have := ih ((u.updateN w d).state) ws (by simpa using hl)
          unfold uniformAlone at this ⊢
          simp only [List.headD_cons, List.tail_cons]
          rw [List.foldl_cons]
          simp only [hd, Option.map_some, Option.getD_some, List.zip_cons_cons]
          exact this

theorem durations_sampling (h : List TCall) : EDR.recorded (sampling h) = durations h := by
  induction h with
  | nil => rfl
  | cons o h ih =>
    cases o with
    | snapshot env => exact ih
    | call env op =>
      have e1 : sampling (.call env op :: h) = match op.duration? with | some d => .updateN env.x.edr d :: sampling h | none => sampling h := rfl
      have e2 : durations (.call env op :: h) = match op.duration? with | some d => d :: durations h | none => durations h := rfl
      rw [e1, e2]
      cases op.duration? with
      | none => exact ih
      | some d => simp only [EDR.recorded, ih]

theorem sampling_redrawn (h : List TCall) (us : List ℚ) (hl : us.length = (durations h).length) : sampling (redrawn h us) = EDR.redraw (sampling h) us := by
  induction h generalizing us with
  | nil => cases us <;> rfl
  | cons o h ih =>
    cases o with
    | snapshot env =>
      have e : sampling (redrawn (.snapshot env :: h) us) = .getSnapshot env.tick env.scaleTime :: sampling (redrawn h us) := rfl
      rw [e, ih us hl]
      simp only [sampling]
      cases us <;> rfl
    | call env op =>
      have e1 : sampling (.call env op :: h) = match op.duration? with | some d => .updateN env.x.edr d :: sampling h | none => sampling h := rfl
      have e2 : durations (.call env op :: h) = match op.duration? with | some d => d :: durations h | none => durations h := rfl
      have e3 : redrawn (.call env op :: h) us = match op.duration? with
        | some _ => .call { env with x := { env.x with edr := { env.x.edr with u := .fin (us.headD 0) } } } op :: redrawn h us.tail
        | none => .call env op :: redrawn h us := rfl
      rw [e1, e3]
      rw [e2] at hl
      cases hd : op.duration? with
      | none =>
        rw [hd] at hl
        have e4 : sampling (.call env op :: redrawn h us) = sampling (redrawn h us) := by
          show (match op.duration? with | some d => _ | none => _) = _
          rw [hd]
        simp only [e4]
        exact ih us hl
      | some d =>
        rw [hd] at hl
        cases us with
        | nil => simp at hl
        | cons u us =>
          have e4 : sampling (.call { env with x := { env.x with edr := { env.x.edr with u := .fin u } } } op :: redrawn h us) =
              .updateN { env.x.edr with u := .fin u } d :: sampling (redrawn h us) := by
            show (match op.duration? with | some d => _ | none => _) = _
            rw [hd]
          simp only [List.headD_cons, List.tail_cons, e4, EDR.redraw]
          rw [ih us (by simpa using hl)]

end Compass
end GoMetrics
