import Verif.Spec.CompassType
import Verif.Proofs.UniformReservoir
import Verif.Proofs.EDR
/-! # The reservoirs of this repository do not panic inside a compass -/
namespace GoMetrics
open Spec Compass

theorem updateN_ok (b : BucketCounter) (t v : Int) (h : 1000000000 ≤ b.interval) : b.updateN t v = .ok (b.updateN t v).state := by
  rw [BucketCounter.updateN_of_align (BucketCounter.alignTimestamp_eq (wholeSeconds_ne h))]
  rfl

theorem updateN_interval (b : BucketCounter) (t v : Int) : (b.updateN t v).state.interval = b.interval := by
  unfold BucketCounter.updateN
  simp only
  split <;> simp

namespace AnyReservoir

/-- A reservoir after `k` recordings. -/
def Good (k : Nat) : AnyReservoir → Prop
  | .edr r => EDR.InvA r ∧ 1 ≤ r.size
  | .bucket b => 1000000000 ≤ b.valuePerBucket.interval ∧ 1000000000 ≤ b.interval
  | .uniform u => u.count = k

theorem good_update {A : EDR.Arith} (hA : A.Lawful) {k : Nat} {r : AnyReservoir} (h : r.Good k) {x : AnyReservoir.Env} (hx : Supplied k x)
    (hk : k + 1 < 9223372036854775808) (v : Int) : (updateN A r x v).panicked = false ∧ (updateN A r x v).state.Good (k + 1) := by
  cases r with
  | edr r =>
    obtain ⟨h1, h2⟩ := h
    have hu : ∀ u ∈ EDR.draws [.updateN x.edr v], u.NonNeg := by
      intro u hu
      obtain ⟨q, hq, hq0, -⟩ := hx.draw
      have : u = x.edr.u := by simpa [EDR.draws] using hu
      rw [this, hq]; exact F64.nonNeg_fin hq0
    have h3 := EDR.invA_step hA h1 h2 (.updateN x.edr v) hu
    have h4 : (EDR.updateN A r x.edr v).state.size = r.size := (EDR.step_frame (A := A) r (.updateN x.edr v)).2
    simp only [updateN, Res.lift_state, Good]
    simp only [EDR.step] at h3
    refine ⟨?_, h3.1, by rw [h4]; exact h2⟩
    have := h3.2
    cases he : EDR.updateN A r x.edr v <;> simp_all [Res.lift]
  | bucket b =>
    obtain ⟨h1, h2⟩ := h
    have h3 : b.valuePerBucket.updateN x.bucket v = .ok (b.valuePerBucket.updateN x.bucket v).state := updateN_ok _ _ _ h1
    simp only [updateN, BucketReservoir.updateN, Res.lift_state, Good]
    refine ⟨by rw [h3]; rfl, ?_, h2⟩
    rw [updateN_interval]; exact h1
  | uniform u =>
    have hc : u.count = k := h
    simp only [updateN, Res.lift_state, Good]
    by_cases hf : k < u.values.length
    · rw [UniformReservoir.updateN_fill hc hf hk]; simp [Res.lift]
    · rcases UniformReservoir.updateN_full hc (by omega) hk hx.words v with ⟨hn, -⟩ | ⟨p, -, -, hp⟩
      · exact absurd hn hx.ends
      · rw [hp]; simp [Res.lift]

end AnyReservoir

namespace Compass

theorem recordings_append (h h' : List TCall) : recordings (h ++ h') = recordings h ++ recordings h' := by
  induction h with
  | nil => rfl
  | cons o h ih =>
    cases o with
    | call env op => simp only [List.cons_append, recordings, ih]; split <;> simp
    | snapshot env => simpa only [List.cons_append, recordings] using ih

theorem plainCalls_append (h h' : List TCall) : plainCalls (h ++ h') = plainCalls h ++ plainCalls h' := by
  induction h with
  | nil => rfl
  | cons o h ih =>
    cases o with
    | call env op => simp only [List.cons_append, plainCalls, ih]
    | snapshot env => simpa only [List.cons_append, plainCalls] using ih

theorem AllSupplied.prefix {h h' : List TCall} (H : AllSupplied (h ++ h')) : AllSupplied h := by
  intro k env hk
  apply H k env
  rw [recordings_append, List.getElem?_append_left]
  · exact hk
  · exact (List.getElem?_eq_some_iff.1 hk).1

theorem AllSupplied.last {h : List TCall} {env : Env AnyReservoir.Env} {op : Op} (H : AllSupplied (h ++ [.call env op])) (ho : op.duration?.isSome) :
    Supplied (recordings h).length env.x := by
  apply H _ env
  rw [recordings_append, List.getElem?_append_right le_rfl]
  simp [recordings, ho]

/-- The reservoir is in order after the recordings, and everything else is as in a compass without reservoir. -/
structure TInv (R : Rounding) (n : Nat) (I maxErr maxAdd : Int) (ne : NewEnv) (h : List TCall) (c : Compass AnyReservoir) : Prop where
  good : c.reservoir.Good (recordings h).length
  rest : c.erase = run R noReservoir (new () n I maxErr maxAdd ne) (plainCalls h)

theorem quiet_no : Quiet noReservoir := fun _ _ _ => rfl

theorem tinv_frame {R : Rounding} {n : Nat} {I maxErr maxAdd : Int} {ne : NewEnv} {h : List TCall} {c : Compass AnyReservoir}
    (hI : 1000000000 ≤ I) (H : TInv R n I maxErr maxAdd ne h c) : c.bucketInterval = I ∧ c.totalCount.interval = I := by
  have h1 := basic_run R noReservoir () n I maxErr maxAdd ne (by omega) (plainCalls h)
  constructor
  · have : c.bucketInterval = c.erase.bucketInterval := rfl
    rw [this, H.rest, h1.interval]
  · have : c.totalCount = c.erase.totalCount := rfl
    rw [this, H.rest, h1.total, BucketCounter.run_interval]; rfl

theorem since_some {b : BucketCounter} (h : 1000000000 ≤ b.interval) (t s : Int) : ∃ m, b.getBucketCountsSince t s = some m := by
  unfold BucketCounter.getBucketCountsSince
  rw [BucketCounter.alignTimestamp_eq (wholeSeconds_ne h)]
  exact ⟨_, rfl⟩

theorem snapshot_some {A : EDR.Arith} {c : Compass AnyReservoir} {k : Nat} (hg : c.reservoir.Good k) (ht : 1000000000 ≤ c.totalCount.interval) (env : SnapEnv) :
    ∃ s, c.getSnapshot A env = some s := by
  unfold getSnapshot
  cases hr : c.reservoir with
  | edr r => exact ⟨_, rfl⟩
  | uniform u => exact ⟨_, rfl⟩
  | bucket b =>
    rw [hr] at hg
    obtain ⟨h1, h2⟩ := hg
    simp only
    unfold BucketReservoir.getSnapshot BucketReservoir.alignToBucketStartTimeInMs
    rw [if_neg (wholeSeconds_ne h2)]
    simp only
    obtain ⟨m1, e1⟩ := since_some h1 env.bucket.tValue (i64 (i64 ((env.bucket.tAlign.tdiv secondToMsRate - wholeSeconds b.interval).tdiv (wholeSeconds b.interval) * wholeSeconds b.interval) * secondToMsRate))
    obtain ⟨m2, e2⟩ := since_some ht env.bucket.tCount (i64 (i64 ((env.bucket.tAlign.tdiv secondToMsRate - wholeSeconds b.interval).tdiv (wholeSeconds b.interval) * wholeSeconds b.interval) * secondToMsRate))
    rw [e1, e2]
    exact ⟨_, rfl⟩

/-- One more call: it panics exactly when it does in a compass without reservoir, and the invariant goes on. -/
theorem tinv_step {R : Rounding} {A : EDR.Arith} (hA : A.Lawful) {n : Nat} {I maxErr maxAdd : Int} {ne : NewEnv} {h : List TCall}
    {c : Compass AnyReservoir} (hI : 1000000000 ≤ I) (H : TInv R n I maxErr maxAdd ne h c) (o : TCall) (hs : AllSupplied (h ++ [o]))
    (hn : (recordings (h ++ [o])).length < 9223372036854775808) :
    TInv R n I maxErr maxAdd ne (h ++ [o]) (tstep R A c o).state ∧
    match o with
    | .call env op => (tstep R A c o).panicked = (step R noReservoir c.erase env.erase op).panicked
    | .snapshot _ => (tstep R A c o).panicked = false := by
  obtain ⟨hf1, hf2⟩ := tinv_frame hI H
  cases o with
  | call env op =>
    have hq : ∀ d, op.duration? = some d → ((AnyReservoir.impl A).updateN c.reservoir env.x d).panicked = false ∧
        ((AnyReservoir.impl A).updateN c.reservoir env.x d).state.Good ((recordings h).length + 1) := by
      intro d hd
      apply AnyReservoir.good_update hA H.good (AllSupplied.last hs (by rw [hd]; rfl))
      rw [recordings_append, List.length_append] at hn
      simp only [recordings, hd, Option.isSome_some, if_true, List.length_singleton] at hn
      exact hn
    have he := step_erase R (AnyReservoir.impl A) c env op fun d hd => (hq d hd).1
    have hr := step_reservoir R (AnyReservoir.impl A) c env op (by omega) (by omega)
    refine ⟨⟨?_, ?_⟩, ?_⟩
    · simp only [tstep]
      rw [hr, recordings_append, List.length_append]
      cases hd : op.duration? with
      | none => simpa [recordings, hd] using H.good
      | some d => simpa [recordings, hd] using (hq d hd).2
    · rw [plainCalls_append]
      simp only [tstep, plainCalls]
      rw [run_snoc, ← H.rest, ← he, Res.lift_state]
    · simp only [tstep]
      rw [← he]
      cases step R (AnyReservoir.impl A) c env op <;> rfl
  | snapshot env =>
    obtain ⟨s, hsn⟩ := snapshot_some (A := A) H.good (by omega : 1000000000 ≤ c.totalCount.interval) env
    have e : tstep R A c (.snapshot env) = .ok (c.afterSnapshot A env) := by simp only [tstep]; rw [hsn]
    rw [e]
    refine ⟨⟨?_, ?_⟩, rfl⟩
    · rw [recordings_append]
      simp only [recordings, List.append_nil, Res.state_ok]
      have hg := H.good
      unfold afterSnapshot
      cases hr : c.reservoir with
      | edr r =>
        rw [hr] at hg
        obtain ⟨h1, h2⟩ := hg
        refine ⟨(EDR.invA_step hA h1 h2 (.getSnapshot env.tick env.scaleTime) (by simp [EDR.draws])).1, ?_⟩
        have := (EDR.step_frame (A := A) r (.getSnapshot env.tick env.scaleTime)).2
        exact le_of_le_of_eq h2 this.symm
      | bucket b => rw [hr] at hg; simp only [hr]; exact hg
      | uniform u => rw [hr] at hg; simp only [hr]; exact hg
    · rw [plainCalls_append]
      simp only [plainCalls, List.append_nil, Res.state_ok]
      rw [← H.rest]
      unfold afterSnapshot
      cases c.reservoir <;> rfl

/-- Which kind of reservoir. -/
def _root_.GoMetrics.AnyReservoir.kind : AnyReservoir → Nat
  | .edr _ => 0
  | .bucket _ => 1
  | .uniform _ => 2

theorem updateN_kind (A : EDR.Arith) (r : AnyReservoir) (x : AnyReservoir.Env) (v : Int) : ((AnyReservoir.impl A).updateN r x v).state.kind = r.kind := by
  cases r <;> simp only [AnyReservoir.impl, AnyReservoir.updateN, Res.lift_state, AnyReservoir.kind]

theorem update_kind (R : Rounding) (A : EDR.Arith) (c : Compass AnyReservoir) (env : Env AnyReservoir.Env) (d : Int) :
    (c.update R (AnyReservoir.impl A) env d).state.reservoir.kind = c.reservoir.kind := by
  have ht := tick_reservoir R c env.tick
  unfold update
  cases hc : c.tickIfNecessary R env.tick with
  | panic c1 => rw [hc] at ht; simp only [Res.andThen, Res.state] at ht ⊢; rw [ht]
  | ok c1 =>
    rw [hc] at ht
    simp only [Res.andThen, Res.state] at ht ⊢
    cases hb : c1.addUncounted.totalCount.update env.tTotal with
    | panic b => simp only [Res.lift]; show c1.reservoir.kind = _; rw [ht]
    | ok b =>
      simp only [Res.lift]
      have e : ({ c1.addUncounted with totalCount := b } : Compass AnyReservoir).reservoir = c.reservoir := ht
      have hk := updateN_kind A c.reservoir env.x d
      rw [e]
      cases hS : (AnyReservoir.impl A).updateN c.reservoir env.x d <;> rw [hS] at hk <;> exact hk

theorem tstep_kind (R : Rounding) (A : EDR.Arith) (c : Compass AnyReservoir) (o : TCall) :
    (tstep R A c o).state.reservoir.kind = c.reservoir.kind := by
  cases o with
  | snapshot env =>
    simp only [tstep]
    split
    · rfl
    · unfold afterSnapshot
      cases hr : c.reservoir <;> simp [hr, AnyReservoir.kind]
  | call env op =>
    simp only [tstep]
    cases op with
    | update d => exact update_kind R A c env d
    | readRate => simp only [step]; rw [tick_reservoir]
    | updateWithError d s code addon =>
      simp only [step]
      apply updateWithError_of (P := fun c' : Compass AnyReservoir => c'.reservoir.kind = c.reservoir.kind)
      · exact update_kind R A c env d
      · intro c' hc
        rw [← hc]; unfold successStep; split
        · rw [Res.lift_state]
        · rfl
      · intro c' hc
        rw [← hc]; unfold errorStep; split
        · rw [Res.lift_state]
        · rfl
      · intro c' hc
        rw [← hc]; unfold addonStep; split
        · rw [Res.lift_state]
        · rfl

theorem uniform_new_good (k : Nat) : (AnyReservoir.uniform (UniformReservoir.new k)).Good 0 := rfl

theorem tinv_new (A : EDR.Arith) (rtype : Int) (R : Rounding) (n : Nat) (I maxErr maxAdd : Int) (ne : NewEnv) (re : ResEnv) (hI : 1000000000 ≤ I) :
    TInv R n I maxErr maxAdd ne [] (newWithType A rtype n I maxErr maxAdd ne re) := by
  refine ⟨?_, rfl⟩
  show (reservoirFor A rtype n I re).Good 0
  have hE : (AnyReservoir.edr (EDR.new 1028 (edrDefaultAlpha A) re.time re.tick)).Good 0 := ⟨EDR.invA_new _ _ _ _, by simp [EDR.new]⟩
  unfold reservoirFor
  split
  · exact hE
  · split
    · exact ⟨hI, hI⟩
    · split
      · exact uniform_new_good 1024
      · exact hE

theorem trun_snoc (R : Rounding) (A : EDR.Arith) (c : Compass AnyReservoir) (h : List TCall) (o : TCall) :
    trun R A c (h ++ [o]) = (tstep R A (trun R A c h) o).state := by simp [trun]

theorem tinv_run {A : EDR.Arith} (hA : A.Lawful) (rtype : Int) (R : Rounding) (n : Nat) (I maxErr maxAdd : Int) (ne : NewEnv) (re : ResEnv)
    (hI : 1000000000 ≤ I) (h : List TCall) (hs : AllSupplied h) (hn : (recordings h).length < 9223372036854775808) :
    TInv R n I maxErr maxAdd ne h (trun R A (newWithType A rtype n I maxErr maxAdd ne re) h) := by
  induction h using List.reverseRecOn with
  | nil => exact tinv_new A rtype R n I maxErr maxAdd ne re hI
  | append_singleton h o ih =>
    have hn' : (recordings h).length < 9223372036854775808 := by rw [recordings_append, List.length_append] at hn; omega
    rw [trun_snoc]
    exact (tinv_step hA hI (ih (AllSupplied.prefix hs) hn') o hs hn).1

end Compass
end GoMetrics
