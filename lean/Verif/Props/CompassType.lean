import Verif.Proofs.CompassType
import Verif.Props.Compass
import Verif.Props.EDR
import Verif.Props.UniformReservoir
/-! # C76, C77: a compass and the reservoir it was created with -/
namespace GoMetrics
open Spec Compass

/-- **C76.** Two compasses created with the same limits, intervals and clock readings but with different reservoirs (neither of which panics), and
given the same calls, cannot be told apart by anything but the snapshot: every getter returns the same, and the next call panics in both or in neither. -/
theorem C76_isolation {σ₁ X₁ σ₂ X₂ : Type} (R : Rounding) (S₁ : ReservoirImpl σ₁ X₁) (S₂ : ReservoirImpl σ₂ X₂) (r₁ : σ₁) (r₂ : σ₂) (n : Nat)
    (I maxErr maxAdd : Int) (ne : NewEnv) (hI : 1000000000 ≤ I) (h₁ : List (Env X₁ × Op)) (h₂ : List (Env X₂ × Op)) (env₁ : Env X₁) (env₂ : Env X₂) (op : Op)
    (hq₁ : NoPanic S₁ r₁ (feed (h₁ ++ [(env₁, op)]))) (hq₂ : NoPanic S₂ r₂ (feed (h₂ ++ [(env₂, op)])))
    (hsame : eraseHistory h₁ = eraseHistory h₂) (henv : env₁.erase = env₂.erase) :
    let c₁ := run R S₁ (new r₁ n I maxErr maxAdd ne) h₁
    let c₂ := run R S₂ (new r₂ n I maxErr maxAdd ne) h₂
    c₁.getCount = c₂.getCount ∧ c₁.getSuccessCount = c₂.getSuccessCount ∧ c₁.getErrorCodeCounts = c₂.getErrorCodeCounts ∧
    c₁.getAddonCounts = c₂.getAddonCounts ∧ c₁.getInstantCountInterval = c₂.getInstantCountInterval ∧ c₁.lastUpdateTime = c₂.lastUpdateTime ∧
    (∀ t s, c₁.getInstantCountSince t s = c₂.getInstantCountSince t s) ∧ (∀ t, c₁.getInstantCount t = c₂.getInstantCount t) ∧
    (∀ t, c₁.getMeanRate R t = c₂.getMeanRate R t) ∧ (∀ t, c₁.getOneMinuteRate R t = c₂.getOneMinuteRate R t) ∧
    (∀ t, c₁.getFiveMinuteRate R t = c₂.getFiveMinuteRate R t) ∧ (∀ t, c₁.getFifteenMinuteRate R t = c₂.getFifteenMinuteRate R t) ∧
    (step R S₁ c₁ env₁ op).panicked = (step R S₂ c₂ env₂ op).panicked := by
  intro c₁ c₂
  have hpre : ∀ {σ X : Type} {S : ReservoirImpl σ X} {r : σ} {h : List (Env X × Op)} {e : Env X × Op}, NoPanic S r (feed (h ++ [e])) → NoPanic S r (feed h) := by
    intro σ X S r h e hq pre x post hx
    have : feed (h ++ [e]) = feed h ++ feed [e] := by simp [feed, List.filterMap_append]
    exact hq pre x (post ++ feed [e]) (by rw [this, hx]; simp)
  have hE : c₁.erase = c₂.erase := by
    simp only [c₁, c₂]
    rw [erase_run R S₁ r₁ n I maxErr maxAdd ne hI h₁ (hpre hq₁), erase_run R S₂ r₂ n I maxErr maxAdd ne hI h₂ (hpre hq₂), hsame]
  have hrate : ∀ {σ : Type} (c : Compass σ) t, c.getOneMinuteRate R t = c.erase.getOneMinuteRate R t ∧ c.getFiveMinuteRate R t = c.erase.getFiveMinuteRate R t ∧
      c.getFifteenMinuteRate R t = c.erase.getFifteenMinuteRate R t := by
    intro σ c t
    unfold getOneMinuteRate getFiveMinuteRate getFifteenMinuteRate
    rw [← tick_erase, Res.lift_state]
    exact ⟨rfl, rfl, rfl⟩
  have hg : ∀ {σ X : Type} (S : ReservoirImpl σ X) (r : σ) (h : List (Env X × Op)) (env : Env X), NoPanic S r (feed (h ++ [(env, op)])) →
      (step R S (run R S (new r n I maxErr maxAdd ne) h) env op).panicked = (step R noReservoir (run R S (new r n I maxErr maxAdd ne) h).erase env.erase op).panicked := by
    intro σ X S r h env hq
    rw [← step_erase]
    · cases step R S (run R S (new r n I maxErr maxAdd ne) h) env op <;> rfl
    · intro d hd
      rw [reservoir_run R S r n I maxErr maxAdd ne hI h]
      exact hq (feed h) (env.x, d) [] (by simp [feed, List.filterMap_append, hd])
  refine ⟨congrArg getCount hE, congrArg getSuccessCount hE, congrArg getErrorCodeCounts hE, congrArg getAddonCounts hE,
    congrArg getInstantCountInterval hE, congrArg lastUpdateTime hE, fun t s => congrArg (fun c => getInstantCountSince c t s) hE,
    fun t => congrArg (fun c => getInstantCount c t) hE, fun t => congrArg (fun c => getMeanRate R c t) hE, fun t => ?_, fun t => ?_, fun t => ?_, ?_⟩
  · rw [(hrate c₁ t).1, (hrate c₂ t).1, hE]
  · rw [(hrate c₁ t).2.1, (hrate c₂ t).2.1, hE]
  · rw [(hrate c₁ t).2.2, (hrate c₂ t).2.2, hE]
  · rw [hg S₁ r₁ h₁ env₁ hq₁, hg S₂ r₂ h₂ env₂ hq₂, henv]
    show (step R noReservoir c₁.erase _ op).panicked = (step R noReservoir c₂.erase _ op).panicked
    rw [hE]

/-- **C76.** The reservoir sees the durations of the recording calls, each once and in order, and nothing else - also those of calls that panic
later on because of their error code or addon. -/
theorem C76_durations {σ X : Type} (R : Rounding) (S : ReservoirImpl σ X) (r0 : σ) (n : Nat) (I maxErr maxAdd : Int) (ne : NewEnv) (hI : 1000000000 ≤ I)
    (h : List (Env X × Op)) : (run R S (new r0 n I maxErr maxAdd ne) h).reservoir =
      (h.filterMap fun e => e.2.duration?.map fun d => (e.1.x, d)).foldl (fun r e => (S.updateN r e.1 e.2).state) r0 :=
  reservoir_run R S r0 n I maxErr maxAdd ne hI h

/-- A reservoir that keeps everything, in order. -/
def recorder : ReservoirImpl (List Int) Unit := ⟨fun l _ d => .ok (l ++ [d])⟩

/-- It never panics (the hypothesis of C76), and in a compass it ends up with all durations, although two of the calls panic. -/
example : (∀ r0 l, NoPanic recorder r0 l) ∧
    (run .exact recorder (new [] 2 1000000000 1 0 ⟨0, 0, 0⟩)
      [(envAt 0, .updateWithError 1 true "a" ""), (envAt 1000, .updateWithError 2 true "b" ""), (envAt 2000, .readRate),
       (envAt 3000, .updateWithError 3 false "a" "x"), (envAt 9000, .update 7)]).reservoir = [1, 2, 3, 7] := by
  refine ⟨fun _ _ _ _ _ _ => rfl, ?_⟩
  rw [C76_durations _ _ _ _ _ _ _ _ (by decide)]
  decide

/-- **C77.** A compass from `NewCompassWithType`, of any reservoir type, after any history of calls and snapshots: a call of `Update` and the
rate getters and `GetSnapshot` never panic, and `UpdateWithError` panics only for a new error code or addon without room - given an interval of at
least a second, valid random numbers, and fewer than 2^63 recordings. -/
theorem C77_panics_iff (R : Rounding) (A : EDR.Arith) (hA : A.Lawful) (rtype : Int) (n : Nat) (I maxErr maxAdd : Int) (ne : NewEnv) (re : ResEnv)
    (hI : 1000000000 ≤ I) (h : List TCall) (o : TCall) (hs : AllSupplied (h ++ [o])) (hn : (recordings (h ++ [o])).length < 2 ^ 63) :
    (tstep R A (trun R A (newWithType A rtype n I maxErr maxAdd ne re) h) o).panicked = true ↔
      ∃ env d s code addon, o = .call env (.updateWithError d s code addon) ∧
        ((code ≠ "" ∧ code ∉ admittedCodes maxErr (plainCalls h) ∧ maxErr ≤ (admittedCodes maxErr (plainCalls h)).length) ∨
         ((code = "" ∨ code ∈ admittedCodes maxErr (plainCalls h) ∨ ((admittedCodes maxErr (plainCalls h)).length : Int) < maxErr) ∧ addon ≠ "" ∧
            addon ∉ admittedAddons maxErr maxAdd (plainCalls h) ∧ maxAdd ≤ (admittedAddons maxErr maxAdd (plainCalls h)).length)) := by
  have hn2 : (recordings (h ++ [o])).length < 9223372036854775808 := by norm_num at hn; exact hn
  have hn' : (recordings h).length < 9223372036854775808 := by rw [recordings_append, List.length_append] at hn2; omega
  have H := tinv_run hA rtype R n I maxErr maxAdd ne re hI h (AllSupplied.prefix hs) hn'
  have hst := (tinv_step hA hI H o hs hn2).2
  cases o with
  | snapshot env =>
    simp only at hst
    rw [hst]; simp
  | call env op =>
    simp only at hst
    rw [hst, H.rest, C25_panics_iff R noReservoir quiet_no () n I maxErr maxAdd ne hI]
    constructor
    · rintro ⟨d, s, code, addon, rfl, hh⟩
      exact ⟨env, d, s, code, addon, rfl, hh⟩
    · rintro ⟨env', d, s, code, addon, he, hh⟩
      simp only [TCall.call.injEq] at he
      exact ⟨d, s, code, addon, he.2, hh⟩

/-- **C77.** After any history, whatever the reservoir type: all counts and rates are those of a compass without reservoir that got the same calls. -/
theorem C77_counts (R : Rounding) (A : EDR.Arith) (hA : A.Lawful) (rtype : Int) (n : Nat) (I maxErr maxAdd : Int) (ne : NewEnv) (re : ResEnv)
    (hI : 1000000000 ≤ I) (h : List TCall) (hs : AllSupplied h) (hn : (recordings h).length < 2 ^ 63) :
    let c := trun R A (newWithType A rtype n I maxErr maxAdd ne re) h
    c.getCount = i64 (records (plainCalls h)).length ∧ c.getSuccessCount = i64 (successes (plainCalls h)) ∧
    c.erase = run R noReservoir (new () n I maxErr maxAdd ne) (plainCalls h) := by
  intro c
  have H := tinv_run hA rtype R n I maxErr maxAdd ne re hI h hs (by norm_num at hn; exact hn)
  have h1 : c.erase = run R noReservoir (new () n I maxErr maxAdd ne) (plainCalls h) := H.rest
  refine ⟨?_, ?_, h1⟩
  · rw [← C23_count R noReservoir () n I maxErr maxAdd ne (by omega), ← h1]; rfl
  · rw [← C23_success R noReservoir quiet_no () n I maxErr maxAdd ne hI, ← h1]; rfl

/-- **C77.** Which reservoir a compass of a type has shows in its snapshots: type 0 bucket, type 1 uniform, and every other number, known or not, decaying. -/
theorem C77_type (R : Rounding) (A : EDR.Arith) (hA : A.Lawful) (rtype : Int) (n : Nat) (I maxErr maxAdd : Int) (ne : NewEnv) (re : ResEnv)
    (hI : 1000000000 ≤ I) (h : List TCall) (hs : AllSupplied h) (hn : (recordings h).length < 2 ^ 63) (env : SnapEnv) :
    ∃ s, (trun R A (newWithType A rtype n I maxErr maxAdd ne re) h).getSnapshot A env = some s ∧
      match s with
      | .bucket _ => rtype = 0
      | .uniform _ => rtype = 1
      | .weighted _ => rtype ≠ 0 ∧ rtype ≠ 1 := by
  have hn' : (recordings h).length < 9223372036854775808 := by norm_num at hn; exact hn
  have H := tinv_run hA rtype R n I maxErr maxAdd ne re hI h hs hn'
  obtain ⟨s, hsn⟩ := snapshot_some (A := A) H.good (by rw [(tinv_frame hI H).2]; exact hI) env
  have key : ∀ h : List TCall, match (trun R A (newWithType A rtype n I maxErr maxAdd ne re) h).reservoir with
      | .bucket _ => rtype = bucketReservoirType
      | .uniform _ => rtype = uniformReservoirType
      | .edr _ => rtype ≠ bucketReservoirType ∧ rtype ≠ uniformReservoirType := by
    intro h
    induction h using List.reverseRecOn with
    | nil =>
      show match reservoirFor A rtype n I re with | .bucket _ => _ | .uniform _ => _ | .edr _ => _
      unfold reservoirFor
      by_cases h1 : rtype = exponentiallyDecayingReservoirType
      · rw [if_pos h1]; subst h1; exact ⟨by decide, by decide⟩
      · rw [if_neg h1]
        by_cases h2 : rtype = bucketReservoirType
        · rw [if_pos h2]; exact h2
        · rw [if_neg h2]
          by_cases h3 : rtype = uniformReservoirType
          · rw [if_pos h3]; exact h3
          · rw [if_neg h3]; exact ⟨h2, h3⟩
    | append_singleton h o ih =>
      rw [trun_snoc]
      have hkind := tstep_kind R A (trun R A (newWithType A rtype n I maxErr maxAdd ne re) h) o
      generalize (trun R A (newWithType A rtype n I maxErr maxAdd ne re) h) = c at *
      cases hr : c.reservoir <;> cases hr' : (tstep R A c o).state.reservoir <;> rw [hr, hr'] at hkind <;> simp_all [AnyReservoir.kind]
  refine ⟨s, hsn, ?_⟩
  have hk := key h
  generalize (trun R A (newWithType A rtype n I maxErr maxAdd ne re) h) = c at *
  unfold getSnapshot at hsn
  cases hr : c.reservoir with
  | edr r => rw [hr] at hsn hk; simp only [Option.some.injEq] at hsn; subst hsn; exact hk
  | uniform u => rw [hr] at hsn hk; simp only [Option.some.injEq] at hsn; subst hsn; exact hk
  | bucket b =>
    rw [hr] at hsn hk
    simp only [Option.map_eq_some_iff] at hsn
    obtain ⟨b', -, rfl⟩ := hsn
    exact hk

/-- **C77.** What a snapshot of a compass contains is what a reservoir on its own, created with the default sizes (1028 samples and a decay of 0.015 per second;
1024 values; the compass's own interval and number of buckets) and given the same durations, would give. -/
theorem C77_snapshot (R : Rounding) (A : EDR.Arith) (hA : A.Lawful) (rtype : Int) (n : Nat) (I maxErr maxAdd : Int) (ne : NewEnv) (re : ResEnv)
    (hI : 1000000000 ≤ I) (h : List TCall) (hs : AllSupplied h) (hn : (recordings h).length < 2 ^ 63) (env : SnapEnv) :
    let c := trun R A (newWithType A rtype n I maxErr maxAdd ne re) h
    (rtype ≠ 0 → rtype ≠ 1 → c.getSnapshot A env =
      some (.weighted (EDR.getSnapshot A (decayingAlone A (EDR.new 1028 (A.R.rnd (15 / 1000)) re.time re.tick) h) env.tick env.scaleTime env.sorted))) ∧
    (rtype = 1 → c.getSnapshot A env = some (.uniform (uniformAlone (UniformReservoir.new 1024) h).getSnapshot)) ∧
    (rtype = 0 → c.getSnapshot A env = ((bucketAlone (BucketReservoir.new I n re.tValue) h).getSnapshot c.totalCount env.bucket).map .bucket) := by
  intro c
  have hn' : (recordings h).length < 9223372036854775808 := by norm_num at hn; exact hn
  have key : c.reservoir = if rtype = 0 then .bucket (bucketAlone (BucketReservoir.new I n re.tValue) h)
      else if rtype = 1 then .uniform (uniformAlone (UniformReservoir.new 1024) h)
      else .edr (decayingAlone A (EDR.new 1028 (A.R.rnd (15 / 1000)) re.time re.tick) h) := by
    show (trun R A (newWithType A rtype n I maxErr maxAdd ne re) h).reservoir = _
    clear c hn
    induction h using List.reverseRecOn with
    | nil =>
      show reservoirFor A rtype n I re = _
      unfold reservoirFor edrDefaultAlpha
      by_cases h1 : rtype = exponentiallyDecayingReservoirType
      · rw [if_pos h1, if_neg (by rw [h1]; decide), if_neg (by rw [h1]; decide)]; rfl
      · rw [if_neg h1]; rfl
    | append_singleton h o ih =>
      have hlen : (recordings h).length < 9223372036854775808 := by rw [recordings_append, List.length_append] at hn'; omega
      have H := tinv_run hA rtype R n I maxErr maxAdd ne re hI h (AllSupplied.prefix hs) hlen
      have ih' := ih (AllSupplied.prefix hs) hlen
      obtain ⟨f1, f2⟩ := tinv_frame hI H
      rw [trun_snoc]
      choose sn hsn using fun env => snapshot_some (A := A) H.good (by rw [f2]; exact hI) env
      generalize trun R A (newWithType A rtype n I maxErr maxAdd ne re) h = c at *
      unfold bucketAlone uniformAlone decayingAlone
      rw [List.foldl_append, List.foldl_append, List.foldl_append]
      simp only [List.foldl_cons, List.foldl_nil]
      cases o with
      | snapshot env =>
        simp only [tstep, hsn env, Res.state_ok]
        unfold afterSnapshot
        rw [ih']
        by_cases h0 : rtype = 0
        · simp only [if_pos h0]; rw [ih', if_pos h0]; rfl
        · simp only [if_neg h0]
          by_cases h1 : rtype = 1
          · simp only [if_pos h1]; rw [ih', if_neg h0, if_pos h1]; rfl
          · simp only [if_neg h1]; rfl
      | call env op =>
        simp only [tstep]
        rw [step_reservoir R (AnyReservoir.impl A) c env op (by rw [f1]; omega) (by rw [f2]; exact hI), ih']
        cases op.duration? with
        | none => rfl
        | some d =>
          simp only [AnyReservoir.impl]
          by_cases h0 : rtype = 0
          · simp only [if_pos h0]
            simp only [AnyReservoir.updateN, Res.lift_state]
            rfl
          · simp only [if_neg h0]
            by_cases h1 : rtype = 1
            · simp only [if_pos h1]
              simp only [AnyReservoir.updateN, Res.lift_state]
              rfl
            · simp only [if_neg h1]
              simp only [AnyReservoir.updateN, Res.lift_state]
              rfl
  refine ⟨fun h0 h1 => ?_, fun h1 => ?_, fun h0 => ?_⟩
  · unfold getSnapshot
    rw [key, if_neg h0, if_neg h1]
  · unfold getSnapshot
    rw [key, if_neg (by omega), if_pos h1]
  · unfold getSnapshot
    rw [key, if_pos h0]

/-- A clock reading `t` everywhere, the random number 1/2 and the random word 7. -/
def fairEnv (t : Int) : Env AnyReservoir.Env := ⟨0, t, ⟨⟨0, t, t, .fin (1 / 2)⟩, t, [7]⟩, t, t, t, t, t⟩

/-- The hypotheses of C77 are met, for every reservoir type: -/
example : EDR.demo.Lawful ∧ AllSupplied [.call (fairEnv 1000) (.updateWithError 5 true "a" ""), .snapshot ⟨0, 2000, [], ⟨2000, 2000, 2000, 0, 0⟩⟩,
    .call (fairEnv 2000) .readRate, .call (fairEnv 3000) (.update 6)] := by
  refine ⟨EDR.demo_lawful, ?_⟩
  have hd : ∀ t, EDR.IsDraw (fairEnv t).x.edr.u := fun t => ⟨1 / 2, rfl, by norm_num, by norm_num⟩
  intro k env hk
  simp only [recordings, Op.duration?, Option.isSome_some, Option.isSome_none, if_true, Bool.false_eq_true, if_false] at hk
  match k with
  | 0 => simp only [List.getElem?_cons_zero, Option.some.injEq] at hk; subst hk; exact ⟨hd _, by simp [fairEnv], by decide⟩
  | 1 => simp only [List.getElem?_cons_succ, List.getElem?_cons_zero, Option.some.injEq] at hk; subst hk; exact ⟨hd _, by simp [fairEnv], by decide⟩
  | k + 2 => simp at hk

end GoMetrics
