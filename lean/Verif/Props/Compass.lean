import Verif.Proofs.CompassTicks
import Verif.Props.Buckets
import Verif.Proofs.EWMAFloat
/-! # C23–C29, C31: Compass, sequential histories -/
namespace GoMetrics
open Spec Compass
variable {σ X : Type}

private theorem update_amounts (l : List Int) :
    ((BucketCounter.recorded (l.map fun t => (t, BucketCounter.Op.update))).map Prod.snd).sum = l.length := by
  induction l with
  | nil => rfl
  | cons t l ih =>
    simp only [BucketCounter.recorded, List.map_map] at ih
    simp only [BucketCounter.recorded, List.map_cons, List.map_map, List.sum_cons, ih, List.length_cons]
    simp only [BucketCounter.Op.amount]
    push_cast; ring

private theorem run_updates (I : Int) (n : Nat) (t0 : Int) (l : List Int) :
    (BucketCounter.run (BucketCounter.new I n t0 true) (l.map fun t => (t, .update))).getCount = i64 l.length := by
  rw [C02_total, update_amounts]

/-- A reservoir that does nothing, and one that always panics: witnesses for the examples below. -/
def quietReservoir : ReservoirImpl Unit Unit := ⟨fun s _ _ => .ok s⟩
/-- A reservoir that always panics. -/
def angryReservoir : ReservoirImpl Unit Unit := ⟨fun s _ _ => .panic s⟩

/-- Every clock reading of a call is `t` ms (resp. ns). -/
def envAt (t : Int) : Env Unit := ⟨t, t, (), t, t, t, t, t⟩

/-- **C23.** `GetCount` is the number of `Update` and `UpdateWithError` calls, for any clock readings, any reservoir (even one
that panics), any limits and any non-zero interval (even one for which the bucket part panics). -/
theorem C23_count (R : Rounding) (S : ReservoirImpl σ X) (r0 : σ) (n : Nat) (I maxErr maxAdd : Int) (ne : NewEnv)
    (hI : I ≠ 0) (h : List (Env X × Op)) :
    (run R S (new r0 n I maxErr maxAdd ne) h).getCount = i64 (records h).length := by
  rw [getCount, (basic_run R S r0 n I maxErr maxAdd ne hI h).total]
  have : totalOps h = ((records h).map fun e => e.1.tTotal).map fun t => (t, BucketCounter.Op.update) := by
    simp [totalOps]
  rw [this, run_updates]
  simp

/-- Two of four calls panic (a new error code, an addon), all four are counted. -/
example : (run .exact quietReservoir (new () 2 1000000000 1 0 ⟨0, 0, 0⟩)
    [(envAt 0, .updateWithError 1 true "a" ""), (envAt 1000, .updateWithError 2 true "b" ""),
     (envAt 2000, .readRate), (envAt 3000, .updateWithError 2 false "a" "x"), (envAt 9000, .update 7)]).getCount = 4 := by
  rw [C23_count _ _ _ _ _ _ _ _ (by decide)]
  decide

/-- **C23.** `GetSuccessCount` is the number of `UpdateWithError` calls with `isSuccess`, whatever the error codes and addons,
including calls that panic on them. The interval must be at least a second and the reservoir must not panic: otherwise
the call panics before its success is counted (`C23_success_at_most`). -/
theorem C23_success (R : Rounding) (S : ReservoirImpl σ X) (hS : Quiet S) (r0 : σ) (n : Nat) (I maxErr maxAdd : Int)
    (ne : NewEnv) (hI : 1000000000 ≤ I) (h : List (Env X × Op)) :
    (run R S (new r0 n I maxErr maxAdd ne) h).getSuccessCount = i64 (successes h) := by
  rw [getSuccessCount, (full_run R S hS r0 n I maxErr maxAdd ne hI h).1.success]
  have h1 : ∀ h : List (Env X × Op), successOps h = ((successOps h).map Prod.fst).map fun t => (t, BucketCounter.Op.update) := by
    intro h
    induction h with
    | nil => rfl
    | cons e h ih =>
      obtain ⟨env, op⟩ := e
      cases op with
      | update d => simpa [successOps] using ih
      | readRate => simpa [successOps] using ih
      | updateWithError d s code addon => cases s <;> simpa [successOps] using ih
  have h2 : ∀ h : List (Env X × Op), (successOps h).length = successes h := by
    intro h
    induction h with
    | nil => rfl
    | cons e h ih =>
      obtain ⟨env, op⟩ := e
      cases op with
      | update d => simpa [successOps, successes] using ih
      | readRate => simpa [successOps, successes] using ih
      | updateWithError d s code addon => cases s <;> simpa [successOps, successes] using ih
  rw [h1, run_updates, List.length_map, h2]

example : (run .exact quietReservoir (new () 2 1000000000 1 0 ⟨0, 0, 0⟩)
    [(envAt 0, .updateWithError 1 true "a" ""), (envAt 1000, .updateWithError 2 true "b" ""),
     (envAt 3000, .updateWithError 2 false "a" "x"), (envAt 9000, .update 7)]).getSuccessCount = 2 := by
  rw [C23_success _ _ (fun _ _ _ => rfl) _ _ _ _ _ _ (by decide)]
  decide

private theorem bucket_update_count (b : BucketCounter) (t : Int) (hu : b.updateTotalCount = true) :
    (b.update t).state.getCount = i64 (b.getCount + 1) ∧ (b.update t).state.updateTotalCount = true := by
  have h := BucketCounter.updateN_count b t 1
  have h' : BucketCounter.run b [(t, .update)] = (b.update t).state := rfl
  have hf := BucketCounter.run_flag b [(t, .update)]
  rw [h'] at hf
  rw [hu] at h hf
  exact ⟨by simpa [BucketCounter.update] using h, hf⟩

/-- **C23.** For any reservoir and any non-zero interval, `GetSuccessCount` never counts more than the successes, nor more than
the calls: below 2^63 calls it is at most `GetCount`. -/
theorem C23_success_at_most (R : Rounding) (S : ReservoirImpl σ X) (r0 : σ) (n : Nat) (I maxErr maxAdd : Int)
    (ne : NewEnv) (hI : I ≠ 0) (h : List (Env X × Op)) :
    (∃ k : Nat, k ≤ successes h ∧ (run R S (new r0 n I maxErr maxAdd ne) h).getSuccessCount = i64 k) ∧
    (((records h).length : Int) < 2 ^ 63 →
      (run R S (new r0 n I maxErr maxAdd ne) h).getSuccessCount ≤ (run R S (new r0 n I maxErr maxAdd ne) h).getCount) := by
  have key : ∃ k : Nat, k ≤ successes h ∧
      (run R S (new r0 n I maxErr maxAdd ne) h).successCount.getCount = i64 k ∧
      (run R S (new r0 n I maxErr maxAdd ne) h).successCount.updateTotalCount = true := by
    induction h using List.reverseRecOn with
    | nil => exact ⟨0, by simp, by rfl, rfl⟩
    | append_singleton h e ih =>
      rw [run_snoc]
      have hb := basic_run R S r0 n I maxErr maxAdd ne hI h
      generalize run R S (new r0 n I maxErr maxAdd ne) h = c at *
      have hcI : c.bucketInterval ≠ 0 := by rw [hb.interval]; exact hI
      obtain ⟨env, op⟩ := e
      have hs : successes (h ++ [(env, op)]) = successes h + successes [(env, op)] := by simp [successes]
      obtain ⟨k, hk, hc, hu⟩ := ih
      cases op with
      | update d =>
        obtain ⟨-, a2, -⟩ := update_total R S c env d hcI
        simp only [step]
        exact ⟨k, by omega, by rw [a2]; exact hc, by rw [a2]; exact hu⟩
      | readRate =>
        have f := tick_frame R c env.tick
        simp only [step]
        exact ⟨k, by omega, by rw [f.success]; exact hc, by rw [f.success]; exact hu⟩
      | updateWithError d s code addon =>
        obtain ⟨-, a2, -⟩ := update_total R S c env d hcI
        simp only [step]
        unfold updateWithError
        rw [hs]
        cases hup : c.update R S env d with
        | panic c0 =>
          rw [hup] at a2
          simp only [Res.andThen, Res.state_panic] at a2 ⊢
          exact ⟨k, by omega, by rw [a2]; exact hc, by rw [a2]; exact hu⟩
        | ok c0 =>
          rw [hup] at a2
          simp only [Res.andThen, Res.state_ok] at a2 ⊢
          have h1 : ∃ k' : Nat, k' ≤ successes h + successes [(env, Op.updateWithError d s code addon)] ∧
              (c0.successStep env.tSuccess s).state.successCount.getCount = i64 k' ∧
              (c0.successStep env.tSuccess s).state.successCount.updateTotalCount = true := by
            cases s
            · have hc' : c0.successCount.getCount = i64 k := by rw [a2]; exact hc
              have hu' : c0.successCount.updateTotalCount = true := by rw [a2]; exact hu
              exact ⟨k, by omega, hc', hu'⟩
            · have hb := bucket_update_count c0.successCount env.tSuccess (by rw [a2]; exact hu)
              refine ⟨k + 1, by simp [successes]; exact hk, ?_, ?_⟩
              · simp only [successStep, if_true, Res.lift_state]
                rw [hb.1, a2, hc, i64_add_left]; push_cast; rfl
              · simp only [successStep, if_true, Res.lift_state]
                exact hb.2
          cases hss : c0.successStep env.tSuccess s with
          | panic c1 => rw [hss] at h1; exact h1
          | ok c1 =>
            rw [hss] at h1
            simp only [Res.state_ok] at h1 ⊢
            obtain ⟨-, -, -, -, -, -, g7, -⟩ := errorStep_frame c1 env.tErrNew env.tErr code
            cases he : c1.errorStep env.tErrNew env.tErr code with
            | panic c2 =>
              rw [he] at g7
              simp only [Res.state_panic] at g7 ⊢
              rw [g7]; exact h1
            | ok c2 =>
              rw [he] at g7
              simp only [Res.state_ok] at g7 ⊢
              obtain ⟨-, -, -, -, -, -, k7, -⟩ := addonStep_frame c2 env.tAddonNew env.tAddon addon
              rw [k7, g7]; exact h1
  obtain ⟨k, hk, hc, -⟩ := key
  refine ⟨⟨k, hk, hc⟩, fun hlt => ?_⟩
  rw [C23_count R S r0 n I maxErr maxAdd ne hI h, getSuccessCount, hc]
  have hle : successes h ≤ (records h).length := by
    rw [successes, records, ← List.countP_eq_length_filter]
    apply List.countP_mono_left
    rintro ⟨env, op⟩ - hs
    cases op <;> simp_all
  have hin : ∀ m : Nat, m ≤ (records h).length → i64 m = m := by
    intro m hm; apply i64_of_in; unfold InI64; norm_num at hlt; omega
  rw [hin _ (by omega), hin _ le_rfl]
  omega

/-- With a panicking reservoir successes are lost: 1 call counted, 0 successes. -/
example : (run .exact angryReservoir (new () 2 1000000000 1 0 ⟨0, 0, 0⟩)
    [(envAt 0, .updateWithError 1 true "" "")]).getSuccessCount = 0 ∧
    (run .exact angryReservoir (new () 2 1000000000 1 0 ⟨0, 0, 0⟩)
    [(envAt 0, .updateWithError 1 true "" "")]).getCount = 1 := by decide

/-- **C24.** The error codes reported are the first `maxErr` distinct non-empty codes of the history (at most
`maxErr`), and each one's counter has counted exactly the calls that carried it - as the updates of a bucket counter at
the clock readings of those calls. -/
theorem C24_error_codes (R : Rounding) (S : ReservoirImpl σ X) (hS : Quiet S) (r0 : σ) (n : Nat) (I maxErr maxAdd : Int)
    (ne : NewEnv) (hI : 1000000000 ≤ I) (h : List (Env X × Op)) :
    let m := (run R S (new r0 n I maxErr maxAdd ne) h).getErrorCodeCounts
    m.keys = admittedCodes maxErr h ∧ (m.length : Int) ≤ max maxErr 0 ∧
    ∀ k bc, m.get? k = some bc →
      bc.getCount = i64 ((labels h).countP fun l => l.1 = k) ∧
      ∃ t0, bc = BucketCounter.run (BucketCounter.new I n t0 true) ((h.filterMap fun e =>
        match e.2 with
        | .updateWithError _ _ code _ => if code = k then some e.1.tErr else none
        | _ => none).map fun t => (t, .update)) := by
  intro m
  have hf := (full_run R S hS r0 n I maxErr maxAdd ne hI h).1.errs
  have hkeys : m.keys = admittedCodes maxErr h := by rw [← codeKs_names]; exact hf.keys
  refine ⟨hkeys, ?_, ?_⟩
  · have : m.length = m.keys.length := by simp [GoMap.keys]
    rw [this, hkeys]; exact firstNames_length _ _
  · intro k bc hk
    have hk0 : k ≠ "" := by
      have : k ∈ m.keys := (GoMap.mem_keys_iff m k).2 ⟨bc, hk⟩
      rw [hkeys] at this
      exact (firstNames_subset _ _ _ this).2
    obtain ⟨t0, ht⟩ := hf.counters k bc hk
    have e1 : ∀ h : List (Env X × Op), keyOps (codeKs h) k = (h.filterMap fun e =>
        match e.2 with
        | .updateWithError _ _ code _ => if code = k then some e.1.tErr else none
        | _ => none).map fun t => (t, BucketCounter.Op.update) := by
      intro h
      induction h with
      | nil => rfl
      | cons e h ih =>
        obtain ⟨env, op⟩ := e
        cases op with
        | update d => simpa [codeKs, label] using ih
        | readRate => simpa [codeKs, label] using ih
        | updateWithError d s code addon =>
          by_cases hc : code = ""
          · have : ¬ code = k := by rw [hc]; exact fun h => hk0 h.symm
            simpa [codeKs, label, hc, this, keyOps, Ne.symm hk0] using ih
          · by_cases hck : code = k
            · simpa [codeKs, label, hc, hck, keyOps, hk0] using ih
            · simpa [codeKs, label, hc, hck, keyOps] using ih
    have e2 : ∀ h : List (Env X × Op), (h.filterMap fun e =>
        match e.2 with
        | .updateWithError _ _ code _ => if code = k then some e.1.tErr else none
        | _ => none).length = (labels h).countP fun l => l.1 = k := by
      intro h
      induction h with
      | nil => rfl
      | cons e h ih =>
        obtain ⟨env, op⟩ := e
        cases op with
        | update d => simpa [labels] using ih
        | readRate => simpa [labels] using ih
        | updateWithError d s code addon =>
          by_cases hck : code = k <;> simpa [labels, hck] using ih
    rw [e1] at ht
    refine ⟨?_, t0, ht⟩
    rw [ht, run_updates, e2]

/-- **C24.** The same for addons, of which only those of calls that got past their error code are seen. -/
theorem C24_addons (R : Rounding) (S : ReservoirImpl σ X) (hS : Quiet S) (r0 : σ) (n : Nat) (I maxErr maxAdd : Int)
    (ne : NewEnv) (hI : 1000000000 ≤ I) (h : List (Env X × Op)) :
    let m := (run R S (new r0 n I maxErr maxAdd ne) h).getAddonCounts
    m.keys = admittedAddons maxErr maxAdd h ∧ (m.length : Int) ≤ max maxAdd 0 ∧
    ∀ k bc, m.get? k = some bc →
      bc.getCount = i64 ((reachingAddons maxErr h).count k) ∧
      ∃ t0, bc = BucketCounter.run (BucketCounter.new I n t0 true) ((h.filterMap fun e =>
        match e.2 with
        | .updateWithError _ _ code addon =>
          if (code = "" ∨ code ∈ admittedCodes maxErr h) ∧ addon = k then some e.1.tAddon else none
        | _ => none).map fun t => (t, .update)) := by
  intro m
  have hf := (full_run R S hS r0 n I maxErr maxAdd ne hI h).1.adds
  have hkeys : m.keys = admittedAddons maxErr maxAdd h := by rw [← addonKs_names]; exact hf.keys
  refine ⟨hkeys, ?_, ?_⟩
  · have : m.length = m.keys.length := by simp [GoMap.keys]
    rw [this, hkeys]; exact firstNames_length _ _
  · intro k bc hk
    have hk0 : k ≠ "" := by
      have : k ∈ m.keys := (GoMap.mem_keys_iff m k).2 ⟨bc, hk⟩
      rw [hkeys] at this
      exact (firstNames_subset _ _ _ this).2
    obtain ⟨t0, ht⟩ := hf.counters k bc hk
    have e1 : ∀ (adm : List String) (h : List (Env X × Op)), keyOps (addonKs adm h) k = (h.filterMap fun e =>
        match e.2 with
        | .updateWithError _ _ code addon =>
          if (code = "" ∨ code ∈ adm) ∧ addon = k then some e.1.tAddon else none
        | _ => none).map fun t => (t, BucketCounter.Op.update) := by
      intro adm h
      induction h with
      | nil => rfl
      | cons e h ih =>
        obtain ⟨env, op⟩ := e
        cases op with
        | update d => simpa [addonKs, label] using ih
        | readRate => simpa [addonKs, label] using ih
        | updateWithError d s code addon =>
          by_cases hp : code = "" ∨ code ∈ adm
          · by_cases hck : addon = k
            · have : addon ≠ "" := by rw [hck]; exact hk0
              simpa [addonKs, label, passes, hp, hck, keyOps, hk0] using ih
            · by_cases h0 : addon = ""
              · simpa [addonKs, label, passes, hp, h0, keyOps, Ne.symm hk0] using ih
              · simpa [addonKs, label, passes, hp, hck, h0, keyOps] using ih
          · simpa [addonKs, label, passes, hp, keyOps] using ih
    have e2 : ∀ (adm : List String) (h : List (Env X × Op)), (h.filterMap fun e =>
        match e.2 with
        | .updateWithError _ _ code addon =>
          if (code = "" ∨ code ∈ adm) ∧ addon = k then some e.1.tAddon else none
        | _ => none).length =
        (((labels h).filter fun l => l.1 = "" ∨ l.1 ∈ adm).map Prod.snd).count k := by
      intro adm h
      induction h with
      | nil => rfl
      | cons e h ih =>
        obtain ⟨env, op⟩ := e
        cases op with
        | update d => simpa [labels] using ih
        | readRate => simpa [labels] using ih
        | updateWithError d s code addon =>
          by_cases hp : code = "" ∨ code ∈ adm
          · by_cases hck : addon = k
            · simpa [labels, hck, hp] using ih
            · simpa [labels, hck, hp, List.count_cons] using ih
          · simpa [labels, hp] using ih
    rw [e1] at ht
    refine ⟨?_, t0, ht⟩
    rw [ht, run_updates, e2]
    rfl

/-- Three codes, room for two; the addon of the call that panics on its code is not seen. -/
example : (admittedCodes (X := Unit) 2 [(envAt 0, .updateWithError 1 true "a" ""), (envAt 1, .updateWithError 1 true "b" "x"),
      (envAt 2, .updateWithError 1 true "c" "y"), (envAt 3, .updateWithError 1 true "a" "y")]) = ["a", "b"] ∧
    (reachingAddons (X := Unit) 2 [(envAt 0, .updateWithError 1 true "a" ""), (envAt 1, .updateWithError 1 true "b" "x"),
      (envAt 2, .updateWithError 1 true "c" "y"), (envAt 3, .updateWithError 1 true "a" "y")]) = ["", "x", "y"] := by decide

/-- **C25.** `UpdateWithError` can panic: one error code allowed, two used. -/
theorem C25_never_panics_refuted : ¬ ∀ (R : Rounding) (S : ReservoirImpl Unit Unit) (_ : Quiet S) (h : List (Env Unit × Op))
    (env : Env Unit) (op : Op),
    (step R S (run R S (new () 10 1000000000 1 20 ⟨0, 0, 0⟩) h) env op).panicked = false := by
  intro hall
  have := hall .exact quietReservoir (fun _ _ _ => rfl) [(envAt 0, .updateWithError 1 false "a" "")] (envAt 1)
    (.updateWithError 1 false "b" "")
  revert this
  decide

/-- **C25.** It panics exactly when its error code is new and there is no room for it, or its error code is accepted and its
addon is new and there is no room for that. `Update` and the rate getters never panic. -/
theorem C25_panics_iff (R : Rounding) (S : ReservoirImpl σ X) (hS : Quiet S) (r0 : σ) (n : Nat) (I maxErr maxAdd : Int)
    (ne : NewEnv) (hI : 1000000000 ≤ I) (h : List (Env X × Op)) (env : Env X) (op : Op) :
    (step R S (run R S (new r0 n I maxErr maxAdd ne) h) env op).panicked = true ↔
      ∃ d s code addon, op = .updateWithError d s code addon ∧
        ((code ≠ "" ∧ code ∉ admittedCodes maxErr h ∧ maxErr ≤ (admittedCodes maxErr h).length) ∨
         ((code = "" ∨ code ∈ admittedCodes maxErr h ∨ ((admittedCodes maxErr h).length : Int) < maxErr) ∧ addon ≠ "" ∧
            addon ∉ admittedAddons maxErr maxAdd h ∧ maxAdd ≤ (admittedAddons maxErr maxAdd h).length)) := by
  rw [(full_run R S hS r0 n I maxErr maxAdd ne hI h).2 (env, op)]
  apply exists_congr; intro d
  apply exists_congr; intro s
  apply exists_congr; intro code
  apply exists_congr; intro addon
  apply and_congr_right
  intro hop
  simp only at hop
  subst hop
  have hc : admittedCodes maxErr (h ++ [(env, Op.updateWithError d s code addon)]) =
      if code ≠ "" ∧ code ∉ admittedCodes maxErr h ∧ ((admittedCodes maxErr h).length : Int) < maxErr
        then admittedCodes maxErr h ++ [code] else admittedCodes maxErr h := by
    rw [admittedCodes_snoc]; rfl
  have hp1 : (code ≠ "" ∧ code ∉ admittedCodes maxErr (h ++ [(env, Op.updateWithError d s code addon)])) ↔
      (code ≠ "" ∧ code ∉ admittedCodes maxErr h ∧ maxErr ≤ (admittedCodes maxErr h).length) := by
    rw [hc]
    split
    · rename_i hx
      simp only [List.mem_append, List.mem_singleton, or_true, not_true_eq_false, and_false, false_iff, not_and]
      intro _ _; omega
    · rename_i hx
      constructor
      · rintro ⟨a, b⟩
        refine ⟨a, b, ?_⟩
        by_contra hlt
        exact hx ⟨a, b, by omega⟩
      · rintro ⟨a, b, -⟩; exact ⟨a, b⟩
  have hp2 : (code = "" ∨ code ∈ admittedCodes maxErr (h ++ [(env, Op.updateWithError d s code addon)])) ↔
      (code = "" ∨ code ∈ admittedCodes maxErr h ∨ ((admittedCodes maxErr h).length : Int) < maxErr) := by
    have := not_congr hp1
    simp only [not_and_or, not_not, not_le, ne_eq] at this
    exact this
  have hadd : admittedAddons maxErr maxAdd (h ++ [(env, Op.updateWithError d s code addon)]) =
      if (code = "" ∨ code ∈ admittedCodes maxErr (h ++ [(env, Op.updateWithError d s code addon)])) ∧ addon ≠ "" ∧
          addon ∉ admittedAddons maxErr maxAdd h ∧ ((admittedAddons maxErr maxAdd h).length : Int) < maxAdd
      then admittedAddons maxErr maxAdd h ++ [addon] else admittedAddons maxErr maxAdd h := by
    have hr : reachingAddons maxErr (h ++ [(env, Op.updateWithError d s code addon)]) = reachingAddons maxErr h ++
        if (code = "" ∨ code ∈ admittedCodes maxErr (h ++ [(env, Op.updateWithError d s code addon)])) then [addon] else [] := by
      unfold reachingAddons
      rw [labels_snoc, List.filter_append, List.map_append]
      congr 1
      · congr 1
        apply List.filter_congr
        rintro l hl
        have := admitted_stable maxErr h (env, Op.updateWithError d s code addon) l.1 (List.mem_map_of_mem hl)
        exact decide_eq_decide.2 this
      · by_cases hx : (code = "" ∨ code ∈ admittedCodes maxErr (h ++ [(env, Op.updateWithError d s code addon)])) <;>
          simp [label, hx]
    unfold admittedAddons
    rw [hr]
    by_cases hx : (code = "" ∨ code ∈ admittedCodes maxErr (h ++ [(env, Op.updateWithError d s code addon)]))
    · simp only [if_pos hx, hx, true_and]
      exact firstNames_snoc _ _ _
    · simp only [if_neg hx, List.append_nil, hx, false_and, if_false]
  rw [hp1, hadd]
  apply or_congr_right
  rw [← hp2]
  apply and_congr_right
  intro hx'
  simp only [hx', true_and]
  split
  · rename_i hy
    simp only [List.mem_append, List.mem_singleton, or_true, not_true_eq_false, and_false, false_iff, not_and]
    intro _ _; omega
  · rename_i hy
    constructor
    · rintro ⟨a, b⟩
      refine ⟨a, b, ?_⟩
      by_contra hlt
      exact hy ⟨a, b, by omega⟩
    · rintro ⟨a, b, -⟩; exact ⟨a, b⟩

example : (step .exact quietReservoir (run .exact quietReservoir (new () 10 1000000000 1 1 ⟨0, 0, 0⟩)
    [(envAt 0, .updateWithError 1 false "a" "x")]) (envAt 1) (.updateWithError 1 false "a" "y")).panicked = true := by
  rw [C25_panics_iff _ _ (fun _ _ _ => rfl) _ _ _ _ _ _ (by decide)]
  exact ⟨1, false, "a", "y", rfl, by decide⟩

end GoMetrics
