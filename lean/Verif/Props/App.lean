import Verif.Proofs.App
import Verif.Props.Config
import Verif.Props.CompassType
import Verif.Props.FastCompass
/-! # C84: all users of a metric name share one metric, and nobody else's uses reach it

A run is any list of events: steps of any number of concurrent lookups on registries and on the manager, `SetEnable` calls, and uses of
the metrics that lookups have returned. -/
namespace GoMetrics
open Registry Spec

namespace App
variable {O U E : Type}

/-- Specification: the uses, in order, of metrics that were returned by lookups of key `k` in the registry or group `t`. (Lookups made
while the manager was disabled returned a no-op, from no registry; these do not count.) -/
def usesThrough (limits : List Int) (t : Target) (k : GoStr) (es : List (Event U E)) : List U :=
  (List.range es.length).filterMap fun n =>
    match (es[n]? : Option (Event U E)) with
    | some (Event.use i u) =>
      match (regRun limits (regEvents (es.take n))).calls[i]? with
      | some (.done q (some _) _) => if q.target = t ∧ q.name.hash = k then some u else none
      | _ => none
    | _ => none

/-- The `Record` calls among the uses. -/
def recordCalls : List Use → List FastCompass.Rec := List.filterMap fun u => match u with | .fast r => some r | _ => none
/-- The calls of compass methods among the uses. -/
def compassCalls : List Use → List Compass.TCall := List.filterMap fun u => match u with | .compass c => some c | _ => none
/-- Is it `Update` or `UpdateWithError`? -/
def isUpdate : Use → Bool
  | .compass (.call _ (.update _)) => true
  | .compass (.call _ (.updateWithError ..)) => true
  | _ => false

theorem usesThrough_snoc (limits : List Int) (t : Target) (k : GoStr) (es : List (Event U E)) (e : Event U E) :
    usesThrough limits t k (es ++ [e]) = usesThrough limits t k es ++
      match e with
      | .use i u =>
        match (regRun limits (regEvents es)).calls[i]? with
        | some (.done q (some _) _) => if q.target = t ∧ q.name.hash = k then [u] else []
        | _ => []
      | _ => [] := by
  unfold usesThrough
  rw [List.length_append, List.length_singleton, List.range_succ, List.filterMap_append]
  congr 1
  · apply List.filterMap_congr
    intro n hn
    have hn : n < es.length := List.mem_range.1 hn
    rw [List.getElem?_append_left hn, List.take_append_of_le_length hn.le]
  · simp only [List.filterMap_cons, List.filterMap_nil, List.getElem?_concat_length, List.take_left]
    cases e with
    | reg e env => rfl
    | use i u =>
      simp only
      cases hc : (regRun limits (regEvents es)).calls[i]? with
      | none => rfl
      | some c =>
        cases c with
        | done q r m =>
          cases r with
          | none => rfl
          | some r =>
            simp only
            by_cases h : q.target = t ∧ q.name.hash = k
            · rw [if_pos h, if_pos h]
            · rw [if_neg h, if_neg h]
        | _ => rfl

/-- A result stays. -/
theorem done_stays (p : Pool Mem PC) (es : List (Ev Call Unit)) (i : Nat) (q : Req) (r : Option Nat) (m : Metric)
    (h : p.calls[i]? = some (.done q r m)) : (conc.run p es).calls[i]? = some (.done q r m) := by
  induction es generalizing p with
  | nil => exact h
  | cons e es ih =>
    apply ih
    cases e with
    | spawn a =>
      simp only [Machine.apply]
      rw [List.getElem?_append_left (List.getElem?_eq_some_iff.1 h).1]; exact h
    | step j x =>
      cases hc : p.calls[j]? with
      | none => simp only [Machine.apply, hc]; exact h
      | some c =>
        simp only [Machine.apply, hc]
        by_cases hj : j = i
        · subst hj
          rw [hc] at h
          obtain rfl := Option.some.inj h
          rw [List.getElem?_set_self (List.getElem?_eq_some_iff.1 hc).1]
          rfl
        · rw [List.getElem?_set_ne hj]; exact h

/-- What reaches the object behind a result is what went through results of lookups for the same key in the same place. -/
theorem usesOfId_eq (K : Kit O U E) (limits : List Int) (es rest : List (Event U E))
    (hes : SchedOk limits.length (regEvents (es ++ rest))) (q : Req) (r : Nat) (id : Nat) (p : Params)
    (h : .done q (some r) (.real id p) ∈ (regRun limits (regEvents (es ++ rest))).calls) :
    usesOfId K (start limits) id es = usesThrough limits q.target q.name.hash es := by
  induction es using List.reverseRecOn generalizing rest with
  | nil => rfl
  | append_singleton es e ih =>
    rw [usesOfId_snoc, usesThrough_snoc, ih ([e] ++ rest) (by rw [← List.append_assoc]; exact hes) (by rw [← List.append_assoc]; exact h)]
    congr 1
    cases e with
    | reg e env => rfl
    | use i u =>
      simp only [usesAt, run_pool]
      cases hc : (regRun limits (regEvents es)).calls[i]? with
      | none => rfl
      | some c =>
        cases c with
        | done q' r' m' =>
          have hfin : .done q' r' m' ∈ (regRun limits (regEvents (es ++ [.use i u] ++ rest))).calls := by
            rw [List.append_assoc, regEvents_append, regRun, Machine.run_append]
            exact List.mem_of_getElem? (done_stays _ _ i q' r' m' hc)
          cases r' with
          | none =>
            have hn := (Registry.inv_all limits _ hes).i2.doneKind _ hfin q' none m' rfl
            simp only
            cases m' with
            | nop k => rfl
            | real j p' => have := hn.2 rfl; simp at this
          | some r' =>
            simp only
            by_cases hsame : q'.target = q.target ∧ q'.name.hash = q.name.hash
            · have := C32_same_metric limits _ hes q' q r' r m' _ hfin h hsame.1 hsame.2
              subst this
              simp [hsame]
            · rw [if_neg hsame]
              cases m' with
              | nop k => rfl
              | real j p' =>
                simp only
                by_cases hj : j = id
                · exfalso
                  subst hj
                  have hi := Registry.inv_all limits _ hes
                  obtain ⟨e1, g1, g2⟩ := hi.i2.got _ h q r _ rfl
                  obtain ⟨e2, g3, g4⟩ := hi.i2.got _ hfin q' r' _ rfl
                  obtain ⟨rfl, hk⟩ := hi.i3.uniqMap r _ e1 r' _ e2 j g1 g3 (by rw [g2]; rfl) (by rw [g4]; rfl)
                  have hm : Metric.real j p = Metric.real j p' := by
                    rw [← g2, ← g4]
                    rw [hk, g3] at g1
                    rw [Option.some.inj g1]
                  have hpp := (Metric.real.inj hm).2
                  subst hpp
                  rcases not_and_or.1 hsame with hne | hne
                  · obtain ⟨k, hk⟩ := C33_distinct limits _ hes q' q _ _ _ hfin h (Or.inl hne); simp at hk
                  · exact hne hk.symm
                · rw [if_neg hj]
        | _ => rfl

end App
open App

/-- In every run, with whatever metric objects, the object behind the result of a finished lookup is a new object of its parameters to which exactly the
uses through results of lookups of the same key in the same registry or group were applied, in the order in which they happened. -/
theorem App.object {O U E : Type} (K : Kit O U E) (limits : List Int) (es : List (Event U E)) (hes : SchedOk limits.length (regEvents es))
    (q : Req) (r : Option Nat) (id : Nat) (p : Params) (h : .done q r (.real id p) ∈ (regRun limits (regEvents es)).calls) :
    ∃ env, (run K (start limits) es).objs id = some ((usesThrough limits q.target q.name.hash es).foldl K.use (K.create p env)) := by
  cases r with
  | none => have := ((Registry.inv_all limits _ hes).i2.doneKind _ h q none _ rfl).2 rfl; simp at this
  | some r =>
    have hi := App.inv_all K limits es hes
    have h' := h
    rw [← run_pool K] at h'
    obtain ⟨-, env, he⟩ := hi.calls _ h' (.real id p) rfl
    refine ⟨env, ?_⟩
    simp only at he
    rw [he, usesOfId_eq K limits es [] (by simpa using hes) q r id p (by simpa using h)]

/-- **C84.** In every run, the object behind the result of a finished lookup is a new object of its parameters to which exactly the uses
through results of lookups of the same key in the same registry or group were applied, in the order in which they happened. -/
theorem C84_object (R : Rounding) (A : EDR.Arith) (limits : List Int) (es : List (Event Use NewEnvs)) (hes : SchedOk limits.length (regEvents es))
    (q : Req) (r : Option Nat) (id : Nat) (p : Params) (h : .done q r (.real id p) ∈ (regRun limits (regEvents es)).calls) :
    ∃ env, (run (whole R A) (start limits) es).objs id =
      some ((usesThrough limits q.target q.name.hash es).foldl (fun o u => o.use R A u) (Obj.create A p env)) :=
  App.object (whole R A) limits es hes q r id p h

private theorem fold_compass (R : Rounding) (A : EDR.Arith) (l : List Use) (c : Compass AnyReservoir) :
    l.foldl (fun o u => Obj.use R A o u) (Obj.compass c) = Obj.compass (Compass.trun R A c (compassCalls l)) := by
  induction l generalizing c with
  | nil => rfl
  | cons u l ih =>
    cases u with
    | compass call => exact ih _
    | fast r => exact ih _

private theorem fold_fast (R : Rounding) (A : EDR.Arith) (l : List Use) (f : FastCompass) :
    l.foldl (fun o u => Obj.use R A o u) (Obj.fast f) = Obj.fast (FastCompass.run f (recordCalls l)) := by
  induction l generalizing f with
  | nil => rfl
  | cons u l ih =>
    cases u with
    | compass call => exact ih _
    | fast r => exact ih _


private theorem trun_count (R : Rounding) (A : EDR.Arith) (rtype : Int) (n : Nat) (I maxErr maxAdd : Int) (ne : Compass.NewEnv)
    (re : Compass.ResEnv) (hI : I ≠ 0) (h : List Compass.TCall) :
    Compass.Basic n I maxErr maxAdd ne (plainCalls h) (Compass.trun R A (Compass.newWithType A rtype n I maxErr maxAdd ne re) h) := by
  induction h using List.reverseRecOn with
  | nil => exact ⟨rfl, rfl, rfl, rfl, rfl, rfl⟩
  | append_singleton h o ih =>
    rw [Compass.trun_snoc, Compass.plainCalls_append]
    generalize Compass.trun R A (Compass.newWithType A rtype n I maxErr maxAdd ne re) h = c at *
    have hcI : c.bucketInterval ≠ 0 := by rw [ih.interval]; exact hI
    cases o with
    | snapshot env =>
      have hsame : ∀ c' : Compass AnyReservoir, c' = c ∨ c' = c.afterSnapshot A env →
          Compass.Basic n I maxErr maxAdd ne (plainCalls h) c' := by
        rintro c' (h1 | h1)
        · rw [h1]; exact ih
        · rw [h1]
          unfold Compass.afterSnapshot
          cases c.reservoir <;> exact ⟨ih.total, ih.start, ih.hmaxErr, ih.hmaxAdd, ih.interval, ih.hn⟩
      simp only [plainCalls, List.append_nil]
      apply hsame
      simp only [Compass.tstep]
      cases c.getSnapshot A env with
      | none => exact Or.inl rfl
      | some _ => exact Or.inr rfl
    | call env op =>
      simp only [plainCalls, Compass.tstep]
      have hupd : ∀ d, ∀ op, Spec.records [(env.erase, op)] = [(env.erase, op)] →
          Compass.Basic n I maxErr maxAdd ne (plainCalls h ++ [(env.erase, op)]) (c.update R (AnyReservoir.impl A) env d).state := by
        intro d op hr
        obtain ⟨a1, a2, a3, a4, a5, a6, a7, a8, a9, -⟩ := Compass.update_total R (AnyReservoir.impl A) c env d hcI
        refine ⟨?_, a5.trans ih.start, a6.trans ih.hmaxErr, a7.trans ih.hmaxAdd, a8.trans ih.interval, a9.trans ih.hn⟩
        rw [a1, ih.total]
        unfold Compass.totalOps
        rw [Compass.records_snoc, hr, List.map_append, List.map_cons, List.map_nil, BucketCounter.run_append]
        rfl
      cases op with
      | update d => exact hupd d _ rfl
      | readRate =>
        have f := Compass.tick_frame R c env.tick
        simp only [Compass.step]
        refine ⟨?_, f.start.trans ih.start, f.maxErr.trans ih.hmaxErr, f.maxAdd.trans ih.hmaxAdd,
          f.interval.trans ih.interval, f.n.trans ih.hn⟩
        rw [f.total, ih.total]
        unfold Compass.totalOps
        rw [Compass.records_snoc]
        simp [Spec.records]
      | updateWithError d s code addon =>
        simp only [Compass.step]
        apply Compass.updateWithError_of (P := Compass.Basic n I maxErr maxAdd ne
          (plainCalls h ++ [(env.erase, Compass.Op.updateWithError d s code addon)]))
        · exact hupd d _ rfl
        · intro c' hc
          obtain ⟨a1, a2, a3, a4, a5, a6, -⟩ := Compass.successStep_frame c' env.tSuccess s
          exact ⟨a1.trans hc.total, a2.trans hc.start, a3.trans hc.hmaxErr, a4.trans hc.hmaxAdd, a5.trans hc.interval,
            a6.trans hc.hn⟩
        · intro c' hc
          obtain ⟨a1, a2, a3, a4, a5, a6, -⟩ := Compass.errorStep_frame c' env.tErrNew env.tErr code
          exact ⟨a1.trans hc.total, a2.trans hc.start, a3.trans hc.hmaxErr, a4.trans hc.hmaxAdd, a5.trans hc.interval,
            a6.trans hc.hn⟩
        · intro c' hc
          obtain ⟨a1, a2, a3, a4, a5, a6, -⟩ := Compass.addonStep_frame c' env.tAddonNew env.tAddon addon
          exact ⟨a1.trans hc.total, a2.trans hc.start, a3.trans hc.hmaxErr, a4.trans hc.hmaxAdd, a5.trans hc.interval,
            a6.trans hc.hn⟩

private theorem updates_length (l : List Use) : (Spec.records (plainCalls (compassCalls l))).length = l.countP isUpdate := by
  induction l with
  | nil => rfl
  | cons u l ih =>
    cases u with
    | fast r => simpa [compassCalls, isUpdate] using ih
    | compass call =>
      cases call with
      | snapshot env => simpa [compassCalls, isUpdate, plainCalls] using ih
      | call env op =>
        simp only [compassCalls, List.filterMap_cons, plainCalls] at ih ⊢
        cases op <;> simp [Spec.records, isUpdate, List.countP_cons] at ih ⊢ <;> exact ih

/-- **C84, compass.** In every run, `GetCompass` returns either the no-op or a compass which has counted exactly the `Update` and
`UpdateWithError` calls made through any result of any lookup of that key in that registry or group: `GetCount` is their number, whoever made
them, whenever the lookups were made, whatever other metrics were used and whatever the clocks said. -/
theorem C84_compass_count (R : Rounding) (A : EDR.Arith) (limits : List Int) (es : List (Event Use NewEnvs))
    (hes : SchedOk limits.length (regEvents es)) (q : Req) (hq : q.kind = .compass) (r : Option Nat) (id : Nat) (p : Params)
    (h : .done q r (.real id p) ∈ (regRun limits (regEvents es)).calls) :
    ∃ c, (run (whole R A) (start limits) es).objs id = some (.compass c) ∧
      c.getCount = i64 ((usesThrough limits q.target q.name.hash es).countP isUpdate) := by
  obtain ⟨env, he⟩ := C84_object R A limits es hes q r id p h
  obtain ⟨-, -, _, _, q', -, -, -, hp⟩ := C47_wellformed limits _ hes q r id p h
  rw [hq] at hp
  subst hp
  rw [he]
  simp only [madeWith, Obj.create]
  rw [fold_compass]
  refine ⟨_, rfl, ?_⟩
  have hI : levelNanos q'.name.level ≠ 0 := by unfold levelNanos; split <;> decide
  have hb := trun_count R A 0 10 (levelNanos q'.name.level) 20 20 env.ne env.re hI
    (compassCalls (usesThrough limits q.target q.name.hash es))
  have hc := C23_count R Compass.noReservoir () 10 (levelNanos q'.name.level) 20 20 env.ne hI
    (plainCalls (compassCalls (usesThrough limits q.target q.name.hash es)))
  rw [← updates_length, ← hc]
  unfold Compass.getCount
  rw [(Compass.basic_run R Compass.noReservoir () 10 (levelNanos q'.name.level) 20 20 env.ne hI _).total]
  exact congrArg BucketCounter.getCount hb.total

/-- **C84, compass.** In full: the compass is one with a bucket reservoir, 10 intervals of the length that belongs to the level of the lookup
that created it, at most 20 error codes and 20 addons, to which exactly the calls through results of lookups of that key in that registry or
group were made. -/
theorem C84_compass (R : Rounding) (A : EDR.Arith) (limits : List Int) (es : List (Event Use NewEnvs))
    (hes : SchedOk limits.length (regEvents es)) (q : Req) (hq : q.kind = .compass) (r : Option Nat) (id : Nat) (p : Params)
    (h : .done q r (.real id p) ∈ (regRun limits (regEvents es)).calls) :
    ∃ c ∈ (regRun limits (regEvents es)).calls, ∃ q', c.req? = some q' ∧ q'.target = q.target ∧ q'.name.hash = q.name.hash ∧
      ∃ env : NewEnvs, (run (whole R A) (start limits) es).objs id = some (.compass (Compass.trun R A
        (Compass.newWithType A 0 10 (levelNanos q'.name.level) 20 20 env.ne env.re)
        (compassCalls (usesThrough limits q.target q.name.hash es)))) := by
  obtain ⟨env, he⟩ := C84_object R A limits es hes q r id p h
  obtain ⟨-, -, c, hc, q', h1, h2, h3, hp⟩ := C47_wellformed limits _ hes q r id p h
  rw [hq] at hp
  subst hp
  refine ⟨c, hc, q', h1, h2, h3, env, ?_⟩
  rw [he]
  simp only [madeWith, Obj.create]
  rw [fold_compass]
  rfl

/-- **C84, fast compass.** In every run, `GetFastCompass` returns either the no-op or the fast compass of 10 intervals and at most 20
categories, with the interval of the level of the lookup that created it, to which exactly the `Record` calls made through any result of any
lookup of that key in that registry or group were made. -/
theorem C84_fast (R : Rounding) (A : EDR.Arith) (limits : List Int) (es : List (Event Use NewEnvs))
    (hes : SchedOk limits.length (regEvents es)) (q : Req) (hq : q.kind = .fast) (r : Option Nat) (id : Nat) (p : Params)
    (h : .done q r (.real id p) ∈ (regRun limits (regEvents es)).calls) :
    ∃ c ∈ (regRun limits (regEvents es)).calls, ∃ q', c.req? = some q' ∧ q'.target = q.target ∧ q'.name.hash = q.name.hash ∧
      (run (whole R A) (start limits) es).objs id = some (.fast (FastCompass.run (FastCompass.new (levelNanos q'.name.level) 10 20)
        (recordCalls (usesThrough limits q.target q.name.hash es)))) := by
  obtain ⟨env, he⟩ := C84_object R A limits es hes q r id p h
  obtain ⟨-, -, c, hc, q', h1, h2, h3, hp⟩ := C47_wellformed limits _ hes q r id p h
  rw [hq] at hp
  subst hp
  refine ⟨c, hc, q', h1, h2, h3, ?_⟩
  rw [he]
  simp only [madeWith, Obj.create]
  rw [fold_fast]

/-- Two goroutines look up the fast compass `k` of a registry and a third one `x`; the first two race, so two objects are made for `k`, but
their records and the one made later meet in one fast compass; the record for `x` does not. -/
example :
    let q : Req := { target := .direct 0, kind := .fast, name := { hash := [107] } }
    let q2 : Req := { target := .direct 0, kind := .fast, name := { hash := [120] } }
    let env : NewEnvs := ⟨⟨0, 0, 0⟩, ⟨0, 0, 0⟩⟩
    let sp (q : Req) : Event Use NewEnvs := .reg (.spawn (.lookup q)) env
    let st (i : Nat) : Event Use NewEnvs := .reg (.step i ()) env
    let es := [sp q, sp q, sp q2] ++ (List.replicate 6 [st 0, st 1, st 2]).flatten ++
      [.use 0 (.fast ⟨0, 1000, 1000000, "a"⟩), .use 2 (.fast ⟨0, 1000, 1000000, "x"⟩), .use 1 (.fast ⟨0, 1000, 2000000, "a"⟩)]
    SchedOk 1 (regEvents es) ∧
    .done q (some 0) (creator .fast 2 0) ∈ (regRun [10] (regEvents es)).calls ∧
    (recordCalls (usesThrough [10] q.target q.name.hash es)).map (fun r => r.duration) = [1000000, 2000000] := by
  refine ⟨?_, by decide +kernel, by decide +kernel⟩
  intro a ha
  simp [regEvents] at ha
  rcases ha with rfl | rfl | rfl <;> simp [Call.ok]

/-- **C84.** Uses of a metric never change how lookups go. -/
theorem C84_uses_do_not_matter (R : Rounding) (A : EDR.Arith) (limits : List Int) (es : List (Event Use NewEnvs)) :
    (run (whole R A) (start limits) es).pool = regRun limits (regEvents es) := run_pool (whole R A) limits es

end GoMetrics
