import Verif.Model.AppConc
import Verif.Props.WholeBucketSnapshot
import Verif.Props.App
import Verif.Props.WholeBucketProgress
import Verif.Props.FastCompassConc
import Verif.Props.Progress
import Verif.Props.Memory
/-! # C99: from `GetCompass` to the counters, in small steps

A run is any list of events: steps of any number of concurrent lookups on registries and on the manager, `SetEnable` calls, and - this is what C84 has not -
calls on the metrics the lookups returned that begin at any moment and make their steps in any order. -/
namespace GoMetrics
open Registry App

namespace AppConc

/-- Specification: the arguments of the `Update` and `UpdateWithError` calls that were begun. -/
def updates : List Use → List (Int × CompassConc.MarkArg) := List.filterMap fun u => match u with | .compass (.update d a) => some (d, a) | _ => none
/-- Specification: the arguments of the `Record` calls that were begun. -/
def records : List Use → List FastCompassConc.Arg := List.filterMap fun u => match u with | .fast a => some a | _ => none

/-- Specification: some lookup of the same key in the same registry or group asked for level `l`. -/
def Asked (limits : List Int) (es : List (Event Use NewEnvs)) (q : Req) (l : Int) : Prop :=
  ∃ c ∈ (regRun limits (regEvents es)).calls, ∃ q', c.req? = some q' ∧ q'.target = q.target ∧ q'.name.hash = q.name.hash ∧ q'.name.level = l

/-- The calls a schedule begins. -/
def begun {A I : Type} (es : List (Ev A I)) : List A := es.filterMap fun e => match e with | .spawn a => some a | .step _ _ => none

/-- What the calls of a machine are does not change. -/
theorem spawned_calls {S C A I X : Type} (M : Machine S C A I) (f : C → X) (hf : ∀ s x c, f (M.step s x c).2 = f c) (s : S) (es : List (Ev A I)) :
    (M.run (Machine.start s) es).calls.map f = (begun es).map fun a => f (M.call a) := by
  induction es using List.reverseRecOn with
  | nil => rfl
  | append_singleton es e ih =>
    rw [begun, Machine.run_snoc, List.filterMap_append, List.map_append, ← begun, ← ih]
    generalize M.run (Machine.start s) es = p
    cases e with
    | spawn a => simp [Machine.apply]
    | step i x =>
      cases hc : p.calls[i]? with
      | none => simp [Machine.apply, hc]
      | some c =>
        simp only [Machine.apply, hc, List.filterMap_cons, List.filterMap_nil, List.map_nil, List.append_nil]
        rw [List.map_set, hf]
        apply List.ext_getElem?
        intro j
        rw [List.getElem?_set]
        split
        · rename_i h
          subst h
          split
          · rw [List.getElem?_map, hc]; rfl
          · rename_i h; rw [List.getElem?_eq_none (by simpa using h)]
        · rfl

theorem fold_bucket (R : Rounding) (A : EDR.Arith) (bi : Int) (l : List Use) (p : Pool (Whole.Parts BucketCounter Whole.BucketPC) Whole.Call) :
    l.foldl (Obj.use R A) (.bucket bi p) = .bucket bi ((Whole.bucketCompass R bi).run p (l.filterMap (Use.onCompass fun x => (x.res.time, x.pick)))) := by
  induction l generalizing p with
  | nil => rfl
  | cons u l ih =>
    cases u with
    | compass u => exact ih _
    | fast a => exact ih _
    | step j x => exact ih _

theorem fold_fast (R : Rounding) (A : EDR.Arith) (l : List Use) (p) :
    l.foldl (Obj.use R A) (.fast p) = .fast (FastCompassConc.guarded.machine.run p (l.filterMap Use.onFast)) := by
  induction l generalizing p with
  | nil => rfl
  | cons u l ih =>
    cases u with
    | compass u => exact ih _
    | fast a => exact ih _
    | step j x => exact ih _

/-- The compass behind a name is a compass with a bucket reservoir in some run of its own. -/
theorem behind_compass (R : Rounding) (A : EDR.Arith) (limits : List Int) (es : List (Event Use NewEnvs)) (hes : SchedOk limits.length (regEvents es))
    (q : Req) (hq : q.kind = .compass) (r : Option Nat) (id : Nat) (p : Params) (h : .done q r (.real id p) ∈ (regRun limits (regEvents es)).calls) :
    ∃ l : Int, Asked limits es q l ∧ p = .compass 0 10 (levelNanos l) 20 20 ∧ ∃ now t1 t2 tv : Int,
      (run (small R A) (start limits) es).objs id = some (.bucket (levelNanos l) (Whole.bucketUsed R (levelNanos l) 10 20 20 now t1 t2 tv
        ((usesThrough limits q.target q.name.hash es).filterMap (Use.onCompass fun x => (x.res.time, x.pick))))) := by
  obtain ⟨env, he⟩ := App.object (small R A) limits es hes q r id p h
  obtain ⟨-, -, c, hc, q', h1, h2, h3, hp⟩ := C47_wellformed limits _ hes q r id p h
  rw [hq] at hp
  refine ⟨q'.name.level, ⟨c, hc, q', h1, h2, h3, rfl⟩, hp, env.ne.now, env.ne.tTotal, env.ne.tSuccess, env.re.tValue, ?_⟩
  rw [he, hp]
  simp only [small, madeWith, Obj.create]
  rw [if_pos (by decide), fold_bucket]
  rfl

theorem behind_fast (R : Rounding) (A : EDR.Arith) (limits : List Int) (es : List (Event Use NewEnvs)) (hes : SchedOk limits.length (regEvents es))
    (q : Req) (hq : q.kind = .fast) (r : Option Nat) (id : Nat) (p : Params) (h : .done q r (.real id p) ∈ (regRun limits (regEvents es)).calls) :
    ∃ l : Int, Asked limits es q l ∧ p = .fast (levelNanos l) 10 20 ∧
      (run (small R A) (start limits) es).objs id = some (.fast (FastCompassConc.after (levelNanos l) 10 20
        ((usesThrough limits q.target q.name.hash es).filterMap Use.onFast))) := by
  obtain ⟨env, he⟩ := App.object (small R A) limits es hes q r id p h
  obtain ⟨-, -, c, hc, q', h1, h2, h3, hp⟩ := C47_wellformed limits _ hes q r id p h
  rw [hq] at hp
  refine ⟨q'.name.level, ⟨c, hc, q', h1, h2, h3, rfl⟩, hp, ?_⟩
  rw [he, hp]
  simp only [small, madeWith, Obj.create]
  rw [fold_fast]
  rfl

theorem levelNanos_ge (l : Int) : 1000000000 ≤ levelNanos l := by unfold levelNanos; split <;> decide

theorem spawns_compass {I : Type} (f : In → I) (l : List Use) :
    begun (l.filterMap (Use.onCompass f)) =
      l.filterMap fun u => match u with | .compass u => some u | _ => none := by
  rw [begun, List.filterMap_filterMap]
  congr 1
  funext u
  cases u <;> rfl

theorem spawns_fast (l : List Use) :
    begun (l.filterMap Use.onFast) = (records l).map Sum.inl := by
  unfold records
  rw [begun, List.filterMap_filterMap, List.map_filterMap]
  congr 1
  funext u
  cases u <;> rfl

/-- The calls of the compass are the calls that were begun. -/
theorem recorded_eq (R : Rounding) (bi : Int) (n : Nat) (maxErr maxAdd now t1 t2 tv : Int) (l : List Use) :
    Whole.recorded (Whole.bucketUsed R bi n maxErr maxAdd now t1 t2 tv (l.filterMap (Use.onCompass fun x => (x.res.time, x.pick)))) = updates l := by
  have h := spawned_calls (Whole.bucketCompass R bi) Whole.Call.recorded? (fun s x c => by
    simp only [Whole.Call.recorded?, Whole.bucketCompass, Whole.step_use])
    (Whole.init (S := BucketCounter) (C := Whole.BucketPC) (BucketCounter.new bi n tv true) bi n maxErr maxAdd now t1 t2).shared
    (l.filterMap (Use.onCompass fun x => (x.res.time, x.pick)))
  rw [spawns_compass] at h
  have e : Whole.recorded (Whole.bucketUsed R bi n maxErr maxAdd now t1 t2 tv (l.filterMap (Use.onCompass fun x => (x.res.time, x.pick)))) =
      ((Whole.bucketUsed R bi n maxErr maxAdd now t1 t2 tv (l.filterMap (Use.onCompass fun x => (x.res.time, x.pick)))).calls.map Whole.Call.recorded?).filterMap id := by
    unfold Whole.recorded; rw [List.filterMap_map]; rfl
  rw [e]
  change List.map _ (Whole.bucketUsed _ _ _ _ _ _ _ _ _ _).calls = _ at h
  rw [h, List.filterMap_map, List.filterMap_filterMap]
  unfold updates
  congr 1
  funext u
  cases u with
  | compass u => cases u <;> rfl
  | fast a => rfl
  | step j x => rfl

end AppConc
open AppConc Whole

/-- **C99.** At every moment of every run, the metric behind the result of a finished `GetCompass` is a compass all of whose `Update` and `UpdateWithError`
calls are those begun through results of lookups of that key in that registry or group - whoever made the lookups, and whether the calls are over or
under way; its total is a number between those that are over and all, so are the successes and the known error codes; the value sum is that of some of
the calls, at least those that are over; and no call was stopped by an internal fault. -/
theorem C99_anytime (R : Rounding) (A : EDR.Arith) (limits : List Int) (es : List (Event AppConc.Use NewEnvs)) (hes : SchedOk limits.length (regEvents es))
    (q : Req) (hq : q.kind = .compass) (r : Option Nat) (id : Nat) (p : Params) (h : .done q r (.real id p) ∈ (regRun limits (regEvents es)).calls) :
    ∃ l, Asked limits es q l ∧ ∃ c, (run (small R A) (start limits) es).objs id = some (.bucket (levelNanos l) c) ∧
      let calls := updates (usesThrough limits q.target q.name.hash es)
      let m := c.shared.marks.shared
      recorded c = calls ∧
      (∃ j : Nat, m.total.getCount = i64 j ∧ (finished c).length ≤ j ∧ j ≤ calls.length) ∧
      (∃ j : Nat, m.success.getCount = i64 j ∧ (finished c).countP (fun e => e.2.isSuccess) ≤ j ∧ j ≤ calls.countP fun e => e.2.isSuccess) ∧
      (∀ code b, (m.lab false).counters.get? code = some b → ∃ j : Nat, b.getCount = i64 j ∧
        (finished c).countP (fun e => e.2.errorCode = code) ≤ j ∧ j ≤ calls.countP fun e => e.2.errorCode = code) ∧
      (∀ addon b, (m.lab true).counters.get? addon = some b → ∃ j : Nat, b.getCount = i64 j ∧ j ≤ calls.countP fun e => e.2.addon = addon) ∧
      (∃ l : List Int, c.shared.res.shared.getCount = i64 l.sum ∧ ((finished c).map Prod.fst).Subperm l ∧ l.Subperm (calls.map Prod.fst)) ∧
      (m.lab false).counters.length ≤ 20 ∧ (m.lab true).counters.length ≤ 20 ∧
      (m.kept + c.shared.res.shared.pointed.card : Int) ≤ 43 * 12 ∧
      ∀ d ∈ c.calls, (∀ i m r, d.pc ≠ .resPanicked i m r) ∧ (∀ i m, d.pc ≠ .crashed i m) := by
  obtain ⟨l, hl, -, now, t1, t2, tv, he⟩ := behind_compass R A limits es hes q hq r id p h
  refine ⟨l, hl, _, he, ?_⟩
  have hrec := recorded_eq R (levelNanos l) 10 20 20 now t1 t2 tv (usesThrough limits q.target q.name.hash es)
  have hall := C86_bucket_anytime R (levelNanos l) (levelNanos_ge l) 10 20 20 now t1 t2 tv
    ((usesThrough limits q.target q.name.hash es).filterMap (Use.onCompass fun x => (x.res.time, x.pick)))
  simp only [hrec] at hall
  obtain ⟨a1, a2, a3, a4, -, a6, a7⟩ := hall
  have hmem := C98_compass_bucket R (levelNanos l) 10 20 20 now t1 t2 tv
    ((usesThrough limits q.target q.name.hash es).filterMap (Use.onCompass fun x => (x.res.time, x.pick)))
  obtain ⟨es', -, he', hinv⟩ := bucket_inv R (levelNanos l) 10 20 20 now t1 t2 tv
    ((usesThrough limits q.target q.name.hash es).filterMap (Use.onCompass fun x => (x.res.time, x.pick)))
  obtain ⟨es1, he1, -⟩ := hinv.marks
  refine ⟨hrec, a1, a2, a3, a4, a6, ?_, ?_, by simpa using hmem, fun d hd => ⟨(a7 d hd).1, (a7 d hd).2.1⟩⟩
  · have := (C83_limit (levelNanos l) 10 20 20 t1 t2 es1).1.1
    rw [show (Whole.bucketUsed R (levelNanos l) 10 20 20 now t1 t2 tv _).shared.marks = _ from he1]
    exact_mod_cast this
  · have := (C83_limit (levelNanos l) 10 20 20 t1 t2 es1).2.1
    rw [show (Whole.bucketUsed R (levelNanos l) 10 20 20 now t1 t2 tv _).shared.marks = _ from he1]
    exact_mod_cast this

/-- **C99.** When all calls on the compass are over, the numbers are exact: its total is the number of `Update` and `UpdateWithError` calls begun through
results of lookups of that key in that registry or group, and so on for successes, known error codes, known addons, averages and values. -/
theorem C99_quiescent (R : Rounding) (A : EDR.Arith) (limits : List Int) (es : List (Event AppConc.Use NewEnvs)) (hes : SchedOk limits.length (regEvents es))
    (q : Req) (hq : q.kind = .compass) (r : Option Nat) (id : Nat) (p : Params) (h : .done q r (.real id p) ∈ (regRun limits (regEvents es)).calls) :
    ∃ l, Asked limits es q l ∧ ∃ c, (run (small R A) (start limits) es).objs id = some (.bucket (levelNanos l) c) ∧ ((∀ d ∈ c.calls, d.over = true) →
      let calls := updates (usesThrough limits q.target q.name.hash es)
      let m := c.shared.marks.shared
      m.total.getCount = i64 calls.length ∧
      m.success.getCount = i64 (calls.countP fun e => e.2.isSuccess) ∧
      (∀ code b, (m.lab false).counters.get? code = some b → b.getCount = i64 (calls.countP fun e => e.2.errorCode = code)) ∧
      (∀ addon b, (m.lab true).counters.get? addon = some b → b.getCount = i64 (calls.countP fun e =>
        e.2.addon = addon ∧ (e.2.errorCode = "" ∨ e.2.errorCode ∈ (m.lab false).counters.keys))) ∧
      (∃ counts : List Int, i64 (counts.sum + c.shared.ticks.shared.uncounted) = i64 calls.length ∧
        ∀ w, ∃ order : List Int, order.Perm counts ∧
          (c.shared.avg w).shared.e.rate = (EWMA.run R EWMA.zeroValue (order.map EWMA.Op.tickN)).rate) ∧
      c.shared.res.shared.getCount = i64 (calls.map Prod.fst).sum) := by
  obtain ⟨l, hl, -, now, t1, t2, tv, he⟩ := behind_compass R A limits es hes q hq r id p h
  refine ⟨l, hl, _, he, fun hover => ?_⟩
  have hall := C86_bucket_quiescent R (levelNanos l) (levelNanos_ge l) 10 20 20 now t1 t2 tv
    ((usesThrough limits q.target q.name.hash es).filterMap (Use.onCompass fun x => (x.res.time, x.pick))) hover
  simp only [recorded_eq R (levelNanos l) 10 20 20 now t1 t2 tv (usesThrough limits q.target q.name.hash es)] at hall
  exact hall

/-- **C99.** And what a snapshot shows: as long as the readings of the clock by calls on the compass are in one interval of it, and durations are between 0 and
`D`, every snapshot that has been taken of it, through whatever lookup and among whatever else, has a mean between 0 and `D` and a count no greater than
the number of recording calls through any lookup of that name. -/
theorem C99_mean (R : Rounding) (A : EDR.Arith) (limits : List Int) (es : List (Event AppConc.Use NewEnvs)) (hes : SchedOk limits.length (regEvents es))
    (q : Req) (hq : q.kind = .compass) (r : Option Nat) (id : Nat) (p : Params) (h : .done q r (.real id p) ∈ (regRun limits (regEvents es)).calls) :
    ∃ l, Asked limits es q l ∧ ∃ c, (run (small R A) (start limits) es).objs id = some (.bucket (levelNanos l) c) ∧
      let uses := usesThrough limits q.target q.name.hash es
      ∀ j D : Int, (∀ k x, .step k x ∈ uses → ∀ t, t = x.time ∨ t = x.res.time → 1000 ≤ t ∧ InI64 t ∧ Spec.slot (levelNanos l / 1000000000) t = j) → 0 ≤ D →
      (∀ e ∈ updates uses, 0 ≤ e.1 ∧ e.1 ≤ D) → ((updates uses).length : Int) < 2 ^ 53 → D * (updates uses).length < 2 ^ 53 →
      ∀ (k i : Nat) b, c.calls[k]? = some ⟨.snapshot, .snapped i⟩ → c.shared.res.calls[i]? = some (.snap (.done b)) →
      0 ≤ b.count ∧ b.count ≤ (updates uses).length ∧ ∃ m : ℚ, b.getMean .binary64 = .ok (.fin m) ∧ 0 ≤ m ∧ m ≤ D := by
  obtain ⟨l, hl, -, now, t1, t2, tv, he⟩ := behind_compass R A limits es hes q hq r id p h
  refine ⟨l, hl, _, he, ?_⟩
  intro uses j D htime hD hdur hn hsum k i b hk hb
  have hrec := recorded_eq R (levelNanos l) 10 20 20 now t1 t2 tv uses
  have hl64 : InI64 (levelNanos l) := by unfold levelNanos InI64; split <;> decide
  have hall := C97_whole_mean R (levelNanos l) (levelNanos_ge l) hl64 10 20 20 now t1 t2 tv (uses.filterMap (Use.onCompass fun x => (x.res.time, x.pick))) j
    (by
      intro k x hx t ht
      obtain ⟨u, hu, hux⟩ := List.mem_filterMap.1 hx
      cases u with
      | compass u => simp [Use.onCompass] at hux
      | fast a => simp [Use.onCompass] at hux
      | step k' y =>
        simp only [Use.onCompass, Option.some.injEq, Ev.step.injEq] at hux
        obtain ⟨rfl, rfl⟩ := hux
        exact htime k' y hu t ht)
    D hD
  simp only [hrec] at hall
  obtain ⟨a1, a2, -, -, a5⟩ := hall hdur hn hsum k i b hk hb
  exact ⟨a1, a2, a5⟩

namespace AppConc
theorem regEvents_uses (es rest : List (Event Use NewEnvs)) (h : ∀ e ∈ rest, ∃ i u, e = .use i u) : regEvents (es ++ rest) = regEvents es := by
  rw [regEvents_append]
  have : regEvents rest = [] := by
    induction rest with
    | nil => rfl
    | cons e rest ih =>
      obtain ⟨i, u, rfl⟩ := h e (by simp)
      exact ih fun e he => h e (by simp [he])
  rw [this, List.append_nil]

/-- Uses of what lookup `i` returned are uses through a lookup of its key. -/
theorem usesThrough_uses (limits : List Int) (es : List (Event Use NewEnvs)) (i : Nat) (q : Req) (r : Nat) (m : Metric)
    (hi : (regRun limits (regEvents es)).calls[i]? = some (.done q (some r) m)) (us : List Use) :
    usesThrough limits q.target q.name.hash (es ++ us.map (Event.use i)) = usesThrough limits q.target q.name.hash es ++ us := by
  induction us using List.reverseRecOn with
  | nil => simp
  | append_singleton us u ih =>
    rw [List.map_append, ← List.append_assoc, List.map_singleton, usesThrough_snoc, ih]
    simp only
    rw [regEvents_uses es _ (fun e he => by obtain ⟨u, -, rfl⟩ := List.mem_map.1 he; exact ⟨i, u, rfl⟩), hi]
    simp

/-- What uses through lookup `i` do to its object. -/
theorem used_object {O U E : Type} (K : Kit O U E) (s : State O) (i : Nat) (q : Req) (r : Option Nat) (id : Nat) (p : Params)
    (hi : s.pool.calls[i]? = some (.done q r (.real id p))) (us : List U) :
    (run K s (us.map (Event.use i))).objs id = (s.objs id).map fun o => us.foldl K.use o := by
  induction us generalizing s with
  | nil => simp [run]
  | cons u us ih =>
    rw [List.map_cons]
    change (run K (App.apply K s (.use i u)) (us.map (Event.use i))).objs id = _
    rw [ih (App.apply K s (.use i u)) hi]
    simp only [App.apply, App.used, hi, if_true, Option.map_map]
    rfl

end AppConc

/-- **C99.** The calls on a compass never block each other for good, whatever goes on elsewhere: from every moment of every run, some steps of calls on it alone (no
lookup, no other metric, no new call needs to do anything) bring all of them to their end; then C99_quiescent says what the numbers are. -/
theorem C99_settles (R : Rounding) (A : EDR.Arith) (limits : List Int) (es : List (Event AppConc.Use NewEnvs)) (hes : SchedOk limits.length (regEvents es))
    (q : Req) (hq : q.kind = .compass) (r : Option Nat) (id : Nat) (p : Params) (i : Nat)
    (h : (regRun limits (regEvents es)).calls[i]? = some (.done q r (.real id p))) :
    ∃ rest : List (Event AppConc.Use NewEnvs), (∀ e ∈ rest, ∃ j x, e = .use i (.step j x)) ∧
      ∃ bi c, (run (small R A) (start limits) (es ++ rest)).objs id = some (.bucket bi c) ∧ (∀ d ∈ c.calls, d.over = true) ∧
        c.shared.marks.shared.total.getCount = i64 (updates (usesThrough limits q.target q.name.hash es)).length ∧
        c.shared.res.shared.getCount = i64 ((updates (usesThrough limits q.target q.name.hash es)).map Prod.fst).sum := by
  have hmem := List.mem_of_getElem? h
  cases r with
  | none => have := ((Registry.inv_all limits _ hes).i2.doneKind _ hmem q none _ rfl).2 rfl; simp at this
  | some r =>
    obtain ⟨env, he⟩ := App.object (small R A) limits es hes q _ id p hmem
    obtain ⟨-, -, c, hc, q', h1, h2, h3, hp⟩ := C47_wellformed limits _ hes q _ id p hmem
    rw [hq] at hp
    obtain ⟨after, hns, hend⟩ := C87_compass_bucket R (levelNanos q'.name.level) 10 20 20 env.ne.now env.ne.tTotal env.ne.tSuccess env.re.tValue
      ((usesThrough limits q.target q.name.hash es).filterMap (Use.onCompass fun x => (x.res.time, x.pick)))
    have hus : ∃ us : List AppConc.Use, (∀ u ∈ us, ∃ j x, u = .step j x) ∧ after = us.filterMap (AppConc.Use.onCompass fun x => (x.res.time, x.pick)) ∧ updates us = [] := by
      clear hend
      induction after with
      | nil => exact ⟨[], by simp, rfl, rfl⟩
      | cons e after ih =>
        obtain ⟨us, u1, u2, u3⟩ := ih fun a ha => hns a (by simp [ha])
        cases e with
        | spawn a => exact absurd (by simp) (hns a)
        | step j x =>
          exact ⟨.step j ⟨x.tick, x.time, ⟨0, x.res.1, .nan⟩, 0, x.res.2⟩ :: us, by
            intro u hu
            rcases List.mem_cons.1 hu with rfl | hu
            · exact ⟨_, _, rfl⟩
            · exact u1 u hu, by rw [u2]; rfl, u3⟩
    obtain ⟨us, u1, rfl, u3⟩ := hus
    refine ⟨us.map (Event.use i), ?_, ?_⟩
    · intro e he
      obtain ⟨u, hu, rfl⟩ := List.mem_map.1 he
      obtain ⟨j, x, rfl⟩ := u1 u hu
      exact ⟨j, x, rfl⟩
    · have hobj : (run (small R A) (start limits) (es ++ us.map (Event.use i))).objs id = some (.bucket (levelNanos q'.name.level)
          (bucketUsed R (levelNanos q'.name.level) 10 20 20 env.ne.now env.ne.tTotal env.ne.tSuccess env.re.tValue
            ((usesThrough limits q.target q.name.hash es ++ us).filterMap (AppConc.Use.onCompass fun x => (x.res.time, x.pick))))) := by
        have e : run (small R A) (start limits) (es ++ us.map (Event.use i)) = run (small R A) (run (small R A) (start limits) es) (us.map (Event.use i)) := by
          simp [run]
        rw [e, used_object (small R A) _ i q (some r) id p (by rw [run_pool]; exact h), he, Option.map_some, ← List.foldl_append, hp]
        simp only [small, madeWith, AppConc.Obj.create]
        rw [if_pos (by decide), fold_bucket]
        rfl
      have hall := C86_bucket_anytime R (levelNanos q'.name.level) (levelNanos_ge _) 10 20 20 env.ne.now env.ne.tTotal env.ne.tSuccess env.re.tValue
        ((usesThrough limits q.target q.name.hash es ++ us).filterMap (AppConc.Use.onCompass fun x => (x.res.time, x.pick)))
      obtain ⟨-, -, -, -, -, -, hall⟩ := hall
      rw [← List.filterMap_append] at hend
      have hover : ∀ d ∈ (bucketUsed R (levelNanos q'.name.level) 10 20 20 env.ne.now env.ne.tTotal env.ne.tSuccess env.re.tValue
          ((usesThrough limits q.target q.name.hash es ++ us).filterMap (AppConc.Use.onCompass fun x => (x.res.time, x.pick)))).calls, d.over = true := by
        intro d hd
        have h1 := hend d hd
        obtain ⟨h2, h3, -⟩ := hall d hd
        obtain ⟨use, pc⟩ := d
        cases pc <;> first | rfl | (cases h1; done) | exact absurd rfl (h2 _ _ _) | exact absurd rfl (h3 _ _)
      have hq' := C86_bucket_quiescent R (levelNanos q'.name.level) (levelNanos_ge _) 10 20 20 env.ne.now env.ne.tTotal env.ne.tSuccess env.re.tValue _ hover
      have hu : updates (usesThrough limits q.target q.name.hash es ++ us) = updates (usesThrough limits q.target q.name.hash es) := by
        unfold updates at u3 ⊢; rw [List.filterMap_append, u3, List.append_nil]
      simp only [recorded_eq, hu] at hq'
      exact ⟨_, _, hobj, hover, hq'.1, hq'.2.2.2.2.2⟩


namespace AppConc
open FastCompassConc (Arg RecPC)

/-- The argument of a `Record`. -/
def argOf : GuardPC Arg (Arg × RecPC) Int Bool Empty Empty Empty → Option Arg
  | .wWait a | .wIn a _ _ | .wOut a _ | .wDone a _ => some a
  | _ => none

theorem argOf_step (s : Guard FastCompass Arg Int Bool) (x : Int) (c : GuardPC Arg (Arg × RecPC) Int Bool Empty Empty Empty) :
    argOf (FastCompassConc.guarded.machine.step s x c).2 = argOf c := by
  cases c with
  | wIn a ins l =>
    simp only [Guarded.machine, Guarded.callStep]
    split <;> rfl
  | wWait a =>
    simp only [Guarded.machine, Guarded.callStep]
    split <;> rfl
  | rWait q => exact nomatch q
  | rIn q k => exact nomatch q
  | _ => rfl

/-- The calls on the fast compass are the calls that were begun. -/
theorem args_eq (interval : Int) (n : Nat) (limit : Int) (l : List AppConc.Use) :
    (FastCompassConc.after interval n limit (l.filterMap AppConc.Use.onFast)).calls.filterMap argOf = records l := by
  have h := spawned_calls FastCompassConc.guarded.machine argOf argOf_step { obj := FastCompass.new interval n limit } (l.filterMap AppConc.Use.onFast)
  rw [spawns_fast] at h
  have e : (FastCompassConc.after interval n limit (l.filterMap AppConc.Use.onFast)).calls.filterMap argOf =
      ((FastCompassConc.after interval n limit (l.filterMap AppConc.Use.onFast)).calls.map argOf).filterMap id := by
    rw [List.filterMap_map]; rfl
  rw [e]
  change List.map _ (FastCompassConc.after _ _ _ _).calls = _ at h
  rw [h, List.map_map, List.filterMap_map]
  generalize records l = m
  induction m with
  | nil => rfl
  | cons a m ih => simpa [Guarded.machine, argOf] using ih

theorem written_sublist (p : Pool (Guard FastCompass Arg Int Bool) (GuardPC Arg (Arg × RecPC) Int Bool Empty Empty Empty)) :
    (FastCompassConc.recorded p).Sublist (p.calls.filterMap argOf) := by
  unfold FastCompassConc.recorded Guarded.written
  generalize p.calls = cs
  induction cs with
  | nil => exact List.Sublist.slnil
  | cons c cs ih => cases c <;> first | exact nomatch ‹Empty› | simp [argOf, ih, List.Sublist.cons]

theorem written_all (p : Pool (Guard FastCompass Arg Int Bool) (GuardPC Arg (Arg × RecPC) Int Bool Empty Empty Empty))
    (h : ∀ c ∈ p.calls, Guarded.ended c = true) : FastCompassConc.recorded p = p.calls.filterMap argOf := by
  unfold FastCompassConc.recorded Guarded.written
  apply List.filterMap_congr
  intro c hc
  have := h c hc
  cases c <;> first | rfl | (cases this; done)

end AppConc

/-- **C99.** At every moment of every run, the metric behind the result of a finished `GetFastCompass` is a fast compass on which the `Record` calls were made that were begun
through results of lookups of that key in that registry or group: the calls that are through, each made once, in some order and with clock readings of the run, are what it
holds whenever nobody is inside `Record`; when all calls are over these are all that were begun; it never has more than 20 categories, and no `Record` panics. -/
theorem C99_fast (R : Rounding) (A : EDR.Arith) (limits : List Int) (es : List (Event AppConc.Use NewEnvs)) (hes : SchedOk limits.length (regEvents es))
    (q : Req) (hq : q.kind = .fast) (r : Option Nat) (id : Nat) (p : Params) (h : .done q r (.real id p) ∈ (regRun limits (regEvents es)).calls) :
    ∃ l, Asked limits es q l ∧ ∃ f, (run (small R A) (start limits) es).objs id = some (.fast f) ∧
      let calls := records (usesThrough limits q.target q.name.hash es)
      (∃ hist : List FastCompass.Rec,
        (hist.map fun r => (⟨r.duration, r.subCategory⟩ : FastCompassConc.Arg)).Subperm calls ∧
        ((∀ c ∈ f.calls, Guarded.ended c = true) → (hist.map fun r => (⟨r.duration, r.subCategory⟩ : FastCompassConc.Arg)).Perm calls) ∧
        (f.shared.writer = false → f.shared.obj = (FastCompass.new (levelNanos l) 10 20).run hist)) ∧
      f.shared.obj.subCategories.length ≤ 20 ∧
      (∀ a r, GuardPC.wDone a r ∈ f.calls → r = false) := by
  obtain ⟨l, hl, -, he⟩ := behind_fast R A limits es hes q hq r id p h
  refine ⟨l, hl, _, he, ?_⟩
  obtain ⟨hist, h1, -, h3, -⟩ := C80_linearizable (levelNanos l) 10 20 ((usesThrough limits q.target q.name.hash es).filterMap AppConc.Use.onFast)
  refine ⟨⟨hist, ?_, ?_, h3⟩, ?_, ?_⟩
  · refine h1.subperm.trans ?_
    rw [← args_eq (levelNanos l) 10 20]
    exact (written_sublist _).subperm
  · intro hover
    rw [← args_eq (levelNanos l) 10 20, ← written_all _ hover]
    exact h1
  · have := C80_limit (levelNanos l) 10 20 ((usesThrough limits q.target q.name.hash es).filterMap AppConc.Use.onFast)
    exact_mod_cast this
  · intro a r ha
    exact C80_no_panic (levelNanos l) 10 20 (levelNanos_ge l) _ a r (.inr ha)

/-- **C99.** While the clock that the calls on it read stays in one interval and when all calls on it are over, a fast compass reports for every category it has taken up exactly the
number of `Record` calls begun for that category through results of lookups of the key, and the sum of their whole milliseconds (within the 38 and 25 bits it keeps). -/
theorem C99_fast_counts (R : Rounding) (A : EDR.Arith) (limits : List Int) (es : List (Event AppConc.Use NewEnvs)) (hes : SchedOk limits.length (regEvents es))
    (q : Req) (hq : q.kind = .fast) (r : Option Nat) (id : Nat) (p : Params) (h : .done q r (.real id p) ∈ (regRun limits (regEvents es)).calls) :
    ∃ l, Asked limits es q l ∧ ∃ f, (run (small R A) (start limits) es).objs id = some (.fast f) ∧
      ∀ ts : Int, 0 ≤ ts → (∀ j x, AppConc.Use.step j x ∈ usesThrough limits q.target q.name.hash es → Spec.intervalStart (levelNanos l / 1000000000) x.time = ts) →
      (∀ c ∈ f.calls, Guarded.ended c = true) → f.shared.writer = false →
      ∀ cat : String, (f.shared.obj.subCategories.get? cat).isSome = true →
      let ds := ((records (usesThrough limits q.target q.name.hash es)).filter fun a => 0 ≤ a.duration ∧ a.subCategory = cat).map fun a => a.duration / 1000000
      ds.length < 2 ^ 26 → ds.sum < 2 ^ 38 →
      ∀ clock : String → Int, ts ≤ Spec.intervalStart (levelNanos l / 1000000000) (clock cat) →
      (∃ m mc, f.shared.obj.getMethodCountPerCategorySince clock 0 = some m ∧ m.get? cat = some mc ∧ ∀ k v, mc.get? k = some v ↔ k = 1000 * ts ∧ v = ds.length) ∧
      (∃ m mc, f.shared.obj.getMethodRtPerCategorySince clock 0 = some m ∧ m.get? cat = some mc ∧ ∀ k v, mc.get? k = some v ↔ k = 1000 * ts ∧ v = ds.sum) := by
  obtain ⟨l, hl, -, he⟩ := behind_fast R A limits es hes q hq r id p h
  refine ⟨l, hl, _, he, ?_⟩
  intro ts hts hclock hover hw cat hcat ds h1 h2 clock hnow
  have hrec : FastCompassConc.recorded (FastCompassConc.after (levelNanos l) 10 20 ((usesThrough limits q.target q.name.hash es).filterMap AppConc.Use.onFast)) =
      records (usesThrough limits q.target q.name.hash es) := by rw [written_all _ hover, args_eq]
  have := C80_no_lost_record (levelNanos l) 10 20 (levelNanos_ge l) (by decide) ((usesThrough limits q.target q.name.hash es).filterMap AppConc.Use.onFast) ts hts
    (fun i x hx => by
      obtain ⟨u, hu, hx⟩ := List.mem_filterMap.1 hx
      cases u with
      | compass u => simp [Use.onFast] at hx
      | fast a => simp [Use.onFast] at hx
      | step j y =>
        simp only [Use.onFast, Option.some.injEq, Ev.step.injEq] at hx
        rw [← hx.2]
        exact hclock j y hu) hw cat hcat
  rw [hrec] at this
  exact this h1 h2 clock hnow

/-- **C99.** The `Record` calls on a fast compass never block each other for good, whatever goes on elsewhere. -/
theorem C99_fast_settles (R : Rounding) (A : EDR.Arith) (limits : List Int) (es : List (Event AppConc.Use NewEnvs)) (hes : SchedOk limits.length (regEvents es))
    (q : Req) (hq : q.kind = .fast) (r : Option Nat) (id : Nat) (p : Params) (i : Nat)
    (h : (regRun limits (regEvents es)).calls[i]? = some (.done q r (.real id p))) :
    ∃ rest : List (Event AppConc.Use NewEnvs), (∀ e ∈ rest, ∃ j x, e = .use i (.step j x)) ∧
      ∃ f, (run (small R A) (start limits) (es ++ rest)).objs id = some (.fast f) ∧ ∀ c ∈ f.calls, Guarded.ended c = true := by
  have hmem := List.mem_of_getElem? h
  obtain ⟨l, hl, -, he⟩ := behind_fast R A limits es hes q hq r id p hmem
  obtain ⟨after, hns, hend⟩ := C87_fast_compass (FastCompass.new (levelNanos l) 10 20) ((usesThrough limits q.target q.name.hash es).filterMap AppConc.Use.onFast)
  have hus : ∃ us : List AppConc.Use, (∀ u ∈ us, ∃ j x, u = .step j x) ∧ after = us.filterMap AppConc.Use.onFast := by
    clear hend
    induction after with
    | nil => exact ⟨[], by simp, rfl⟩
    | cons e after ih =>
      obtain ⟨us, u1, u2⟩ := ih fun a ha => hns a (by simp [ha])
      cases e with
      | spawn a => exact absurd (by simp) (hns a)
      | step j x =>
        exact ⟨.step j ⟨0, x, ⟨0, 0, .nan⟩, 0, 0⟩ :: us, by
          intro u hu
          rcases List.mem_cons.1 hu with rfl | hu
          · exact ⟨_, _, rfl⟩
          · exact u1 u hu, by rw [u2]; rfl⟩
  obtain ⟨us, u1, rfl⟩ := hus
  refine ⟨us.map (Event.use i), ?_, FastCompassConc.after (levelNanos l) 10 20 ((usesThrough limits q.target q.name.hash es ++ us).filterMap AppConc.Use.onFast), ?_, ?_⟩
  · intro e he
    obtain ⟨u, hu, rfl⟩ := List.mem_map.1 he
    obtain ⟨j, x, rfl⟩ := u1 u hu
    exact ⟨j, x, rfl⟩
  · have e : run (small R A) (start limits) (es ++ us.map (Event.use i)) = run (small R A) (run (small R A) (start limits) es) (us.map (Event.use i)) := by
      simp [run]
    rw [e, used_object (small R A) _ i q r id p (by rw [run_pool]; exact h), he, Option.map_some]
    simp only [small]
    rw [fold_fast, List.filterMap_append]
    unfold FastCompassConc.after
    rw [Machine.run_append]
  · rw [List.filterMap_append]
    exact hend

/-- Two goroutines look up the compass `k` of a registry and race, so two objects are made; then each begins an `UpdateWithError` on what it got, and the two
calls make their steps in turns. Both are counted in one compass. -/
example :
    let q : Req := { target := .direct 0, kind := .compass, name := { hash := [107] } }
    let env : NewEnvs := ⟨⟨0, 0, 0⟩, ⟨0, 0, 0⟩⟩
    let sp : Event AppConc.Use NewEnvs := .reg (.spawn (.lookup q)) env
    let st (i : Nat) : Event AppConc.Use NewEnvs := .reg (.step i ()) env
    let x : AppConc.In := ⟨0, 1000, ⟨0, 1000, .nan⟩, 0, 0⟩
    let es := [sp, sp] ++ (List.replicate 6 [st 0, st 1]).flatten ++
      [.use 0 (.compass (.update 5 ⟨true, "", ""⟩)), .use 1 (.compass (.update 7 ⟨false, "e", ""⟩))] ++
      (List.replicate 40 [.use 1 (.step 0 x), .use 0 (.step 1 x)]).flatten
    SchedOk 1 (regEvents es) ∧
    .done q (some 0) (creator .compass 2 0) ∈ (regRun [10] (regEvents es)).calls ∧
    (updates (usesThrough [10] q.target q.name.hash es)).map Prod.fst = [5, 7] ∧
    ((match (run (small .exact ⟨.exact, id⟩) (start [10]) es).objs 0 with
      | some (.bucket _ c) => (c.calls.map Call.over, c.shared.marks.shared.total.getCount, c.shared.res.shared.getCount)
      | _ => ([], 0, 0)) = ([true, true], 2, 12)) := by
  refine ⟨?_, by decide +kernel, by decide +kernel, by decide +kernel⟩
  intro a ha
  simp [regEvents, List.replicate_succ] at ha
  subst ha
  simp [Call.ok]

/-- The same, and then a snapshot is taken of what the first goroutine got; the hypotheses of C99_mean are met. -/
example :
    let q : Req := { target := .direct 0, kind := .compass, name := { hash := [107] } }
    let env : NewEnvs := ⟨⟨0, 0, 0⟩, ⟨0, 0, 0⟩⟩
    let sp : Event AppConc.Use NewEnvs := .reg (.spawn (.lookup q)) env
    let st (i : Nat) : Event AppConc.Use NewEnvs := .reg (.step i ()) env
    let x : AppConc.In := ⟨0, 1000, ⟨0, 1000, .nan⟩, 0, 0⟩
    let es := [sp, sp] ++ (List.replicate 6 [st 0, st 1]).flatten ++
      [.use 0 (.compass (.update 5 ⟨true, "", ""⟩)), .use 1 (.compass (.update 7 ⟨false, "e", ""⟩))] ++
      (List.replicate 40 [.use 1 (.step 0 x), .use 0 (.step 1 x)]).flatten ++ [.use 0 (.compass .snapshot)] ++ List.replicate 70 (.use 0 (.step 2 x))
    .done q (some 0) (creator .compass 2 0) ∈ (regRun [10] (regEvents es)).calls ∧
    ((match (run (small .exact ⟨.exact, id⟩) (start [10]) es).objs 0 with
      | some (.bucket _ c) => ((c.calls.map Whole.Call.pc)[2]?, c.shared.res.calls[2]?)
      | _ => (none, none)) = (some (.snapped 2), some (.snap (.done ⟨2, 12⟩)))) := by
  refine ⟨by decide +kernel, by decide +kernel⟩

end GoMetrics
