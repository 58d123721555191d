import Verif.Model.AppWild
import Verif.Props.WholeBucketWild
import Verif.Props.AppConc
/-! # C113: from `GetCompass` to the counters, whatever unsynchronised loads return

As C99, but the plain loads of a compass - of its tick clock, of the latest bucket and its timestamp, of the position of the bucket queue, of a rate, and everything a snapshot loads -
return what the schedule says. -/
namespace GoMetrics
open Registry App

namespace AppWild

/-- Specification: the arguments of the `Update` and `UpdateWithError` calls that were begun. -/
def updates : List Use → List (Int × CompassConc.MarkArg) := List.filterMap fun u => match u with | .compass (.update d a) => some (d, a) | _ => none
/-- Specification: the arguments of the `Record` calls that were begun. -/
def records : List Use → List FastCompassConc.Arg := List.filterMap fun u => match u with | .fast a => some a | _ => none
/-- Specification: some lookup of the same key in the same registry or group asked for level `l`. -/
def Asked (limits : List Int) (es : List (Event Use NewEnvs)) (q : Req) (l : Int) : Prop :=
  ∃ c ∈ (regRun limits (regEvents es)).calls, ∃ q', c.req? = some q' ∧ q'.target = q.target ∧ q'.name.hash = q.name.hash ∧ q'.name.level = l

theorem fold_bucket (R : Rounding) (A : EDR.Arith) (bi : Int) (l : List Use) (p : Pool (Whole.Parts BucketCounter Whole.BucketPC) Whole.Call) :
    l.foldl (use R A) (.bucket bi p) = .bucket bi ((Whole.wildBucketCompass R bi).run p (l.filterMap (Use.onCompass In.bucket))) := by
  induction l generalizing p with
  | nil => rfl
  | cons u l ih =>
    cases u with
    | compass u => exact ih _
    | fast a => exact ih _
    | step j x => exact ih _

theorem fold_fast (R : Rounding) (A : EDR.Arith) (l : List Use) (p) :
    l.foldl (use R A) (.fast p) = .fast (FastCompassConc.guarded.machine.run p (l.filterMap Use.onFast)) := by
  induction l generalizing p with
  | nil => rfl
  | cons u l ih =>
    cases u with
    | compass u => exact ih _
    | fast a => exact ih _
    | step j x => exact ih _

/-- The compass behind a name is a compass with a bucket reservoir in some run of its own. -/
theorem behind_compass (R : Rounding) (A : EDR.Arith) (limits : List Int) (es : List (Event Use NewEnvs)) (hes : SchedOk limits.length (regEvents es))
    (q : Req) (hq : q.kind = .compass) (r : Option Nat) (id : Nat) (p : Params) (h : .done q r (.real id p) ∈ (regRun limits (regEvents es)).calls) :
    ∃ l : Int, Asked limits es q l ∧ p = .compass 0 10 (levelNanos l) 20 20 ∧ ∃ now t1 t2 tv : Int,
      (run (wild R A) (start limits) es).objs id = some (.bucket (levelNanos l) (Whole.wildBucketUsed R (levelNanos l) 10 20 20 now t1 t2 tv
        ((usesThrough limits q.target q.name.hash es).filterMap (Use.onCompass In.bucket)))) := by
  obtain ⟨env, he⟩ := App.object (wild R A) limits es hes q r id p h
  obtain ⟨-, -, c, hc, q', h1, h2, h3, hp⟩ := C47_wellformed limits _ hes q r id p h
  rw [hq] at hp
  refine ⟨q'.name.level, ⟨c, hc, q', h1, h2, h3, rfl⟩, hp, env.ne.now, env.ne.tTotal, env.ne.tSuccess, env.re.tValue, ?_⟩
  rw [he, hp]
  simp only [wild, madeWith, AppConc.Obj.create]
  rw [if_pos (by decide), fold_bucket]
  rfl

theorem behind_fast (R : Rounding) (A : EDR.Arith) (limits : List Int) (es : List (Event Use NewEnvs)) (hes : SchedOk limits.length (regEvents es))
    (q : Req) (hq : q.kind = .fast) (r : Option Nat) (id : Nat) (p : Params) (h : .done q r (.real id p) ∈ (regRun limits (regEvents es)).calls) :
    ∃ l : Int, Asked limits es q l ∧ p = .fast (levelNanos l) 10 20 ∧
      (run (wild R A) (start limits) es).objs id = some (.fast (FastCompassConc.after (levelNanos l) 10 20
        ((usesThrough limits q.target q.name.hash es).filterMap Use.onFast))) := by
  obtain ⟨env, he⟩ := App.object (wild R A) limits es hes q r id p h
  obtain ⟨-, -, c, hc, q', h1, h2, h3, hp⟩ := C47_wellformed limits _ hes q r id p h
  rw [hq] at hp
  refine ⟨q'.name.level, ⟨c, hc, q', h1, h2, h3, rfl⟩, hp, ?_⟩
  rw [he, hp]
  simp only [wild, madeWith, AppConc.Obj.create]
  rw [fold_fast]
  rfl

theorem spawns_compass {I : Type} (f : In → I) (l : List Use) :
    AppConc.begun (l.filterMap (Use.onCompass f)) = l.filterMap fun u => match u with | .compass u => some u | _ => none := by
  rw [AppConc.begun, List.filterMap_filterMap]
  congr 1
  funext u
  cases u <;> rfl

theorem wild_use (R : Rounding) (bi : Int) (s : Whole.Parts BucketCounter Whole.BucketPC) (x) (c : Whole.Call) :
    ((Whole.wildBucketCompass R bi).step s x c).2.use = c.use := by
  obtain ⟨use, pc⟩ := c
  have hw : ∀ y c, (Whole.wildBucketCompass R bi).step s y c =
      Whole.callStepBy R (Whole.wildBucket bi) (CompassConc.wildConc bi) CompassConc.wildMarking (fun any r => any.getD r) s y c := fun _ _ => rfl
  rw [hw]
  unfold Whole.callStepBy
  cases pc <;> simp only [] <;> repeat' split
  all_goals rfl

/-- The calls of the compass are the calls that were begun. -/
theorem recorded_eq (R : Rounding) (bi : Int) (n : Nat) (maxErr maxAdd now t1 t2 tv : Int) (l : List Use) :
    Whole.recorded (Whole.wildBucketUsed R bi n maxErr maxAdd now t1 t2 tv (l.filterMap (Use.onCompass In.bucket))) = updates l := by
  have h := AppConc.spawned_calls (Whole.wildBucketCompass R bi) Whole.Call.recorded? (fun s x c => by
    simp only [Whole.Call.recorded?, wild_use])
    (Whole.init (S := BucketCounter) (C := Whole.BucketPC) (BucketCounter.new bi n tv true) bi n maxErr maxAdd now t1 t2).shared
    (l.filterMap (Use.onCompass In.bucket))
  rw [spawns_compass] at h
  have e : Whole.recorded (Whole.wildBucketUsed R bi n maxErr maxAdd now t1 t2 tv (l.filterMap (Use.onCompass In.bucket))) =
      ((Whole.wildBucketUsed R bi n maxErr maxAdd now t1 t2 tv (l.filterMap (Use.onCompass In.bucket))).calls.map Whole.Call.recorded?).filterMap id := by
    unfold Whole.recorded; rw [List.filterMap_map]; rfl
  rw [e]
  change List.map _ (Whole.wildBucketUsed _ _ _ _ _ _ _ _ _ _).calls = _ at h
  rw [h, List.filterMap_map, List.filterMap_filterMap]
  unfold updates
  congr 1
  funext u
  cases u with
  | compass u => cases u <;> rfl
  | fast a => rfl
  | step j x => rfl

theorem wildlyUsed_eq (R : Rounding) (bi : Int) (n : Nat) (maxErr maxAdd now t1 t2 tv : Int) (es) :
    WholeWild.wildlyUsed R (Whole.wildBucket bi) (BucketCounter.new bi n tv true) bi n maxErr maxAdd now t1 t2 es =
      Whole.wildBucketUsed R bi n maxErr maxAdd now t1 t2 tv es := rfl

end AppWild
open AppWild Whole

/-- What is true of a compass with a bucket reservoir after whatever events. -/
theorem AppWild.compass_anytime (R : Rounding) (l now t1 t2 tv : Int) (us : List AppWild.Use) :
      let c := Whole.wildBucketUsed R (levelNanos l) 10 20 20 now t1 t2 tv (us.filterMap (Use.onCompass In.bucket))
      let calls := updates us
      let m := c.shared.marks.shared
      recorded c = calls ∧
      (∃ j : Nat, m.total.getCount = i64 j ∧ (finished c).length ≤ j ∧ j ≤ calls.length) ∧
      (∃ j : Nat, m.success.getCount = i64 j ∧ (finished c).countP (fun e => e.2.isSuccess) ≤ j ∧ j ≤ calls.countP fun e => e.2.isSuccess) ∧
      (∀ code b, (m.lab false).counters.get? code = some b → ∃ j : Nat, b.getCount = i64 j ∧
        (finished c).countP (fun e => e.2.errorCode = code) ≤ j ∧ j ≤ calls.countP fun e => e.2.errorCode = code) ∧
      (∀ addon b, (m.lab true).counters.get? addon = some b → ∃ j : Nat, b.getCount = i64 j ∧ j ≤ calls.countP fun e => e.2.addon = addon) ∧
      (∃ l : List Int, c.shared.res.shared.getCount = i64 l.sum ∧ ((finished c).map Prod.fst).Subperm l ∧ l.Subperm (calls.map Prod.fst)) ∧
      (m.lab false).counters.length ≤ 20 ∧ (m.lab true).counters.length ≤ 20 ∧
      ∀ d ∈ c.calls, (∀ i m r, d.pc ≠ .resPanicked i m r) ∧ (∀ i m, d.pc ≠ .crashed i m) := by
  intro c
  have hrec := recorded_eq R (levelNanos l) 10 20 20 now t1 t2 tv us
  have hall := C110_whole_anytime R (wildBucket (levelNanos l)) bucketArg (WholeWild.wildBucket_ok _) (BucketCounter.new (levelNanos l) 10 tv true) (levelNanos l)
    (AppConc.levelNanos_ge l) 10 20 20 now t1 t2 (us.filterMap (Use.onCompass In.bucket))
  have hres := C110_bucket_anytime R (levelNanos l) (AppConc.levelNanos_ge l) 10 20 20 now t1 t2 tv
    (us.filterMap (Use.onCompass In.bucket))
  simp only [wildlyUsed_eq, hrec] at hall
  simp only [hrec] at hres
  obtain ⟨a1, a2, a3, a4, -⟩ := hall
  have hinv := WholeWild.wildBucket_inv R (levelNanos l) 10 20 20 now t1 t2 tv
    (us.filterMap (Use.onCompass In.bucket))
  obtain ⟨es1, he1, -⟩ := hinv.marks
  refine ⟨hrec, a1, a2, a3, a4, hres.1, ?_, ?_, fun d hd => ⟨(hres.2 d hd).1, (hres.2 d hd).2.1⟩⟩
  · have := (C110_limit (levelNanos l) 10 20 20 t1 t2 es1).1.1
    rw [show (Whole.wildBucketUsed R (levelNanos l) 10 20 20 now t1 t2 tv _).shared.marks = _ from he1]
    exact_mod_cast this
  · have := (C110_limit (levelNanos l) 10 20 20 t1 t2 es1).2.1
    rw [show (Whole.wildBucketUsed R (levelNanos l) 10 20 20 now t1 t2 tv _).shared.marks = _ from he1]
    exact_mod_cast this

/-- **C113.** At every moment of every run, whatever plain loads in compasses return, the metric behind the result of a finished `GetCompass` is a compass all of whose `Update` and
`UpdateWithError` calls are those begun through results of lookups of that key in that registry or group; its total is a number between those that are over and all, so are
the successes and the known error codes; the value sum is that of some of the calls, at least those that are over; there are never more than 20 error codes and 20 addons; no
call was stopped by an internal fault. -/
theorem C113_anytime (R : Rounding) (A : EDR.Arith) (limits : List Int) (es : List (Event AppWild.Use NewEnvs)) (hes : SchedOk limits.length (regEvents es))
    (q : Req) (hq : q.kind = .compass) (r : Option Nat) (id : Nat) (p : Params) (h : .done q r (.real id p) ∈ (regRun limits (regEvents es)).calls) :
    ∃ l, Asked limits es q l ∧ ∃ c, (run (wild R A) (start limits) es).objs id = some (.bucket (levelNanos l) c) ∧
      let calls := updates (usesThrough limits q.target q.name.hash es)
      let m := c.shared.marks.shared
      recorded c = calls ∧
      (∃ j : Nat, m.total.getCount = i64 j ∧ (finished c).length ≤ j ∧ j ≤ calls.length) ∧
      (∃ j : Nat, m.success.getCount = i64 j ∧ (finished c).countP (fun e => e.2.isSuccess) ≤ j ∧ j ≤ calls.countP fun e => e.2.isSuccess) ∧
      (∀ code b, (m.lab false).counters.get? code = some b → ∃ j : Nat, b.getCount = i64 j ∧
        (finished c).countP (fun e => e.2.errorCode = code) ≤ j ∧ j ≤ calls.countP fun e => e.2.errorCode = code) ∧
      (∀ addon b, (m.lab true).counters.get? addon = some b → ∃ j : Nat, b.getCount = i64 j ∧ j ≤ calls.countP fun e => e.2.addon = addon) ∧
      (∃ l : List Int, c.shared.res.shared.getCount = i64 l.sum ∧ ((finished c).map Prod.fst).Subperm l ∧ l.Subperm (calls.map Prod.fst)) ∧
      (m.lab false).counters.length ≤ 20 ∧ (m.lab true).counters.length ≤ 20 ∧
      ∀ d ∈ c.calls, (∀ i m r, d.pc ≠ .resPanicked i m r) ∧ (∀ i m, d.pc ≠ .crashed i m) := by
  obtain ⟨l, hl, -, now, t1, t2, tv, he⟩ := behind_compass R A limits es hes q hq r id p h
  exact ⟨l, hl, _, he, compass_anytime R l now t1 t2 tv _⟩

/-- What is true of a compass with a bucket reservoir when all its calls are over. -/
theorem AppWild.compass_quiescent (R : Rounding) (l now t1 t2 tv : Int) (us : List AppWild.Use) :
      let c := Whole.wildBucketUsed R (levelNanos l) 10 20 20 now t1 t2 tv (us.filterMap (Use.onCompass In.bucket))
      ((∀ d ∈ c.calls, d.over = true) →
      let calls := updates us
      let m := c.shared.marks.shared
      m.total.getCount = i64 calls.length ∧
      m.success.getCount = i64 (calls.countP fun e => e.2.isSuccess) ∧
      (∀ code b, (m.lab false).counters.get? code = some b → b.getCount = i64 (calls.countP fun e => e.2.errorCode = code)) ∧
      (∀ addon b, (m.lab true).counters.get? addon = some b → b.getCount = i64 (calls.countP fun e =>
        e.2.addon = addon ∧ (e.2.errorCode = "" ∨ e.2.errorCode ∈ (m.lab false).counters.keys))) ∧
      (∃ counts : List Int, i64 (counts.sum + c.shared.ticks.shared.uncounted) = i64 calls.length ∧
        ∀ w, ∃ order : List Int, order.Perm counts ∧
          (c.shared.avg w).shared.e.rate = (EWMA.run R EWMA.zeroValue (order.map EWMA.Op.tickN)).rate) ∧
      c.shared.res.shared.getCount = i64 (calls.map Prod.fst).sum) := by
  intro c hover
  have hrec := recorded_eq R (levelNanos l) 10 20 20 now t1 t2 tv us
  have hall := C110_whole R (wildBucket (levelNanos l)) bucketArg (WholeWild.wildBucket_ok _) (BucketCounter.new (levelNanos l) 10 tv true) (levelNanos l)
    (AppConc.levelNanos_ge l) 10 20 20 now t1 t2 (us.filterMap (Use.onCompass In.bucket)) hover
  have hres := C110_bucket_quiescent R (levelNanos l) 10 20 20 now t1 t2 tv
    (us.filterMap (Use.onCompass In.bucket)) hover
  simp only [wildlyUsed_eq, hrec] at hall
  simp only [hrec] at hres
  obtain ⟨a1, a2, a3, a4, a5⟩ := hall
  exact ⟨a1, a2, a3, a4, a5, hres⟩

/-- **C113.** When all calls on the compass are over, the numbers are exact, whatever plain loads have returned. -/
theorem C113_quiescent (R : Rounding) (A : EDR.Arith) (limits : List Int) (es : List (Event AppWild.Use NewEnvs)) (hes : SchedOk limits.length (regEvents es))
    (q : Req) (hq : q.kind = .compass) (r : Option Nat) (id : Nat) (p : Params) (h : .done q r (.real id p) ∈ (regRun limits (regEvents es)).calls) :
    ∃ l, Asked limits es q l ∧ ∃ c, (run (wild R A) (start limits) es).objs id = some (.bucket (levelNanos l) c) ∧ ((∀ d ∈ c.calls, d.over = true) →
      let calls := updates (usesThrough limits q.target q.name.hash es)
      let m := c.shared.marks.shared
      m.total.getCount = i64 calls.length ∧
      m.success.getCount = i64 (calls.countP fun e => e.2.isSuccess) ∧
      (∀ code b, (m.lab false).counters.get? code = some b → b.getCount = i64 (calls.countP fun e => e.2.errorCode = code)) ∧
      (∀ addon b, (m.lab true).counters.get? addon = some b → b.getCount = i64 (calls.countP fun e =>
        e.2.addon = addon ∧ (e.2.errorCode = "" ∨ e.2.errorCode ∈ (m.lab false).counters.keys))) ∧
      (∃ counts : List Int, i64 (counts.sum + c.shared.ticks.shared.uncounted) = i64 calls.length ∧
        ∀ w, ∃ order : List Int, order.Perm counts ∧
          (c.shared.avg w).shared.e.rate = (EWMA.run R EWMA.zeroValue (order.map EWMA.Op.tickN)).rate) ∧
      c.shared.res.shared.getCount = i64 (calls.map Prod.fst).sum) := by
  obtain ⟨l, hl, -, now, t1, t2, tv, he⟩ := behind_compass R A limits es hes q hq r id p h
  exact ⟨l, hl, _, he, compass_quiescent R l now t1 t2 tv _⟩

namespace AppWild

/-- The use of C99 with the same calls and clock readings. -/
def Use.plain : Use → AppConc.Use
  | .compass u => .compass u
  | .fast a => .fast a
  | .step j x => .step j ⟨x.tick.clock, x.time.clock, x.res, x.word, 0⟩

theorem onFast_plain (l : List Use) : l.filterMap Use.onFast = (l.map Use.plain).filterMap AppConc.Use.onFast := by
  rw [List.filterMap_map]
  congr 1
  funext u
  cases u <;> rfl

theorem records_plain (l : List Use) : AppConc.records (l.map Use.plain) = records l := by
  unfold AppConc.records records
  rw [List.filterMap_map]
  congr 1
  funext u
  cases u <;> rfl

end AppWild

/-- What is true of a fast compass after whatever events. -/
theorem AppWild.fast_facts (l : Int) (us : List AppWild.Use) :
      let f := FastCompassConc.after (levelNanos l) 10 20 (us.filterMap Use.onFast)
      let calls := records us
      (∃ hist : List FastCompass.Rec,
        (hist.map fun r => (⟨r.duration, r.subCategory⟩ : FastCompassConc.Arg)).Subperm calls ∧
        ((∀ c ∈ f.calls, Guarded.ended c = true) → (hist.map fun r => (⟨r.duration, r.subCategory⟩ : FastCompassConc.Arg)).Perm calls) ∧
        (f.shared.writer = false → f.shared.obj = (FastCompass.new (levelNanos l) 10 20).run hist)) ∧
      f.shared.obj.subCategories.length ≤ 20 ∧
      (∀ a r, GuardPC.wDone a r ∈ f.calls → r = false) := by
  rw [onFast_plain]
  have hargs := AppConc.args_eq (levelNanos l) 10 20 (us.map Use.plain)
  rw [records_plain] at hargs
  obtain ⟨hist, h1, -, h3, -⟩ := C80_linearizable (levelNanos l) 10 20 ((us.map Use.plain).filterMap AppConc.Use.onFast)
  refine ⟨⟨hist, ?_, ?_, h3⟩, ?_, ?_⟩
  · refine h1.subperm.trans ?_
    rw [← hargs]
    exact (AppConc.written_sublist _).subperm
  · intro hover
    rw [← hargs, ← AppConc.written_all _ hover]
    exact h1
  · have := C80_limit (levelNanos l) 10 20 ((us.map Use.plain).filterMap AppConc.Use.onFast)
    exact_mod_cast this
  · intro a r ha
    exact C80_no_panic (levelNanos l) 10 20 (AppConc.levelNanos_ge l) _ a r (.inr ha)

/-- **C113.** A fast compass is not affected: what C99 says of the one behind the result of a `GetFastCompass` holds in these runs too. -/
theorem C113_fast (R : Rounding) (A : EDR.Arith) (limits : List Int) (es : List (Event AppWild.Use NewEnvs)) (hes : SchedOk limits.length (regEvents es))
    (q : Req) (hq : q.kind = .fast) (r : Option Nat) (id : Nat) (p : Params) (h : .done q r (.real id p) ∈ (regRun limits (regEvents es)).calls) :
    ∃ l, Asked limits es q l ∧ ∃ f, (run (wild R A) (start limits) es).objs id = some (.fast f) ∧
      let calls := records (usesThrough limits q.target q.name.hash es)
      (∃ hist : List FastCompass.Rec,
        (hist.map fun r => (⟨r.duration, r.subCategory⟩ : FastCompassConc.Arg)).Subperm calls ∧
        ((∀ c ∈ f.calls, Guarded.ended c = true) → (hist.map fun r => (⟨r.duration, r.subCategory⟩ : FastCompassConc.Arg)).Perm calls) ∧
        (f.shared.writer = false → f.shared.obj = (FastCompass.new (levelNanos l) 10 20).run hist)) ∧
      f.shared.obj.subCategories.length ≤ 20 ∧
      (∀ a r, GuardPC.wDone a r ∈ f.calls → r = false) := by
  obtain ⟨l, hl, -, he⟩ := behind_fast R A limits es hes q hq r id p h
  exact ⟨l, hl, _, he, fast_facts l _⟩

namespace AppWild
open App (Event)

/-- What the objects of a run of C99 are. -/
def Good (R : Rounding) (A : EDR.Arith) : AppConc.Obj → Prop
  | .bucket bi p => ∃ n maxErr maxAdd now t1 t2 tv es, p = Whole.bucketUsed R bi n maxErr maxAdd now t1 t2 tv es
  | .uniform bi p => ∃ s0 n maxErr maxAdd now t1 t2 es, p = Whole.used R Whole.uniform s0 bi n maxErr maxAdd now t1 t2 es
  | .decaying bi p => ∃ s0 n maxErr maxAdd now t1 t2 es, p = Whole.used R (Whole.decaying A) s0 bi n maxErr maxAdd now t1 t2 es
  | .fast _ => True

theorem good_create (R : Rounding) (A : EDR.Arith) (p : Params) (env : NewEnvs) : Good R A (AppConc.Obj.create A p env) := by
  cases p with
  | fast i n m => trivial
  | compass t n bi e a =>
    simp only [AppConc.Obj.create]
    split
    · exact ⟨_, _, _, _, _, _, _, [], rfl⟩
    · split
      · exact ⟨_, _, _, _, _, _, _, [], rfl⟩
      · exact ⟨_, _, _, _, _, _, _, [], rfl⟩

theorem good_use {R : Rounding} {A : EDR.Arith} {o : AppConc.Obj} (h : Good R A o) (u : AppConc.Use) : Good R A (AppConc.Obj.use R A o u) := by
  cases o with
  | fast p => cases u <;> trivial
  | bucket bi p =>
    obtain ⟨n, a, b, c, d, e, f, es, rfl⟩ := h
    cases u with
    | fast x => exact ⟨n, a, b, c, d, e, f, es, rfl⟩
    | compass x => exact ⟨n, a, b, c, d, e, f, es ++ [.spawn x], (Machine.run_snoc _ _ _ _).symm⟩
    | step j x => exact ⟨n, a, b, c, d, e, f, es ++ [.step j ⟨x.tick, x.time, (x.res.time, x.pick)⟩], (Machine.run_snoc _ _ _ _).symm⟩
  | uniform bi p =>
    obtain ⟨n, a, b, c, d, e, f, es, rfl⟩ := h
    cases u with
    | fast x => exact ⟨n, a, b, c, d, e, f, es, rfl⟩
    | compass x => exact ⟨n, a, b, c, d, e, f, es ++ [.spawn x], (Machine.run_snoc _ _ _ _).symm⟩
    | step j x => exact ⟨n, a, b, c, d, e, f, es ++ [.step j ⟨x.tick, x.time, x.word⟩], (Machine.run_snoc _ _ _ _).symm⟩
  | decaying bi p =>
    obtain ⟨n, a, b, c, d, e, f, es, rfl⟩ := h
    cases u with
    | fast x => exact ⟨n, a, b, c, d, e, f, es, rfl⟩
    | compass x => exact ⟨n, a, b, c, d, e, f, es ++ [.spawn x], (Machine.run_snoc _ _ _ _).symm⟩
    | step j x => exact ⟨n, a, b, c, d, e, f, es ++ [.step j ⟨x.tick, x.time, x.res⟩], (Machine.run_snoc _ _ _ _).symm⟩

theorem good_run (R : Rounding) (A : EDR.Arith) (limits : List Int) (es : List (Event AppConc.Use NewEnvs)) :
    ∀ id o, (App.run (AppConc.small R A) (App.start limits) es).objs id = some o → Good R A o := by
  induction es using List.reverseRecOn with
  | nil => intro id o h; cases h
  | append_singleton es e ih =>
    have hs : App.run (AppConc.small R A) (App.start limits) (es ++ [e]) = App.apply (AppConc.small R A) (App.run (AppConc.small R A) (App.start limits) es) e := by
      simp [App.run]
    rw [hs]
    generalize App.run (AppConc.small R A) (App.start limits) es = s at *
    intro id o h
    cases e with
    | reg e env =>
      cases e with
      | spawn a => exact ih id o h
      | step i x =>
        simp only [App.apply, App.created] at h
        cases hc : s.pool.calls[i]? with
        | none => simp only [hc] at h; exact ih id o h
        | some c =>
          simp only [hc] at h
          cases c <;> try exact ih id o h
          rename_i q r
          simp only at h
          cases hm : creator q.kind q.name.level s.pool.shared.fresh with
          | nop k => simp only [hm] at h; exact ih id o h
          | real id' p =>
            simp only [hm] at h
            by_cases hid : id = id'
            · rw [if_pos hid] at h
              obtain rfl := Option.some.inj h
              exact good_create R A _ env
            · rw [if_neg hid] at h; exact ih id o h
    | use i u =>
      simp only [App.apply, App.used] at h
      cases hc : s.pool.calls[i]? with
      | none => simp only [hc] at h; exact ih id o h
      | some c =>
        simp only [hc] at h
        cases c <;> try exact ih id o h
        rename_i q r m
        cases m with
        | nop k => exact ih id o h
        | real id' p =>
          simp only at h
          by_cases hid : id = id'
          · rw [if_pos hid] at h
            obtain ⟨o', h1, h2⟩ := Option.map_eq_some_iff.1 h
            rw [← h2]
            exact good_use (ih _ o' h1) u
          · rw [if_neg hid] at h; exact ih id o h

theorem pool_use (R : Rounding) (bi : Int) (p : Pool (Whole.Parts BucketCounter Whole.BucketPC) Whole.Call)
    (h : ∃ n maxErr maxAdd now t1 t2 tv es, p = Whole.bucketUsed R bi n maxErr maxAdd now t1 t2 tv es) (i : Nat) (x : Whole.In (Int × Nat)) :
    ∃ y, (Whole.wildBucketCompass R bi).apply p (.step i y) = (Whole.bucketCompass R bi).apply p (.step i x) := by
  obtain ⟨n, maxErr, maxAdd, now, t1, t2, tv, es, rfl⟩ := h
  obtain ⟨-, -, -, hi⟩ := Whole.bucket_inv R bi n maxErr maxAdd now t1 t2 tv es
  generalize Whole.bucketUsed R bi n maxErr maxAdd now t1 t2 tv es = p at *
  cases hc : p.calls[i]? with
  | none =>
    refine ⟨⟨⟨0, 0⟩, ⟨0, 0, false, 0⟩, ⟨⟨0, 0, false, 0⟩, 0, ⟨p.shared.res.shared, p.shared.res.shared⟩⟩, none⟩, ?_⟩
    simp only [Machine.apply, hc]
  | some c =>
    obtain ⟨y, hy⟩ := WholeWild.wildBucket_step' R hi x c
    exact ⟨y, by simp only [Machine.apply, hc, hy]⟩

theorem pool_use' {S C B I : Type} (R : Rounding) (T : Whole.Stepped S C B I) (arg : C → Option Int) (hT : T.Ok arg) (bi : Int) (p : Pool (Whole.Parts S C) Whole.Call)
    (h : ∃ s0 n maxErr maxAdd now t1 t2 es, p = Whole.used R T s0 bi n maxErr maxAdd now t1 t2 es) (i : Nat) (x : Whole.In I) :
    ∃ y, y.res = x.res ∧ (Whole.wildMachine R T bi).apply p (.step i y) = (Whole.machine R T bi).apply p (.step i x) := by
  obtain ⟨s0, n, maxErr, maxAdd, now, t1, t2, es, rfl⟩ := h
  have hi : Whole.Inv R T arg bi (fun _ => True) (fun _ => True) (Whole.init s0 bi n maxErr maxAdd now t1 t2) (Whole.used R T s0 bi n maxErr maxAdd now t1 t2 es) :=
    Whole.inv_all hT s0 n maxErr maxAdd now t1 t2 es (fun _ _ _ => ⟨trivial, trivial⟩)
  generalize Whole.used R T s0 bi n maxErr maxAdd now t1 t2 es = p at *
  have hok : WholeWild.FreshOk n p.shared.marks.shared := by
    obtain ⟨es1, e1, -⟩ := hi.marks
    rw [e1]; exact WholeWild.freshOk_run bi n maxErr maxAdd t1 t2 es1
  cases hc : p.calls[i]? with
  | none =>
    refine ⟨⟨⟨0, 0⟩, ⟨0, 0, false, 0⟩, x.res, none⟩, rfl, ?_⟩
    simp only [Machine.apply, hc]
  | some c =>
    obtain ⟨y, hr, hy⟩ := WholeWild.step_fresh R T bi p.shared hok x c
    exact ⟨y, hr, by simp only [Machine.apply, hc, Whole.wildMachine, Whole.machine, hy]⟩

/-- Every use of C99 is one of these. -/
theorem use_fresh {R : Rounding} {A : EDR.Arith} {o : AppConc.Obj} (h : Good R A o) (u : AppConc.Use) :
    ∃ u', use R A o u' = AppConc.Obj.use R A o u := by
  have b0 : Whole.BucketSeen := ⟨⟨0, 0, false, 0⟩, 0, ⟨BucketCounter.new 0 0 0 true, BucketCounter.new 0 0 0 true⟩⟩
  cases u with
  | compass x => exact ⟨.compass x, by cases o <;> rfl⟩
  | fast x => exact ⟨.fast x, by cases o <;> rfl⟩
  | step j x =>
    cases o with
    | fast p => exact ⟨.step j ⟨⟨0, 0⟩, ⟨x.time, 0, false, 0⟩, none, b0, x.res, 0⟩, rfl⟩
    | bucket bi p =>
      obtain ⟨y, hy⟩ := pool_use R bi p h j ⟨x.tick, x.time, (x.res.time, x.pick)⟩
      exact ⟨.step j ⟨y.tick, y.time, y.rate, y.res, x.res, 0⟩, congrArg (AppConc.Obj.bucket bi) hy⟩
    | uniform bi p =>
      obtain ⟨y, -, hy⟩ := pool_use' R Whole.uniform _ Whole.uniform_ok bi p h j ⟨x.tick, x.time, x.word⟩
      exact ⟨.step j ⟨y.tick, y.time, y.rate, b0, x.res, y.res⟩, congrArg (AppConc.Obj.uniform bi) hy⟩
    | decaying bi p =>
      obtain ⟨y, -, hy⟩ := pool_use' R (Whole.decaying A) _ (Whole.decaying_ok A) bi p h j ⟨x.tick, x.time, x.res⟩
      exact ⟨.step j ⟨y.tick, y.time, y.rate, b0, y.res, 0⟩, congrArg (AppConc.Obj.decaying bi) hy⟩

end AppWild

/-- **C113.** The runs of C99, in which loads return what was stored last, are among these. -/
theorem C113_covers (R : Rounding) (A : EDR.Arith) (limits : List Int) (es : List (Event AppConc.Use NewEnvs)) :
    ∃ es' : List (Event AppWild.Use NewEnvs), regEvents es' = regEvents es ∧ run (wild R A) (start limits) es' = run (AppConc.small R A) (start limits) es := by
  induction es using List.reverseRecOn with
  | nil => exact ⟨[], rfl, rfl⟩
  | append_singleton es e ih =>
    obtain ⟨es', h1, h2⟩ := ih
    have hg := good_run R A limits es
    have hs : run (AppConc.small R A) (start limits) (es ++ [e]) = App.apply (AppConc.small R A) (run (AppConc.small R A) (start limits) es) e := by simp [App.run]
    have hs' : ∀ e', run (wild R A) (start limits) (es' ++ [e']) = App.apply (wild R A) (run (wild R A) (start limits) es') e' := by simp [App.run]
    rw [hs]
    rw [h2] at hs'
    generalize run (AppConc.small R A) (start limits) es = s at *
    cases e with
    | reg e env => exact ⟨es' ++ [.reg e env], by simp [regEvents_append, h1, regEvents], hs' _⟩
    | use i u =>
      have key : ∃ u', App.apply (wild R A) s (.use i u') = App.apply (AppConc.small R A) s (.use i u) := by
        simp only [App.apply, App.used]
        cases hc : s.pool.calls[i]? with
        | none => exact ⟨.fast ⟨0, ""⟩, rfl⟩
        | some c =>
          cases c <;> try exact ⟨.fast ⟨0, ""⟩, rfl⟩
          rename_i q r m
          cases m with
          | nop k => exact ⟨.fast ⟨0, ""⟩, rfl⟩
          | real id p =>
            cases ho : s.objs id with
            | none => exact ⟨.fast ⟨0, ""⟩, by simp only [ho]; rfl⟩
            | some o =>
              obtain ⟨u', hu'⟩ := use_fresh (hg id o ho) u
              refine ⟨u', ?_⟩
              simp only [ho, Option.map_some, wild, AppConc.small, hu']
      obtain ⟨u', hu'⟩ := key
      exact ⟨es' ++ [.use i u'], by simp [regEvents_append, h1, regEvents], by rw [hs', hu']⟩

/-- Two goroutines look up the compass `k` of a registry and race; then each begins an `UpdateWithError` on what it got, and the two calls make their steps in turns, while loads
return now this, now that. Both are counted in one compass. -/
example :
    let q : Req := { target := .direct 0, kind := .compass, name := { hash := [107] } }
    let env : NewEnvs := ⟨⟨0, 0, 0⟩, ⟨0, 0, 0⟩⟩
    let sp : Event AppWild.Use NewEnvs := .reg (.spawn (.lookup q)) env
    let st (i : Nat) : Event AppWild.Use NewEnvs := .reg (.step i ()) env
    let b : BucketCounter := BucketCounter.new 7 2 5 true
    let x (t : Nat) : AppWild.In := ⟨⟨400000000 * t, if t % 7 = 0 then 0 else 3000000000⟩, ⟨1500 * t, t, t % 2 = 0, t / 3⟩, some (.fin t),
      ⟨⟨1500 * t, t, t % 3 = 0, t / 2⟩, t, ⟨b, b⟩⟩, ⟨0, 1000, .nan⟩, 0⟩
    let es := [sp, sp] ++ (List.replicate 6 [st 0, st 1]).flatten ++
      [.use 0 (.compass (.update 5 ⟨true, "", ""⟩)), .use 1 (.compass (.update 7 ⟨false, "e", ""⟩))] ++
      (List.range 120).flatMap (fun t => [.use 1 (.step 0 (x t)), .use 0 (.step 1 (x (t + 1)))])
    .done q (some 0) (creator .compass 2 0) ∈ (regRun [10] (regEvents es)).calls ∧
    (updates (usesThrough [10] q.target q.name.hash es)).map Prod.fst = [5, 7] ∧
    ((match (run (wild .exact ⟨.exact, id⟩) (start [10]) es).objs 0 with
      | some (.bucket _ c) => (c.calls.map Call.over, c.shared.marks.shared.total.getCount, c.shared.res.shared.getCount)
      | _ => ([], 0, 0)) = ([true, true], 2, 12)) := by
  refine ⟨by decide +kernel, by decide +kernel, by decide +kernel⟩

end GoMetrics
