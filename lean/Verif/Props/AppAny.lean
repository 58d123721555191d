import Verif.Proofs.AppAny
import Verif.Props.AppWild
/-! # C121: from `GetCompass` to the counters, whatever any unsynchronised load of the program returns

As C113, and the plain loads of registries and manager - of the number of metrics, and of the switch - return what the schedule says too. -/
namespace GoMetrics
open Registry
open App (Kit State NewEnvs start)

namespace AppAny
open AppWild (Use In wild)

/-- Specification: some lookup of the same key in the same registry or group asked for level `l`. -/
def Asked (limits : List Int) (es : List (Event Use NewEnvs)) (q : Req) (l : Int) : Prop :=
  ∃ c ∈ (anyRun limits (regEvents es)).calls, ∃ q', c.req? = some q' ∧ q'.target = q.target ∧ q'.name.hash = q.name.hash ∧ q'.name.level = l

/-- The compass behind a name is a compass with a bucket reservoir in some run of its own. -/
theorem behind_compass (R : Rounding) (A : EDR.Arith) (limits : List Int) (es : List (Event Use NewEnvs))
    (hes : ∀ a, Ev.spawn a ∈ regEvents es → a.ok limits.length)
    (q : Req) (hq : q.kind = .compass) (r : Option Nat) (id : Nat) (p : Params) (h : .done q r (.real id p) ∈ (anyRun limits (regEvents es)).calls) :
    ∃ l : Int, Asked limits es q l ∧ ∃ now t1 t2 tv : Int,
      (run (wild R A) (start limits) es).objs id = some (.bucket (levelNanos l) (Whole.wildBucketUsed R (levelNanos l) 10 20 20 now t1 t2 tv
        ((usesThrough limits q.target q.name.hash es).filterMap (Use.onCompass In.bucket)))) := by
  obtain ⟨env, he⟩ := object (wild R A) limits es hes q r id p h
  obtain ⟨-, -, c, hc, q', h1, h2, h3, hp⟩ := (any_all limits _ hes).wellformed q r id p h
  rw [hq] at hp
  refine ⟨q'.name.level, ⟨c, hc, q', h1, h2, h3, rfl⟩, env.ne.now, env.ne.tTotal, env.ne.tSuccess, env.re.tValue, ?_⟩
  rw [he, hp]
  simp only [wild, madeWith, AppConc.Obj.create]
  rw [if_pos (by decide), AppWild.fold_bucket]
  rfl

theorem behind_fast (R : Rounding) (A : EDR.Arith) (limits : List Int) (es : List (Event Use NewEnvs))
    (hes : ∀ a, Ev.spawn a ∈ regEvents es → a.ok limits.length)
    (q : Req) (hq : q.kind = .fast) (r : Option Nat) (id : Nat) (p : Params) (h : .done q r (.real id p) ∈ (anyRun limits (regEvents es)).calls) :
    ∃ l : Int, Asked limits es q l ∧
      (run (wild R A) (start limits) es).objs id = some (.fast (FastCompassConc.after (levelNanos l) 10 20
        ((usesThrough limits q.target q.name.hash es).filterMap Use.onFast))) := by
  obtain ⟨env, he⟩ := object (wild R A) limits es hes q r id p h
  obtain ⟨-, -, c, hc, q', h1, h2, h3, hp⟩ := (any_all limits _ hes).wellformed q r id p h
  rw [hq] at hp
  refine ⟨q'.name.level, ⟨c, hc, q', h1, h2, h3, rfl⟩, ?_⟩
  rw [he, hp]
  simp only [wild, madeWith, AppConc.Obj.create]
  rw [AppWild.fold_fast]
  rfl

end AppAny
open AppWild (updates records wild)
open Whole (recorded finished)
open AppAny (Asked usesThrough regEvents run)

/-- **C121.** At every moment of every run, whatever plain loads in compasses, registries and the manager return, the metric behind the result of a finished `GetCompass` that is not
the no-op is a compass all of whose `Update` and `UpdateWithError` calls are those begun through results of lookups of that key in that registry or group; its total is a number
between those that are over and all, so are the successes and the known error codes; the value sum is that of some of the calls, at least those that are over; there are never more
than 20 error codes and 20 addons; no call was stopped by an internal fault. -/
theorem C121_anytime (R : Rounding) (A : EDR.Arith) (limits : List Int) (es : List (AppAny.Event AppWild.Use NewEnvs))
    (hes : ∀ a, Ev.spawn a ∈ regEvents es → a.ok limits.length)
    (q : Req) (hq : q.kind = .compass) (r : Option Nat) (id : Nat) (p : Params) (h : .done q r (.real id p) ∈ (anyRun limits (regEvents es)).calls) :
    ∃ l, Asked limits es q l ∧ ∃ c, (run (wild R A) (start limits) es).objs id = some (.bucket (levelNanos l) c) ∧
      let calls := updates (usesThrough limits q.target q.name.hash es)
      let m := c.shared.marks.shared
      recorded c = calls ∧
      (∃ j : Nat, m.total.getCount = i64 j ∧ (finished c).length ≤ j ∧ j ≤ calls.length) ∧
      (∃ j : Nat, m.success.getCount = i64 j ∧ (finished c).countP (fun e => e.2.isSuccess) ≤ j ∧ j ≤ calls.countP fun e => e.2.isSuccess) ∧
      (∀ code b, (m.lab false).counters.get? code = some b → ∃ j : Nat, b.getCount = i64 j ∧
        (finished c).countP (fun e => e.2.errorCode = code) ≤ j ∧ j ≤ calls.countP fun e => e.2.errorCode = code) ∧
      (∀ addon b, (m.lab true).counters.get? addon = some b → ∃ j : Nat, b.getCount = i64 j ∧ j ≤ calls.countP fun e => e.2.addon = addon) ∧
      (∃ l : List Int, c.shared.res.shared.getCount = i64 l.sum ∧ ((finished c).map Prod.fst).Subperm l ∧ l.Subperm (calls.map Prod.fst)) ∧
      (m.lab false).counters.length ≤ 20 ∧ (m.lab true).counters.length ≤ 20 ∧
      ∀ d ∈ c.calls, (∀ i m r, d.pc ≠ .resPanicked i m r) ∧ (∀ i m, d.pc ≠ .crashed i m) := by
  obtain ⟨l, hl, now, t1, t2, tv, he⟩ := AppAny.behind_compass R A limits es hes q hq r id p h
  exact ⟨l, hl, _, he, AppWild.compass_anytime R l now t1 t2 tv _⟩

/-- **C121.** When all calls on the compass are over, the numbers are exact, whatever plain loads have returned anywhere. -/
theorem C121_quiescent (R : Rounding) (A : EDR.Arith) (limits : List Int) (es : List (AppAny.Event AppWild.Use NewEnvs))
    (hes : ∀ a, Ev.spawn a ∈ regEvents es → a.ok limits.length)
    (q : Req) (hq : q.kind = .compass) (r : Option Nat) (id : Nat) (p : Params) (h : .done q r (.real id p) ∈ (anyRun limits (regEvents es)).calls) :
    ∃ l, Asked limits es q l ∧ ∃ c, (run (wild R A) (start limits) es).objs id = some (.bucket (levelNanos l) c) ∧ ((∀ d ∈ c.calls, d.over = true) →
      let calls := updates (usesThrough limits q.target q.name.hash es)
      let m := c.shared.marks.shared
      m.total.getCount = i64 calls.length ∧
      m.success.getCount = i64 (calls.countP fun e => e.2.isSuccess) ∧
      (∀ code b, (m.lab false).counters.get? code = some b → b.getCount = i64 (calls.countP fun e => e.2.errorCode = code)) ∧
      (∀ addon b, (m.lab true).counters.get? addon = some b → b.getCount = i64 (calls.countP fun e =>
        e.2.addon = addon ∧ (e.2.errorCode = "" ∨ e.2.errorCode ∈ (m.lab false).counters.keys))) ∧
      (∃ counts : List Int, i64 (counts.sum + c.shared.ticks.shared.uncounted) = i64 calls.length ∧
        ∀ w, ∃ order : List Int, order.Perm counts ∧
          (c.shared.avg w).shared.e.rate = (EWMA.run R EWMA.zeroValue (order.map EWMA.Op.tickN)).rate) ∧
      c.shared.res.shared.getCount = i64 (calls.map Prod.fst).sum) := by
  obtain ⟨l, hl, now, t1, t2, tv, he⟩ := AppAny.behind_compass R A limits es hes q hq r id p h
  exact ⟨l, hl, _, he, AppWild.compass_quiescent R l now t1 t2 tv _⟩

/-- **C121.** The metric behind the result of a finished `GetFastCompass` that is not the no-op is a fast compass in which some of the `Record` calls begun through results of lookups
of that key have happened one after the other - all of them once they are over -, with at most 20 categories; no `Record` panicked. -/
theorem C121_fast (R : Rounding) (A : EDR.Arith) (limits : List Int) (es : List (AppAny.Event AppWild.Use NewEnvs))
    (hes : ∀ a, Ev.spawn a ∈ regEvents es → a.ok limits.length)
    (q : Req) (hq : q.kind = .fast) (r : Option Nat) (id : Nat) (p : Params) (h : .done q r (.real id p) ∈ (anyRun limits (regEvents es)).calls) :
    ∃ l, Asked limits es q l ∧ ∃ f, (run (wild R A) (start limits) es).objs id = some (.fast f) ∧
      let calls := records (usesThrough limits q.target q.name.hash es)
      (∃ hist : List FastCompass.Rec,
        (hist.map fun r => (⟨r.duration, r.subCategory⟩ : FastCompassConc.Arg)).Subperm calls ∧
        ((∀ c ∈ f.calls, Guarded.ended c = true) → (hist.map fun r => (⟨r.duration, r.subCategory⟩ : FastCompassConc.Arg)).Perm calls) ∧
        (f.shared.writer = false → f.shared.obj = (FastCompass.new (levelNanos l) 10 20).run hist)) ∧
      f.shared.obj.subCategories.length ≤ 20 ∧
      (∀ a r, GuardPC.wDone a r ∈ f.calls → r = false) := by
  obtain ⟨l, hl, he⟩ := AppAny.behind_fast R A limits es hes q hq r id p h
  exact ⟨l, hl, _, he, AppWild.fast_facts l _⟩

/-- **C121.** What lookups return does not depend on these loads but for the choice between the metric and the no-op: lookups of one key in one registry or group that got there return
the same metric, lookups of different keys, or in different registries or groups, never the same but for the shared no-op; there is one registry per group; the kind is the one
asked for, and a lookup panics only if the key was asked for as the other kind. -/
theorem C121_lookups (limits : List Int) (es : List (Ev Call Loads)) (hes : ∀ a, Ev.spawn a ∈ es → a.ok limits.length) (q q' : Req) :
    (∀ r r' m m', .done q (some r) m ∈ (anyRun limits es).calls → .done q' (some r') m' ∈ (anyRun limits es).calls →
      q.target = q'.target → q.name.hash = q'.name.hash → m = m') ∧
    (∀ r r' m, .done q r m ∈ (anyRun limits es).calls → .done q' r' m ∈ (anyRun limits es).calls →
      q.target ≠ q'.target ∨ q.name.hash ≠ q'.name.hash → ∃ k, m = .nop k) ∧
    (∀ g g' r r' m m', q.target = .group g → q'.target = .group g' → .done q (some r) m ∈ (anyRun limits es).calls →
      .done q' (some r') m' ∈ (anyRun limits es).calls → (r = r' ↔ g = g')) ∧
    (∀ r m, .done q r m ∈ (anyRun limits es).calls → m.kind = q.kind) ∧
    (∀ r, .panicked q r ∈ (anyRun limits es).calls →
      ∃ c ∈ (anyRun limits es).calls, ∃ q', c.req? = some q' ∧ q'.target = q.target ∧ q'.name.hash = q.name.hash ∧ q'.kind ≠ q.kind) :=
  have hi := any_all limits es hes
  ⟨fun r r' m m' h h' ht hk => hi.same_metric q q' r r' m m' h h' ht hk,
    fun r r' m h h' hne => hi.distinct q q' r r' m h h' hne,
    fun g g' r r' m m' hq hq' h h' => hi.one_registry_per_group q q' g g' r r' m m' hq hq' h h',
    (hi.kinds q).2, (hi.kinds q).1⟩

/-- **C121.** The keys of a registry: those that were asked for there, each once. -/
theorem C121_keys (limits : List Int) (es : List (Ev Call Loads)) (hes : ∀ a, Ev.spawn a ∈ es → a.ok limits.length) (r : Nat) (k : GoStr) :
    ((∃ e, ((anyRun limits es).shared.regs r).metricsMap.get? k = some e) →
      ∃ c ∈ (anyRun limits es).calls, ∃ q, c.req? = some q ∧ q.name.hash = k ∧
        (q.target = .direct r ∨ ∃ g, q.target = .group g ∧ (anyRun limits es).shared.groups.get? g = some r)) ∧
    ((∃ q, ((∃ m, .done q (some r) m ∈ (anyRun limits es).calls) ∨ .panicked q r ∈ (anyRun limits es).calls) ∧ q.name.hash = k) →
      ∃ e, ((anyRun limits es).shared.regs r).metricsMap.get? k = some e) ∧
    ((anyRun limits es).shared.regs r).metricsMap.keys.Nodup :=
  (any_all limits es hes).keys r k

namespace AppAny

/-- A registry event of Model/App.lean: its loads return what was stored last. -/
def fresh : Ev Call Unit → Ev Call Loads
  | .spawn a => .spawn a
  | .step i _ => .step i {}

/-- An event of Model/App.lean. -/
def Event.fresh {U E : Type} : App.Event U E → Event U E
  | .reg e env => .reg (AppAny.fresh e) env
  | .use i u => .use i u

theorem anyStep_fresh (s : Mem) (c : PC) : anyStep s {} c = callStep s c := by cases c <;> rfl

end AppAny

/-- **C121.** The runs of C113 (so, by `C113_covers`, those of C99), in which the loads of registries and manager return what was stored last, are among these. -/
theorem C121_covers {O U E : Type} (K : Kit O U E) (s : State O) (es : List (App.Event U E)) :
    AppAny.run K s (es.map AppAny.Event.fresh) = App.run K s es := by
  induction es generalizing s with
  | nil => rfl
  | cons e es ih =>
    rw [List.map_cons]
    change AppAny.run K (AppAny.apply K s (AppAny.Event.fresh e)) _ = App.run K (App.apply K s e) es
    rw [← ih]
    congr 1
    cases e with
    | use i u => rfl
    | reg e env =>
      cases e with
      | spawn a => rfl
      | step i x =>
        simp only [AppAny.Event.fresh, AppAny.fresh, AppAny.apply, App.apply, Machine.apply]
        cases hc : s.pool.calls[i]? with
        | none => simp only [AppAny.created, App.created, hc]
        | some c =>
          simp only [AppAny.created, App.created, hc]
          rw [show anyConc.step s.pool.shared {} c = callStep s.pool.shared c from AppAny.anyStep_fresh _ c]
          rfl

/-- A registry for one metric, in which two goroutines look up `k` and a third `l`. All loads of the count return 0, so `l` gets a real metric above the limit; two `UpdateWithError`
calls on `k` and one on `l` make their steps in turns. Both of the first are counted in one compass, the third in another. -/
example :
    let q : Req := { target := .direct 0, kind := .compass, name := { hash := [107] } }
    let q' : Req := { target := .direct 0, kind := .compass, name := { hash := [108] } }
    let env : NewEnvs := ⟨⟨0, 0, 0⟩, ⟨0, 0, 0⟩⟩
    let sp (q : Req) : AppAny.Event AppWild.Use NewEnvs := .reg (.spawn (.lookup q)) env
    let st (i : Nat) : AppAny.Event AppWild.Use NewEnvs := .reg (.step i ⟨some 0, some false⟩) env
    let b : BucketCounter := BucketCounter.new 7 2 5 true
    let x (t : Nat) : AppWild.In := ⟨⟨400000000 * t, if t % 7 = 0 then 0 else 3000000000⟩, ⟨1500 * t, t, t % 2 = 0, t / 3⟩, some (.fin t),
      ⟨⟨1500 * t, t, t % 3 = 0, t / 2⟩, t, ⟨b, b⟩⟩, ⟨0, 1000, .nan⟩, 0⟩
    let es := [sp q, sp q, sp q'] ++ (List.replicate 6 [st 0, st 1]).flatten ++ List.replicate 6 (st 2) ++
      [.use 0 (.compass (.update 5 ⟨true, "", ""⟩)), .use 1 (.compass (.update 7 ⟨false, "e", ""⟩)), .use 2 (.compass (.update 1 ⟨true, "", ""⟩))] ++
      (List.range 120).flatMap (fun t => [.use 1 (.step 0 (x t)), .use 0 (.step 1 (x (t + 1))), .use 2 (.step 0 (x t))])
    let count (n : Nat) := match (run (wild .exact ⟨.exact, id⟩) (start [1]) es).objs n with
      | some (.bucket _ c) => (c.calls.map Whole.Call.over, c.shared.marks.shared.total.getCount, c.shared.res.shared.getCount)
      | _ => ([], 0, 0)
    .done q (some 0) (creator .compass 2 0) ∈ (anyRun [1] (regEvents es)).calls ∧
    .done q' (some 0) (creator .compass 2 2) ∈ (anyRun [1] (regEvents es)).calls ∧
    (updates (usesThrough [1] q.target q.name.hash es)).map Prod.fst = [5, 7] ∧
    count 0 = ([true, true], 2, 12) ∧ count 2 = ([true], 1, 1) := by
  refine ⟨by decide +kernel, by decide +kernel, by decide +kernel, by decide +kernel, by decide +kernel⟩

end GoMetrics
