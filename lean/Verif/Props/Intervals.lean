import Verif.Proofs.Intervals
import Verif.Props.AppAny
/-! # C122: intervals never report more than was counted

What a counter reports for single intervals may be less than what was counted (C107, C17: late calls, buckets replaced). It is never more: under all the executions of C107 and C121 - whatever
unsynchronised loads return - and at every moment, no call is reported by two intervals, and none that was not made. -/
namespace GoMetrics
open Registry Spec
open App (Kit State NewEnvs start)
open AppWild (updates wild)
open Whole (recorded finished)
open AppAny (Asked usesThrough regEvents run)

/-- **C122.** A bucket counter, used by any number of goroutines: at every moment the intervals that a query reports have each the int64 sum of some of the calls' arguments, no call in two of
them. -/
theorem C122_counter (interval : Int) (N : Nat) (t0 : Int) (u : Bool) (es : List (Ev Int BucketCounter.Seen)) :
    ReportsPartsOf (BucketCounter.wildAfter interval N t0 u es).shared ((BucketCounter.wildAfter interval N t0 u es).calls.map BucketCounter.Call.n) :=
  BucketCounter.reports_parts interval N t0 u es

namespace AppWild
open Whole

/-- What a compass with a bucket reservoir reports for intervals, after whatever events. -/
theorem compass_intervals (R : Rounding) (l now t1 t2 tv : Int) (us : List AppWild.Use) :
    let c := Whole.wildBucketUsed R (levelNanos l) 10 20 20 now t1 t2 tv (us.filterMap (Use.onCompass In.bucket))
    let calls := updates us
    let m := c.shared.marks.shared
    ReportsPartsOf m.total (calls.map fun _ => 1) ∧
    ReportsPartsOf m.success ((calls.filter fun e => e.2.isSuccess).map fun _ => 1) ∧
    (∀ code b, (m.lab false).counters.get? code = some b → ReportsPartsOf b ((calls.filter fun e => e.2.errorCode = code).map fun _ => 1)) ∧
    (∀ addon b, (m.lab true).counters.get? addon = some b → ReportsPartsOf b ((calls.filter fun e => e.2.addon = addon).map fun _ => 1)) ∧
    ReportsPartsOf c.shared.res.shared (calls.map Prod.fst) := by
  intro c calls m
  have hrec : recorded c = calls := recorded_eq R (levelNanos l) 10 20 20 now t1 t2 tv us
  have hinv := WholeWild.wildBucket_inv R (levelNanos l) 10 20 20 now t1 t2 tv (us.filterMap (Use.onCompass In.bucket))
  change WholeWild.Inv _ _ _ _ _ _ _ c at hinv
  obtain ⟨es1, he1, -⟩ := hinv.marks
  have hm : c.shared.marks = CompassWild.wildMarked (levelNanos l) 10 20 20 t1 t2 es1 := he1
  have hp := CompassWild.marks_parts (levelNanos l) (AppConc.levelNanos_ge l) 10 20 20 t1 t2 es1
  simp only [← hm] at hp
  have hs := WholeWild.started_marks hinv
  rw [hrec] at hs
  have hall : (c.shared.marks.calls.map fun _ => (1 : Int)).Subperm (calls.map fun _ => 1) := by
    have := subperm_map (fun _ => (1 : Int)) hs
    rwa [List.map_map, List.map_map] at this
  have hsel : ∀ f : CompassConc.MarkArg → Bool,
      ((c.shared.marks.calls.filter fun k => f k.arg).map fun _ => (1 : Int)).Subperm ((calls.filter fun e => f e.2).map fun _ => 1) := by
    intro f
    have := subperm_map (fun _ => (1 : Int)) (hs.filter f)
    rwa [List.filter_map, List.filter_map, List.map_map, List.map_map] at this
  refine ⟨hp.1.mono hall, hp.2.1.mono (hsel _), fun code b hb => (hp.2.2 false code b hb).mono (hsel fun a => decide (a.errorCode = code)),
    fun addon b hb => (hp.2.2 true addon b hb).mono (hsel fun a => decide (a.addon = addon)), ?_⟩
  obtain ⟨es', e1, e2⟩ := WholeWild.wildBucket_reservoir hinv
  rw [e1]
  refine (BucketCounter.reports_parts (levelNanos l) 10 tv true es').mono ?_
  rw [← e2, ← hrec]
  refine List.Subperm.trans (List.Sublist.subperm ?_) (WholeWild.started_arg hinv)
  generalize c.shared.res.calls = l
  induction l with
  | nil => exact List.Sublist.refl _
  | cons k l ih =>
    cases k with
    | snap pc => exact ih
    | upd c => exact ih.cons_cons _

end AppWild

/-- **C122.** The compass behind the result of a finished `GetCompass` that is not the no-op, at every moment of every run, whatever any plain load of the program returns: what it reports
for intervals as calls, successes, calls with an error code or an addon are parts, which do not overlap, of the calls that were begun through results of lookups of that key - of those with
success, with that code or addon -, and the sums of durations are those of parts of these calls, which do not overlap either. -/
theorem C122_compass (R : Rounding) (A : EDR.Arith) (limits : List Int) (es : List (AppAny.Event AppWild.Use NewEnvs))
    (hes : ∀ a, Ev.spawn a ∈ regEvents es → a.ok limits.length)
    (q : Req) (hq : q.kind = .compass) (r : Option Nat) (id : Nat) (p : Params) (h : .done q r (.real id p) ∈ (anyRun limits (regEvents es)).calls) :
    ∃ l, Asked limits es q l ∧ ∃ c, (run (wild R A) (start limits) es).objs id = some (.bucket (levelNanos l) c) ∧
      let calls := updates (usesThrough limits q.target q.name.hash es)
      let m := c.shared.marks.shared
      ReportsPartsOf m.total (calls.map fun _ => 1) ∧
      ReportsPartsOf m.success ((calls.filter fun e => e.2.isSuccess).map fun _ => 1) ∧
      (∀ code b, (m.lab false).counters.get? code = some b → ReportsPartsOf b ((calls.filter fun e => e.2.errorCode = code).map fun _ => 1)) ∧
      (∀ addon b, (m.lab true).counters.get? addon = some b → ReportsPartsOf b ((calls.filter fun e => e.2.addon = addon).map fun _ => 1)) ∧
      ReportsPartsOf c.shared.res.shared (calls.map Prod.fst) := by
  obtain ⟨l, hl, now, t1, t2, tv, he⟩ := AppAny.behind_compass R A limits es hes q hq r id p h
  exact ⟨l, hl, _, he, AppWild.compass_intervals R l now t1 t2 tv _⟩

/-- **C122.** So as long as there were fewer than 2^63 calls, no interval reports a negative number, and all intervals together never more than there were calls. -/
theorem C122_sum (b : BucketCounter) (n : Nat) (hn : (n : Int) < 2 ^ 63) (h : ReportsPartsOf b (List.replicate n 1)) (t s : Int) (m : GoMap Int Int)
    (hm : b.getBucketCountsSince t s = some m) :
    (∀ k v, m.get? k = some v → 0 ≤ v) ∧
    ∀ ks : List Int, ks.Nodup → (∀ k ∈ ks, ∃ v, m.get? k = some v) → (ks.map fun k => (m.get? k).getD 0).sum ≤ n := by
  obtain ⟨part, h1, h2⟩ := h b.buckets t s m hm
  have hone : ∀ ks : List Int, ks.Nodup → (∀ k ∈ ks, ∃ v, m.get? k = some v) →
      (ks.map part).flatten.sum = (ks.map part).flatten.length ∧ (ks.map part).flatten.length ≤ n := by
    intro ks hk hks
    have hs := h2 ks hk hks
    refine ⟨?_, by simpa using hs.length_le⟩
    have : ∀ x ∈ (ks.map part).flatten, x = 1 := fun x hx => List.eq_of_mem_replicate (hs.subset hx)
    generalize (ks.map part).flatten = l at this
    induction l with
    | nil => rfl
    | cons a l ih =>
      rw [List.sum_cons, List.length_cons, ih fun x hx => this x (by simp [hx]), this a (by simp)]
      push_cast; ring
  have hv : ∀ k v, m.get? k = some v → v = ((part k).length : Int) ∧ (part k).sum = ((part k).length : Int) := by
    intro k v hk
    have := hone [k] (by simp) (by intro k' hk'; rw [List.mem_singleton.1 hk']; exact ⟨v, hk⟩)
    simp only [List.map_cons, List.map_nil, List.flatten_cons, List.flatten_nil, List.append_nil] at this
    have hle := this.2
    refine ⟨?_, this.1⟩
    rw [(h1 k v hk).1, this.1]
    exact i64_of_in (by unfold InI64; omega)
  refine ⟨fun k v hk => by rw [(hv k v hk).1]; exact Int.natCast_nonneg _, fun ks hk hks => ?_⟩
  have := hone ks hk hks
  have e : (ks.map fun k => (m.get? k).getD 0).sum = (ks.map part).flatten.sum := by
    rw [List.sum_flatten, List.map_map]
    congr 1
    apply List.map_congr_left
    intro k hk'
    obtain ⟨v, hk''⟩ := hks k hk'
    simp only [hk'', Option.getD_some, Function.comp]
    rw [(hv k v hk'').1, (hv k v hk'').2]
  rw [e]
  omega

/-- Two calls, the second of which does not see that there is a bucket for their interval already: the total is 12, one interval is reported, with 5. The part of it is the first call. -/
example :
    let b := (BucketCounter.wildAfter 60000000000 3 0 true (BucketCounter.alone 0 5 ⟨60000, 0, false, 0⟩ ++ BucketCounter.alone 1 7 ⟨60000, 4, true, 1⟩)).shared
    b.getBucketCountsSince 60000 0 = some [(60000, 5)] ∧ ReportsPartsOf b [5, 7] := by
  refine ⟨by decide +kernel, ?_⟩
  have := C122_counter 60000000000 3 0 true (BucketCounter.alone 0 5 ⟨60000, 0, false, 0⟩ ++ BucketCounter.alone 1 7 ⟨60000, 4, true, 1⟩)
  have e : (BucketCounter.wildAfter 60000000000 3 0 true (BucketCounter.alone 0 5 ⟨60000, 0, false, 0⟩ ++ BucketCounter.alone 1 7 ⟨60000, 4, true, 1⟩)).calls.map
      BucketCounter.Call.n = [5, 7] := by decide +kernel
  rwa [e] at this

/-- Three calls in two intervals, all seen: 12 and 3, which is all there was. -/
example :
    let b := (BucketCounter.wildAfter 60000000000 3 0 true (BucketCounter.alone 0 5 ⟨60000, 0, false, 0⟩ ++ BucketCounter.alone 1 7 ⟨60000, 4, false, 1⟩ ++
      BucketCounter.alone 2 3 ⟨120000, 4, false, 1⟩)).shared
    (b.getBucketCountsSince 120000 0).map (fun m => (m.get? 60000, m.get? 120000, m.length)) = some (some 12, some 3, 2) := by
  decide +kernel

/-- A specification that can fail: a counter that reports one call in two intervals does not satisfy it. -/
example : ¬ ReportsPartsOf { BucketCounter.new 60000000000 3 0 true with heap := [⟨60, 1⟩, ⟨120, 1⟩], buckets := ⟨[1, 0, 1], 2⟩ } [1] := by
  intro h
  obtain ⟨part, h1, h2⟩ := h ⟨[1, 0, 1], 2⟩ 120000 0 [(120000, 1), (60000, 1)] (by decide +kernel)
  have h3 := h2 [60000, 120000] (by decide) (by
    intro k hk
    simp only [List.mem_cons, List.not_mem_nil, or_false] at hk
    rcases hk with rfl | rfl <;> exact ⟨1, by decide +kernel⟩)
  have a := (h1 60000 1 (by decide +kernel)).1
  have b := (h1 120000 1 (by decide +kernel)).1
  have hl := h3.length_le
  simp only [List.map_cons, List.map_nil, List.flatten_cons, List.flatten_nil, List.append_nil, List.length_append, List.length_cons, List.length_nil] at hl
  have ha : part 60000 ≠ [] := by intro e; rw [e] at a; revert a; decide +kernel
  have hb : part 120000 ≠ [] := by intro e; rw [e] at b; revert b; decide +kernel
  have := List.length_pos_iff.2 ha
  have := List.length_pos_iff.2 hb
  omega

end GoMetrics
