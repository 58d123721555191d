import Verif.Spec.FairAppWild
import Verif.Props.AppWild
import Verif.Props.WildFair
import Verif.Props.FairApp
/-! # C113: whatever plain loads return, under a fair scheduler a whole program comes to rest

The proofs are those of Props/FairApp.lean. -/
namespace GoMetrics
open Machine

namespace AppWild
open Registry
open App hiding Obj
open AppConc (Obj)

variable (R : Rounding) (A : EDR.Arith) (limits : List Int) (before : List (Event Use NewEnvs)) (g : Nat → Event Use NewEnvs)

theorem after_succ (k : Nat) : after R A limits before g (k + 1) = apply (wild R A) (after R A limits before g k) (g k) := by
  unfold after
  rw [List.range_succ, List.map_append, ← List.append_assoc]
  exact run_snoc _ _ _ _

theorem after_shift (m k : Nat) : after R A limits before g (m + k) = after R A limits (before ++ (List.range m).map g) (fun k => g (m + k)) k := by
  induction k with
  | zero => simp [after]
  | succ k ih => rw [← Nat.add_assoc, after_succ, after_succ, ih]

/-- The call of a lookup that has a step. -/
def regHit : Event Use NewEnvs → Option (Nat × Unit)
  | .reg (.step i x) _ => some (i, x)
  | _ => none

theorem pool_eq (hq : ∀ k, Quiet (g k)) (k : Nat) : (after R A limits before g k).pool =
    Registry.conc.run (after R A limits before g 0).pool (firstTurns (turnsOf (after R A limits before g 0).pool.calls.length () fun k => regHit (g k)) k) := by
  refine stutter Registry.conc _ () _ (fun k => (after R A limits before g k).pool) rfl ?_ ?_ k
  · intro k j x h
    simp only [after_succ]
    cases hg : g k with
    | use i u => rw [hg] at h; cases h
    | reg e env =>
      cases e with
      | spawn a => rw [hg] at h; cases h
      | step i y =>
        rw [hg] at h
        simp only [regHit, Option.some.injEq, Prod.mk.injEq] at h
        obtain ⟨rfl, -⟩ := h
        rfl
  · intro k h
    simp only [after_succ]
    have := hq k
    cases hg : g k with
    | use i u => rfl
    | reg e env =>
      cases e with
      | spawn a => rw [hg] at this; exact this.elim
      | step i y => rw [hg] at h; cases h

theorem before_pool : (after R A limits before g 0).pool = regRun limits (regEvents before) := by
  unfold after
  rw [run_pool]
  simp

theorem schedOk_after (hes : SchedOk limits.length (regEvents before)) (hq : ∀ k, Quiet (g k)) (k : Nat) :
    SchedOk limits.length (regEvents (before ++ (List.range k).map g)) := by
  intro a ha
  rw [regEvents_append] at ha
  rcases List.mem_append.1 ha with h | h
  · exact hes a h
  · exfalso
    induction k with
    | zero => simp [regEvents] at h
    | succ k ih =>
      rw [List.range_succ, List.map_append, regEvents_append] at h
      rcases List.mem_append.1 h with h | h
      · exact ih (List.mem_append_right _ h) h
      · have := hq k
        simp only [List.map_cons, List.map_nil] at h
        cases hg : g k with
        | use i u => rw [hg] at h; simp [regEvents] at h
        | reg e env =>
          cases e with
          | spawn a => rw [hg] at this; exact this.elim
          | step i y => rw [hg] at h; simp [regEvents] at h

/-- All lookups end. -/
theorem lookups_end (hq : ∀ k, Quiet (g k)) (hf : FairTo R A limits before g) : ∃ m, ∀ k, m ≤ k → ∀ c ∈ (after R A limits before g k).pool.calls, c.ended = true := by
  have hp : (after R A limits before g 0).pool = Registry.conc.run (Machine.start (initial limits)) (regEvents before) := before_pool R A limits before g
  obtain ⟨m, hm⟩ := C100_registry (initial limits) (regEvents before) (turnsOf (after R A limits before g 0).pool.calls.length () fun k => regHit (g k)) (by
    rw [← hp]
    refine stutter_fair _ _ _ ?_
    intro j hj m
    obtain ⟨k, h1, env, h2⟩ := hf.1 j hj m
    exact ⟨k, h1, (), by rw [h2]; rfl⟩)
  refine ⟨m, fun k hk c hc => hm k hk c ?_⟩
  rw [Machine.run_append, ← hp, ← pool_eq R A limits before g hq k]
  exact hc

/-- The step of a call on metric `id`. -/
def useHit (s : State Obj) (id : Nat) : Event Use NewEnvs → Option (Nat × In)
  | .use i (.step j x) =>
    match s.pool.calls[i]? with
    | some (.done _ _ (.real id' _)) => if id' = id then some (j, x) else none
    | _ => none
  | _ => none

/-- What one event does to an object that is there. -/
theorem obj_next {s : State Obj} {id : Nat} {o : Obj} (hid : id < s.pool.shared.fresh) (ho : s.objs id = some o) (e : Event Use NewEnvs) (hq : Quiet e) :
    (apply (wild R A) s e).objs id = some (match useHit s id e with | some (j, x) => use R A o (.step j x) | none => o) := by
  cases e with
  | reg e env =>
    cases e with
    | spawn a => exact hq.elim
    | step i x =>
      simp only [useHit, App.apply, created]
      cases hc : s.pool.calls[i]? with
      | none => exact ho
      | some c =>
        cases c with
        | create q r =>
          obtain ⟨p, hp⟩ := creator_real q.kind q.name.level s.pool.shared.fresh
          simp only [hp]
          rw [if_neg (by omega)]
          exact ho
        | _ => exact ho
  | use i u =>
    cases u with
    | compass u => exact hq.elim
    | fast a => exact hq.elim
    | step j x =>
      simp only [useHit, App.apply, App.used]
      cases hc : s.pool.calls[i]? with
      | none => exact ho
      | some c =>
        cases c with
        | done q r m =>
          cases m with
          | nop k => exact ho
          | real id' p =>
            simp only
            by_cases h : id' = id
            · subst h
              rw [if_pos rfl, if_pos rfl, ho]; rfl
            · rw [if_neg (Ne.symm h), if_neg h]; exact ho
        | _ => exact ho

theorem useHit_of_stepOf {s : State Obj} {id j : Nat} {e : Event Use NewEnvs} (h : StepOf s id j e) : ∃ x, useHit s id e = some (j, x) := by
  obtain ⟨i, x, q, r, p, rfl, h⟩ := h
  exact ⟨x, by simp [useHit, h]⟩

/-- A result that was there before is there for good. -/
theorem result_stays {q : Req} {r : Option Nat} {m : Metric} (hq : ∀ k, Quiet (g k)) (h : .done q r m ∈ (after R A limits before g 0).pool.calls) (k : Nat) :
    .done q r m ∈ (after R A limits before g k).pool.calls := by
  obtain ⟨i, hi⟩ := List.mem_iff_getElem?.1 h
  rw [pool_eq R A limits before g hq k]
  exact List.mem_of_getElem? (done_stays _ _ i q r m hi)

theorem fresh_after {q : Req} {r : Option Nat} {id : Nat} {p : Params} (hes : SchedOk limits.length (regEvents before)) (hq : ∀ k, Quiet (g k))
    (h : .done q r (.real id p) ∈ (after R A limits before g 0).pool.calls) (k : Nat) : id < (after R A limits before g k).pool.shared.fresh :=
  ((App.inv_all (wild R A) limits _ (schedOk_after limits before g hes hq k)).calls _ (result_stays R A limits before g hq h k) (.real id p) rfl).1

/-- The object of a result, from now on: a machine whose calls get turns. -/
theorem obj_run {q : Req} {r : Option Nat} {id : Nat} {p : Params} (hes : SchedOk limits.length (regEvents before)) (hq : ∀ k, Quiet (g k))
    (h : .done q r (.real id p) ∈ (after R A limits before g 0).pool.calls) {S C U I : Type} (M : Machine S C U I) (mk : Pool S C → Obj) (conv : In → I) (x0 : I)
    (hmk : ∀ P j x, use R A (mk P) (.step j x) = mk (M.apply P (.step j (conv x)))) (p0 : Pool S C) (h0 : (after R A limits before g 0).objs id = some (mk p0)) (k : Nat) :
    (after R A limits before g k).objs id =
      some (mk (M.run p0 (firstTurns (turnsOf p0.calls.length x0 fun k => (useHit (after R A limits before g k) id (g k)).map fun y => (y.1, conv y.2)) k))) := by
  -- the pools, step by step
  let P : Nat → Pool S C := fun k => Nat.rec p0 (fun k P => match useHit (after R A limits before g k) id (g k) with | some (j, x) => M.apply P (.step j (conv x)) | none => P) k
  have hP : ∀ k, P (k + 1) = match useHit (after R A limits before g k) id (g k) with | some (j, x) => M.apply (P k) (.step j (conv x)) | none => P k := fun k => rfl
  have hobj : ∀ k, (after R A limits before g k).objs id = some (mk (P k)) := by
    intro k
    induction k with
    | zero => exact h0
    | succ k ih =>
      rw [after_succ, obj_next R A (fresh_after R A limits before g hes hq h k) ih (g k) (hq k), hP]
      cases useHit (after R A limits before g k) id (g k) with
      | none => rfl
      | some y => simp only [hmk]
  rw [hobj, ← stutter M p0 x0 (fun k => (useHit (after R A limits before g k) id (g k)).map fun y => (y.1, conv y.2)) P rfl]
  · intro k j x hk
    rw [hP]
    cases hy : useHit (after R A limits before g k) id (g k) with
    | none => rw [hy] at hk; cases hk
    | some y =>
      rw [hy] at hk
      simp only [Option.map_some, Option.some.injEq, Prod.mk.injEq] at hk
      obtain ⟨rfl, rfl⟩ := hk
      rfl
  · intro k hk
    rw [hP]
    cases hy : useHit (after R A limits before g k) id (g k) with
    | none => rfl
    | some y => rw [hy] at hk; cases hk

/-- Something to give to a call that does not exist. -/
def idleIn (bi : Int) : Whole.InBy CompassConc.TickSeen BucketCounter.Seen Whole.BucketSeen :=
  ⟨⟨0, 0⟩, ⟨0, 0, false, 0⟩, ⟨⟨0, 0, false, 0⟩, 0, ⟨BucketCounter.new bi 10 0 true, BucketCounter.new bi 10 0 true⟩⟩, none⟩

theorem rings_before (q : Req) (hb : ∀ e ∈ before, Rings e) (i : Nat) (x : Whole.InBy CompassConc.TickSeen BucketCounter.Seen Whole.BucketSeen)
    (h : .step i x ∈ (usesThrough limits q.target q.name.hash before).filterMap (Use.onCompass In.bucket)) (b : BucketCounter)
    (hbx : b = x.res.found.count ∨ b = x.res.found.value) : b.buckets.queue.length = 10 + 1 ∧ b.buckets.current ≤ 10 := by
  obtain ⟨u, hu, hx⟩ := List.mem_filterMap.1 h
  cases u with
  | compass u => simp [Use.onCompass] at hx
  | fast a => simp [Use.onCompass] at hx
  | step j y =>
    simp only [Use.onCompass, Option.some.injEq, Ev.step.injEq] at hx
    obtain ⟨rfl, rfl⟩ := hx
    obtain ⟨n, -, hn⟩ := List.mem_filterMap.1 hu
    cases he : before[n]? with
    | none => rw [he] at hn; cases hn
    | some e =>
      rw [he] at hn
      cases e with
      | reg e env => cases hn
      | use i' u =>
        simp only at hn
        have hu' : u = .step j y := by
          cases hc : (regRun limits (regEvents (before.take n))).calls[i']? with
          | none => rw [hc] at hn; cases hn
          | some c =>
            rw [hc] at hn
            cases c with
            | done q' r m =>
              cases r with
              | none => cases hn
              | some r =>
                simp only at hn
                by_cases hk : q'.target = q.target ∧ q'.name.hash = q.name.hash
                · rw [if_pos hk] at hn; exact Option.some.inj hn
                · rw [if_neg hk] at hn; cases hn
            | _ => cases hn
        subst hu'
        exact hb _ (List.mem_of_getElem? he) i' j y rfl b hbx

theorem rings_later (hx : ∀ k, Rings (g k)) (id : Nat) (bi : Int) (len : Nat) (k : Nat) (b : BucketCounter)
    (hb : b = (turnsOf len (idleIn bi) (fun k => (useHit (after R A limits before g k) id (g k)).map fun y => (y.1, (⟨y.2.tick, y.2.time, y.2.bucket, y.2.rate⟩ :
        Whole.InBy CompassConc.TickSeen BucketCounter.Seen Whole.BucketSeen))) k).2.res.found.count ∨
      b = (turnsOf len (idleIn bi) (fun k => (useHit (after R A limits before g k) id (g k)).map fun y => (y.1, (⟨y.2.tick, y.2.time, y.2.bucket, y.2.rate⟩ :
        Whole.InBy CompassConc.TickSeen BucketCounter.Seen Whole.BucketSeen))) k).2.res.found.value) : b.buckets.queue.length = 10 + 1 ∧ b.buckets.current ≤ 10 := by
  cases hy : useHit (after R A limits before g k) id (g k) with
  | none =>
    simp only [turnsOf, hy, Option.map_none, Option.getD_none] at hb
    have := BucketCounter.sane_after bi 10 0 true []
    rcases hb with rfl | rfl <;> exact this
  | some y =>
    obtain ⟨j, y⟩ := y
    simp only [turnsOf, hy, Option.map_some, Option.getD_some] at hb
    cases hg : g k with
    | reg e env => rw [hg] at hy; cases hy
    | use i u =>
      rw [hg] at hy
      cases u with
      | compass u => cases hy
      | fast a => cases hy
      | step j' y' =>
        have e : y' = y := by
          simp only [useHit] at hy
          cases hc : (after R A limits before g k).pool.calls[i]? with
          | none => rw [hc] at hy; cases hy
          | some c =>
            rw [hc] at hy
            cases c with
            | done q' r m =>
              cases m with
              | nop k => cases hy
              | real id' p =>
                simp only at hy
                by_cases h : id' = id
                · rw [if_pos h] at hy
                  exact (Prod.mk.inj (Option.some.inj hy)).2
                · rw [if_neg h] at hy; cases hy
            | _ => cases hy
        subst e
        exact hx k i j' y' hg b hb

/-- All calls on the metric of a result end. -/
theorem calls_end {q : Req} {r : Option Nat} {id : Nat} {p : Params} (hes : SchedOk limits.length (regEvents before)) (hq : ∀ k, Quiet (g k))
    (hf : ∀ m o, (after R A limits before g m).objs id = some o → ∀ j < o.over.length, ∃ k, m ≤ k ∧ StepOf (after R A limits before g k) id j (g k))
    (hb : ∀ e ∈ before, Rings e) (hx : ∀ k, Rings (g k)) (h : .done q r (.real id p) ∈ (after R A limits before g 0).pool.calls) :
    ∃ m, ∀ k, m ≤ k → ∃ o, (after R A limits before g k).objs id = some o ∧ ∀ b ∈ o.over, b = true := by
  have h' : .done q r (.real id p) ∈ (regRun limits (regEvents before)).calls := by rw [before_pool] at h; exact h
  have e0 : after R A limits before g 0 = run (wild R A) (start limits) before := by simp [after]
  have fair : ∀ {S C U I : Type} (M : Machine S C U I) (mk : Pool S C → Obj) (conv : In → I) (x0 : I) (p0 : Pool S C),
      (∀ P, (mk P).over.length = P.calls.length) → (∀ P j x, use R A (mk P) (.step j x) = mk (M.apply P (.step j (conv x)))) →
      (after R A limits before g 0).objs id = some (mk p0) →
      Fair (fun _ => True) p0.calls.length (turnsOf p0.calls.length x0 fun k => (useHit (after R A limits before g k) id (g k)).map fun y => (y.1, conv y.2)) := by
    intro S C U I M mk conv x0 p0 hov hmk h0
    refine stutter_fair _ _ _ ?_
    intro j hj m
    have hm := obj_run R A limits before g hes hq h M mk conv x0 hmk p0 h0 m
    obtain ⟨k, h1, h2⟩ := hf m _ hm j (by rw [hov, length_noSpawn M (noSpawn_firstTurns _ m)]; exact hj)
    obtain ⟨x, hx⟩ := useHit_of_stepOf h2
    exact ⟨k, h1, conv x, by rw [hx]; rfl⟩
  cases hk : q.kind with
  | compass =>
    obtain ⟨l, -, -, now, t1, t2, tv, ho⟩ := behind_compass R A limits before hes q hk r id p h'
    rw [← e0] at ho
    have hmk : ∀ (P : Pool (Whole.Parts BucketCounter Whole.BucketPC) Whole.Call) j (x : In), use R A (Obj.bucket (levelNanos l) P) (.step j x) =
      .bucket (levelNanos l) ((Whole.wildBucketCompass R (levelNanos l)).apply P (.step j ⟨x.tick, x.time, x.bucket, x.rate⟩)) := fun _ _ _ => rfl
    obtain ⟨m, hm⟩ := C110_ends_bucket R (levelNanos l) 10 20 20 now t1 t2 tv _ _ (rings_before limits before q hb) (rings_later R A limits before g hx id (levelNanos l) _)
      (fair (Whole.wildBucketCompass R (levelNanos l)) (.bucket (levelNanos l)) (fun x => ⟨x.tick, x.time, x.bucket, x.rate⟩) (idleIn (levelNanos l)) _
        (fun P => by simp [AppConc.Obj.over]) hmk ho)
    refine ⟨m, fun k hk => ⟨_, obj_run R A limits before g hes hq h (Whole.wildBucketCompass R (levelNanos l)) (.bucket (levelNanos l))
      (fun x => ⟨x.tick, x.time, x.bucket, x.rate⟩) (idleIn (levelNanos l)) hmk _ ho k, ?_⟩⟩
    intro b hb
    obtain ⟨c, hc, rfl⟩ := List.mem_map.1 hb
    refine hm k hk c ?_
    unfold Whole.wildBucketUsed
    rw [Machine.run_append]
    exact hc
  | fast =>
    obtain ⟨l, -, -, ho⟩ := behind_fast R A limits before hes q hk r id p h'
    rw [← e0] at ho
    have hmk : ∀ (P : Pool (Guard FastCompass FastCompassConc.Arg Int Bool) (GuardPC FastCompassConc.Arg (FastCompassConc.Arg × FastCompassConc.RecPC) Int Bool Empty Empty Empty)) j
      (x : In), use R A (Obj.fast P) (.step j x) = .fast (FastCompassConc.guarded.machine.apply P (.step j x.time.clock)) := fun _ _ _ => rfl
    obtain ⟨m, hm⟩ := C100_fast_compass (FastCompass.new (levelNanos l) 10 20) _ _
      (fair FastCompassConc.guarded.machine .fast (fun x => x.time.clock) 0 _ (fun P => by simp [AppConc.Obj.over]) hmk ho)
    refine ⟨m, fun k hk => ⟨_, obj_run R A limits before g hes hq h FastCompassConc.guarded.machine .fast (fun x => x.time.clock) 0 hmk _ ho k, ?_⟩⟩
    intro b hb
    obtain ⟨c, hc, rfl⟩ := List.mem_map.1 hb
    refine hm k hk c ?_
    rw [Machine.run_append]
    exact hc

end AppWild
open AppWild Registry App

/-- **C113.** A whole program whose plain loads in compasses return anything, except that a snapshot of a bucket reservoir finds rings of the
length that the constructor gave them and positions in them: registries, a manager, any number of lookups, `SetEnable` calls and calls on the metrics that were returned, overlapping in any way. Whatever
has happened: if nothing new starts and the scheduler is fair, the time comes when all lookups and all calls on the metrics they returned are over, and over they remain. -/
theorem C113_settles (R : Rounding) (A : EDR.Arith) (limits : List Int) (before : List (Event AppWild.Use NewEnvs)) (hes : SchedOk limits.length (regEvents before))
    (g : Nat → Event AppWild.Use NewEnvs) (hq : ∀ k, Quiet (g k))
    (hb : ∀ e ∈ before, Rings e) (hx : ∀ k, Rings (g k)) (hf : FairTo R A limits before g) :
    ∃ m, ∀ k, m ≤ k → AppConc.AtRest (AppWild.after R A limits before g k) := by
  obtain ⟨m, hm⟩ := lookups_end R A limits before g hq hf
  -- from here on no lookup does anything
  have hes' := schedOk_after limits before g hes hq m
  have hshift := after_shift R A limits before g m
  have hq' : ∀ k, Quiet (g (m + k)) := fun k => hq _
  have hend : ∀ k, (AppWild.after R A limits before g (m + k)).pool.calls = (AppWild.after R A limits before g m).pool.calls := by
    intro k
    induction k with
    | zero => rfl
    | succ k ih =>
      rw [← Nat.add_assoc, after_succ]
      have hq'' := hq (m + k)
      cases hg : g (m + k) with
      | use i u => exact ih
      | reg e env =>
        cases e with
        | spawn a => rw [hg] at hq''; exact hq''.elim
        | step i x =>
          rw [← ih]
          simp only [App.apply, Machine.apply]
          cases hc : (AppWild.after R A limits before g (m + k)).pool.calls[i]? with
          | none => rfl
          | some c =>
            have hce := hm (m + k) (by omega) c (List.mem_of_getElem? hc)
            have : (Registry.conc.step (AppWild.after R A limits before g (m + k)).pool.shared x c).2 = c := by
              cases c <;> first | rfl | (simp [PC.ended] at hce)
            show (AppWild.after R A limits before g (m + k)).pool.calls.set i _ = _
            rw [this]
            obtain ⟨hi, rfl⟩ := List.getElem?_eq_some_iff.1 hc
            exact List.set_getElem_self hi
  obtain ⟨m', hm'⟩ := AppConc.eventually_all (AppWild.after R A limits before g m).pool.calls
    (fun c k => ∀ q r id p, c = .done q r (.real id p) → ∃ o, (AppWild.after R A limits before g (m + k)).objs id = some o ∧ ∀ b ∈ o.over, b = true) (by
      intro c hc
      by_cases hd : ∃ q r id p, c = .done q r (.real id p)
      · obtain ⟨q, r, id, p, rfl⟩ := hd
        obtain ⟨m', h'⟩ := calls_end R A limits (before ++ (List.range m).map g) (fun k => g (m + k)) (id := id) (q := q) (r := r) (p := p) hes' hq' (by
            intro k o ho j hj
            rw [← hshift] at ho
            obtain ⟨n, h1, h2⟩ := hf.2 (m + k) id o ho j hj
            refine ⟨n - m, by omega, ?_⟩
            rw [← hshift, show m + (n - m) = n by omega]
            exact h2) (by
            intro e he
            rcases List.mem_append.1 he with he | he
            · exact hb e he
            · obtain ⟨n, -, rfl⟩ := List.mem_map.1 he
              exact hx n) (fun k => hx _) (by rw [← hshift]; exact hc)
        refine ⟨m', fun k hk q' r' id' p' e => ?_⟩
        cases e
        obtain ⟨o, h1, h2⟩ := h' k hk
        exact ⟨o, by rw [hshift]; exact h1, h2⟩
      · exact ⟨0, fun k _ q r id p e => absurd ⟨q, r, id, p, e⟩ hd⟩)
  refine ⟨m + m', fun k hk => ⟨hm k (by omega), ?_⟩⟩
  intro q r id p h
  have := hend (k - m)
  rw [show m + (k - m) = k by omega] at this
  rw [this] at h
  obtain ⟨o, h1, h2⟩ := hm' (k - m) (by omega) _ h q r id p rfl
  rw [show m + (k - m) = k by omega] at h1
  exact ⟨o, h1, h2⟩

/-- **C113.** And then the numbers of every compass that a finished `GetCompass` returned are exact: of all the calls ever begun through results of lookups of that key, nothing is lost
and nothing counted twice, whatever the loads have returned. -/
theorem C113_settles_counts (R : Rounding) (A : EDR.Arith) (limits : List Int) (before : List (Event AppWild.Use NewEnvs)) (hes : SchedOk limits.length (regEvents before))
    (g : Nat → Event AppWild.Use NewEnvs) (hq : ∀ k, Quiet (g k)) (hb : ∀ e ∈ before, Rings e) (hx : ∀ k, Rings (g k)) (hf : FairTo R A limits before g) :
    ∃ m, ∀ k, m ≤ k → ∀ q r id p, q.kind = .compass → .done q r (.real id p) ∈ (AppWild.after R A limits before g k).pool.calls →
      ∃ bi c, (AppWild.after R A limits before g k).objs id = some (.bucket bi c) ∧
        let calls := updates (usesThrough limits q.target q.name.hash (before ++ (List.range k).map g))
        let m := c.shared.marks.shared
        m.total.getCount = i64 calls.length ∧
        m.success.getCount = i64 (calls.countP fun e => e.2.isSuccess) ∧
        (∀ code b, (m.lab false).counters.get? code = some b → b.getCount = i64 (calls.countP fun e => e.2.errorCode = code)) ∧
        c.shared.res.shared.getCount = i64 (calls.map Prod.fst).sum := by
  obtain ⟨m, hm⟩ := C113_settles R A limits before hes g hq hb hx hf
  refine ⟨m, fun k hk q r id p hkind hmem => ?_⟩
  have hes' := schedOk_after limits before g hes hq k
  have hpool : (AppWild.after R A limits before g k).pool = regRun limits (regEvents (before ++ (List.range k).map g)) := by
    unfold AppWild.after
    rw [run_pool]
  obtain ⟨-, hrest⟩ := hm k hk
  obtain ⟨o, ho, hover⟩ := hrest q r id p hmem
  rw [hpool] at hmem
  obtain ⟨l1, -, c1, h1, -, -, -, -, -, -, -, -, hno⟩ := C113_anytime R A limits _ hes' q hkind r id p hmem
  obtain ⟨l2, -, c2, h2, hall⟩ := C113_quiescent R A limits _ hes' q hkind r id p hmem
  rw [h1] at h2
  obtain ⟨e1, e2⟩ := AppConc.Obj.bucket.inj (Option.some.inj h2)
  subst e2
  change (AppWild.after R A limits before g k).objs id = _ at h1
  rw [ho] at h1
  obtain rfl := Option.some.inj h1
  obtain ⟨a1, a2, a3, -, -, a6⟩ := hall (by
    intro d hd
    have hend : d.ended = true := hover _ (List.mem_map_of_mem hd)
    obtain ⟨n1, n2⟩ := hno d hd
    obtain ⟨use, pc⟩ := d
    cases pc <;> first | rfl | (cases hend; done) | exact absurd rfl (n1 _ _ _) | exact absurd rfl (n2 _ _))
  exact ⟨_, _, ho, a1, a2, a3, a6⟩

namespace AppWild

/-- A compass is looked up and an `UpdateWithError` begins; later the two get turns one after the other; loads return odd things. -/
def updBefore : List (Event Use NewEnvs) :=
  let env : NewEnvs := ⟨⟨0, 0, 0⟩, ⟨0, 0, 0⟩⟩
  [.reg (.spawn (.lookup { target := .direct 0, kind := .compass, name := { hash := [107] } })) env] ++ List.replicate 6 (.reg (.step 0 ()) env) ++ [.use 0 (.compass (.update 5 ⟨true, "", ""⟩))]

def oddIn : In := ⟨⟨9, -77⟩, ⟨1000, 3, true, 8⟩, none, ⟨⟨1000, 3, true, 8⟩, 1, ⟨BucketCounter.new 7 10 5 true, BucketCounter.new 9 10 6 true⟩⟩, ⟨0, 1000, .nan⟩, 0⟩

def updLater (k : Nat) : Event Use NewEnvs := if k % 2 = 0 then .reg (.step 0 ()) ⟨⟨0, 0, 0⟩, ⟨0, 0, 0⟩⟩ else .use 0 (.step 0 oddIn)

theorem upd_state (R : Rounding) (A : EDR.Arith) (m : Nat) :
    (after R A [10] updBefore updLater m).pool.calls = [.done { target := .direct 0, kind := .compass, name := { hash := [107] } } (some 0) (creator .compass 2 0)] ∧
    (∀ id, id ≠ 0 → (after R A [10] updBefore updLater m).objs id = none) ∧
    ∃ bi P, (after R A [10] updBefore updLater m).objs 0 = some (.bucket bi P) ∧ P.calls.length = 1 := by
  induction m with
  | zero =>
    refine ⟨by rw [before_pool]; decide +kernel, fun id hid => ?_, _, _, rfl, rfl⟩
    show (if id = 0 then _ else if id = 0 then _ else none) = none
    rw [if_neg hid, if_neg hid]
  | succ m ih =>
    obtain ⟨h1, h2, bi, P, h3, h4⟩ := ih
    rw [after_succ]
    generalize after R A [10] updBefore updLater m = s at *
    obtain ⟨⟨sh, calls⟩, objs⟩ := s
    simp only at h1 h2 h3
    subst h1
    unfold updLater
    by_cases hm : m % 2 = 0
    · rw [if_pos hm]
      exact ⟨rfl, h2, bi, P, h3, h4⟩
    · rw [if_neg hm]
      refine ⟨rfl, fun id hid => ?_, bi, (Whole.wildBucketCompass R bi).apply P (.step 0 ⟨oddIn.tick, oddIn.time, oddIn.bucket, oddIn.rate⟩), ?_, ?_⟩
      · show (if id = 0 then _ else objs id) = none
        rw [if_neg hid]; exact h2 id hid
      · show (objs 0).map _ = _
        rw [h3]; rfl
      · rw [← h4]
        cases hc : P.calls[0]? <;> simp only [Machine.apply, hc, List.length_set]

/-- The hypotheses of C113_settles and C113_settles_counts are met by this program, in which a call is under way. -/
theorem upd_meets (R : Rounding) (A : EDR.Arith) : SchedOk ([10] : List Int).length (regEvents updBefore) ∧ (∀ k, Quiet (updLater k)) ∧ (∀ e ∈ updBefore, Rings e) ∧ (∀ k, Rings (updLater k)) ∧
    FairTo R A [10] updBefore updLater ∧ ¬ AppConc.AtRest (after R A [10] updBefore updLater 0) := by
  have hodd : ∀ b, b = oddIn.bucket.found.count ∨ b = oddIn.bucket.found.value → b.buckets.queue.length = 11 ∧ b.buckets.current ≤ 10 := by
    rintro b (rfl | rfl) <;> decide +kernel
  refine ⟨?_, ?_, ?_, ?_, ⟨?_, ?_⟩, ?_⟩
  · intro a ha
    simp [updBefore, regEvents, List.replicate_succ] at ha
    subst ha
    simp [Call.ok]
  · intro k
    unfold updLater
    split <;> trivial
  · intro e he i j x h
    subst h
    simp [updBefore, List.replicate_succ] at he
  · intro k i j x h
    unfold updLater at h
    split at h
    · cases h
    · cases h; exact hodd
  · intro i hi m
    rw [(upd_state R A 0).1] at hi
    obtain rfl : i = 0 := by simpa using hi
    exact ⟨2 * m, by omega, ⟨⟨0, 0, 0⟩, ⟨0, 0, 0⟩⟩, by unfold updLater; rw [if_pos (by omega)]⟩
  · intro m id o ho j hj
    obtain ⟨-, h2, bi, P, h3, h4⟩ := upd_state R A m
    by_cases hid : id = 0
    · subst hid
      rw [h3] at ho
      obtain rfl := Option.some.inj ho
      obtain rfl : j = 0 := by simp only [AppConc.Obj.over, List.length_map, h4] at hj; omega
      refine ⟨2 * m + 1, by omega, 0, oddIn, { target := .direct 0, kind := .compass, name := { hash := [107] } }, some 0, .compass 0 10 (levelNanos 2) 20 20,
        by unfold updLater; rw [if_neg (by omega)], ?_⟩
      rw [(upd_state R A _).1]; rfl
    · rw [h2 id hid] at ho; cases ho
  · intro h
    obtain ⟨o, ho, hb⟩ := h.2 { target := .direct 0, kind := .compass, name := { hash := [107] } } (some 0) 0 (.compass 0 10 (levelNanos 2) 20 20) (by rw [(upd_state R A 0).1]; exact List.mem_singleton_self _)
    have e : ∃ bi P, (after R A [10] updBefore updLater 0).objs 0 = some (.bucket bi P) ∧ P.calls = [⟨.update 5 ⟨true, "", ""⟩, .start⟩] := ⟨_, _, rfl, rfl⟩
    obtain ⟨bi, P, e, hP⟩ := e
    rw [e] at ho
    obtain rfl := Option.some.inj ho
    have := hb false (by simp [AppConc.Obj.over, hP, Whole.Call.ended])
    cases this

end AppWild

end GoMetrics
