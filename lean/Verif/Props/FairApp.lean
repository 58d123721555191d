import Verif.Spec.FairApp
import Verif.Props.AppConc
import Verif.Props.FairBucket
import Verif.Props.Fair
/-! # C100: under a fair scheduler a whole program comes to rest -/
namespace GoMetrics
open Machine

namespace Machine
variable {S C A I : Type} (M : Machine S C A I)

/-- The turns of a machine that is one of many: a turn of another one is given to a call that does not exist. -/
def turnsOf (len : Nat) (x0 : I) (hits : Nat → Option (Nat × I)) (k : Nat) : Nat × I := (hits k).getD (len, x0)

theorem stutter (p0 : Pool S C) (x0 : I) (hits : Nat → Option (Nat × I)) (P : Nat → Pool S C) (h0 : P 0 = p0)
    (h1 : ∀ k j x, hits k = some (j, x) → P (k + 1) = M.apply (P k) (.step j x)) (h2 : ∀ k, hits k = none → P (k + 1) = P k) (k : Nat) :
    P k = M.run p0 (firstTurns (turnsOf p0.calls.length x0 hits) k) := by
  induction k with
  | zero => simpa [firstTurns, run] using h0
  | succ k ih =>
    rw [firstTurns_succ, run_snoc, ← ih]
    cases hk : hits k with
    | some y => simp only [turnsOf, hk, Option.getD_some]; exact h1 k y.1 y.2 hk
    | none =>
      rw [h2 k hk]
      have hl : (P k).calls.length = p0.calls.length := by rw [ih]; exact length_noSpawn M (noSpawn_firstTurns _ k)
      simp only [turnsOf, hk, Option.getD_none, apply]
      rw [List.getElem?_eq_none (by omega)]

theorem stutter_fair (len : Nat) (x0 : I) (hits : Nat → Option (Nat × I)) (h : ∀ j < len, ∀ m, ∃ k, m ≤ k ∧ ∃ x, hits k = some (j, x)) :
    Fair (fun _ => True) len (turnsOf len x0 hits) := by
  intro j hj m
  obtain ⟨k, hk, x, e⟩ := h j hj m
  exact ⟨k, hk, by simp [turnsOf, e], trivial⟩

end Machine

namespace AppConc
open Registry App

variable (R : Rounding) (A : EDR.Arith) (limits : List Int) (before : List (Event Use NewEnvs)) (g : Nat → Event Use NewEnvs)

theorem after_succ (k : Nat) : after R A limits before g (k + 1) = apply (small R A) (after R A limits before g k) (g k) := by
  unfold after
  rw [List.range_succ, List.map_append, ← List.append_assoc]
  exact run_snoc _ _ _ _

theorem after_shift (m k : Nat) : after R A limits before g (m + k) = after R A limits (before ++ (List.range m).map g) (fun k => g (m + k)) k := by
  induction k with
  | zero => simp [after]
  | succ k ih => rw [← Nat.add_assoc, after_succ, after_succ, ih]

/-- The call of a lookup that has a step. -/
def regHit : Event Use NewEnvs → Option (Nat × Unit)
  | .reg (.step i x) _ => some (i, x)
  | _ => none

theorem pool_eq (hq : ∀ k, Quiet (g k)) (k : Nat) : (after R A limits before g k).pool =
    Registry.conc.run (after R A limits before g 0).pool (firstTurns (turnsOf (after R A limits before g 0).pool.calls.length () fun k => regHit (g k)) k) := by
  refine stutter Registry.conc _ () _ (fun k => (after R A limits before g k).pool) rfl ?_ ?_ k
  · intro k j x h
    simp only [after_succ]
    cases hg : g k with
    | use i u => rw [hg] at h; cases h
    | reg e env =>
      cases e with
      | spawn a => rw [hg] at h; cases h
      | step i y =>
        rw [hg] at h
        simp only [regHit, Option.some.injEq, Prod.mk.injEq] at h
        obtain ⟨rfl, -⟩ := h
        rfl
  · intro k h
    simp only [after_succ]
    have := hq k
    cases hg : g k with
    | use i u => rfl
    | reg e env =>
      cases e with
      | spawn a => rw [hg] at this; exact this.elim
      | step i y => rw [hg] at h; cases h

theorem before_pool : (after R A limits before g 0).pool = regRun limits (regEvents before) := by
  unfold after
  rw [run_pool]
  simp

theorem schedOk_after (hes : SchedOk limits.length (regEvents before)) (hq : ∀ k, Quiet (g k)) (k : Nat) :
    SchedOk limits.length (regEvents (before ++ (List.range k).map g)) := by
  intro a ha
  rw [regEvents_append] at ha
  rcases List.mem_append.1 ha with h | h
  · exact hes a h
  · exfalso
    induction k with
    | zero => simp [regEvents] at h
    | succ k ih =>
      rw [List.range_succ, List.map_append, regEvents_append] at h
      rcases List.mem_append.1 h with h | h
      · exact ih (List.mem_append_right _ h) h
      · have := hq k
        simp only [List.map_cons, List.map_nil] at h
        cases hg : g k with
        | use i u => rw [hg] at h; simp [regEvents] at h
        | reg e env =>
          cases e with
          | spawn a => rw [hg] at this; exact this.elim
          | step i y => rw [hg] at h; simp [regEvents] at h

/-- All lookups end. -/
theorem lookups_end (hq : ∀ k, Quiet (g k)) (hf : FairTo R A limits before g) : ∃ m, ∀ k, m ≤ k → ∀ c ∈ (after R A limits before g k).pool.calls, c.ended = true := by
  have hp : (after R A limits before g 0).pool = Registry.conc.run (Machine.start (initial limits)) (regEvents before) := before_pool R A limits before g
  obtain ⟨m, hm⟩ := C100_registry (initial limits) (regEvents before) (turnsOf (after R A limits before g 0).pool.calls.length () fun k => regHit (g k)) (by
    rw [← hp]
    refine stutter_fair _ _ _ ?_
    intro j hj m
    obtain ⟨k, h1, env, h2⟩ := hf.1 j hj m
    exact ⟨k, h1, (), by rw [h2]; rfl⟩)
  refine ⟨m, fun k hk c hc => hm k hk c ?_⟩
  rw [Machine.run_append, ← hp, ← pool_eq R A limits before g hq k]
  exact hc

/-- The step of a call on metric `id`. -/
def useHit (s : State Obj) (id : Nat) : Event Use NewEnvs → Option (Nat × In)
  | .use i (.step j x) =>
    match s.pool.calls[i]? with
    | some (.done _ _ (.real id' _)) => if id' = id then some (j, x) else none
    | _ => none
  | _ => none

/-- What one event does to an object that is there. -/
theorem obj_next {s : State Obj} {id : Nat} {o : Obj} (hid : id < s.pool.shared.fresh) (ho : s.objs id = some o) (e : Event Use NewEnvs) (hq : Quiet e) :
    (apply (small R A) s e).objs id = some (match useHit s id e with | some (j, x) => o.use R A (.step j x) | none => o) := by
  cases e with
  | reg e env =>
    cases e with
    | spawn a => exact hq.elim
    | step i x =>
      simp only [useHit, App.apply, created]
      cases hc : s.pool.calls[i]? with
      | none => exact ho
      | some c =>
        cases c with
        | create q r =>
          obtain ⟨p, hp⟩ := creator_real q.kind q.name.level s.pool.shared.fresh
          simp only [hp]
          rw [if_neg (by omega)]
          exact ho
        | _ => exact ho
  | use i u =>
    cases u with
    | compass u => exact hq.elim
    | fast a => exact hq.elim
    | step j x =>
      simp only [useHit, App.apply, App.used]
      cases hc : s.pool.calls[i]? with
      | none => exact ho
      | some c =>
        cases c with
        | done q r m =>
          cases m with
          | nop k => exact ho
          | real id' p =>
            simp only
            by_cases h : id' = id
            · subst h
              rw [if_pos rfl, if_pos rfl, ho]; rfl
            · rw [if_neg (Ne.symm h), if_neg h]; exact ho
        | _ => exact ho

theorem useHit_of_stepOf {s : State Obj} {id j : Nat} {e : Event Use NewEnvs} (h : StepOf s id j e) : ∃ x, useHit s id e = some (j, x) := by
  obtain ⟨i, x, q, r, p, rfl, h⟩ := h
  exact ⟨x, by simp [useHit, h]⟩

/-- A result that was there before is there for good. -/
theorem result_stays {q : Req} {r : Option Nat} {m : Metric} (hq : ∀ k, Quiet (g k)) (h : .done q r m ∈ (after R A limits before g 0).pool.calls) (k : Nat) :
    .done q r m ∈ (after R A limits before g k).pool.calls := by
  obtain ⟨i, hi⟩ := List.mem_iff_getElem?.1 h
  rw [pool_eq R A limits before g hq k]
  exact List.mem_of_getElem? (done_stays _ _ i q r m hi)

theorem fresh_after {q : Req} {r : Option Nat} {id : Nat} {p : Params} (hes : SchedOk limits.length (regEvents before)) (hq : ∀ k, Quiet (g k))
    (h : .done q r (.real id p) ∈ (after R A limits before g 0).pool.calls) (k : Nat) : id < (after R A limits before g k).pool.shared.fresh :=
  ((App.inv_all (small R A) limits _ (schedOk_after limits before g hes hq k)).calls _ (result_stays R A limits before g hq h k) (.real id p) rfl).1

/-- The object of a result, from now on: a machine whose calls get turns. -/
theorem obj_run {q : Req} {r : Option Nat} {id : Nat} {p : Params} (hes : SchedOk limits.length (regEvents before)) (hq : ∀ k, Quiet (g k))
    (h : .done q r (.real id p) ∈ (after R A limits before g 0).pool.calls) {S C U I : Type} (M : Machine S C U I) (mk : Pool S C → Obj) (conv : In → I) (x0 : I)
    (hmk : ∀ P j x, (mk P).use R A (.step j x) = mk (M.apply P (.step j (conv x)))) (p0 : Pool S C) (h0 : (after R A limits before g 0).objs id = some (mk p0)) (k : Nat) :
    (after R A limits before g k).objs id =
      some (mk (M.run p0 (firstTurns (turnsOf p0.calls.length x0 fun k => (useHit (after R A limits before g k) id (g k)).map fun y => (y.1, conv y.2)) k))) := by
  -- the pools, step by step
  let P : Nat → Pool S C := fun k => Nat.rec p0 (fun k P => match useHit (after R A limits before g k) id (g k) with | some (j, x) => M.apply P (.step j (conv x)) | none => P) k
  have hP : ∀ k, P (k + 1) = match useHit (after R A limits before g k) id (g k) with | some (j, x) => M.apply (P k) (.step j (conv x)) | none => P k := fun k => rfl
  have hobj : ∀ k, (after R A limits before g k).objs id = some (mk (P k)) := by
    intro k
    induction k with
    | zero => exact h0
    | succ k ih =>
      rw [after_succ, obj_next R A (fresh_after R A limits before g hes hq h k) ih (g k) (hq k), hP]
      cases useHit (after R A limits before g k) id (g k) with
      | none => rfl
      | some y => simp only [hmk]
  rw [hobj, ← stutter M p0 x0 (fun k => (useHit (after R A limits before g k) id (g k)).map fun y => (y.1, conv y.2)) P rfl]
  · intro k j x hk
    rw [hP]
    cases hy : useHit (after R A limits before g k) id (g k) with
    | none => rw [hy] at hk; cases hk
    | some y =>
      rw [hy] at hk
      simp only [Option.map_some, Option.some.injEq, Prod.mk.injEq] at hk
      obtain ⟨rfl, rfl⟩ := hk
      rfl
  · intro k hk
    rw [hP]
    cases hy : useHit (after R A limits before g k) id (g k) with
    | none => rfl
    | some y => rw [hy] at hk; cases hk

/-- All calls on the metric of a result end. -/
theorem calls_end {q : Req} {r : Option Nat} {id : Nat} {p : Params} (hes : SchedOk limits.length (regEvents before)) (hq : ∀ k, Quiet (g k))
    (hf : ∀ m o, (after R A limits before g m).objs id = some o → ∀ j < o.over.length, ∃ k, m ≤ k ∧ StepOf (after R A limits before g k) id j (g k))
    (h : .done q r (.real id p) ∈ (after R A limits before g 0).pool.calls) :
    ∃ m, ∀ k, m ≤ k → ∃ o, (after R A limits before g k).objs id = some o ∧ ∀ b ∈ o.over, b = true := by
  have h' : .done q r (.real id p) ∈ (regRun limits (regEvents before)).calls := by rw [before_pool] at h; exact h
  have e0 : after R A limits before g 0 = run (small R A) (start limits) before := by simp [after]
  have fair : ∀ {S C U I : Type} (M : Machine S C U I) (mk : Pool S C → Obj) (conv : In → I) (x0 : I) (p0 : Pool S C),
      (∀ P, (mk P).over.length = P.calls.length) → (∀ P j x, (mk P).use R A (.step j x) = mk (M.apply P (.step j (conv x)))) →
      (after R A limits before g 0).objs id = some (mk p0) →
      Fair (fun _ => True) p0.calls.length (turnsOf p0.calls.length x0 fun k => (useHit (after R A limits before g k) id (g k)).map fun y => (y.1, conv y.2)) := by
    intro S C U I M mk conv x0 p0 hov hmk h0
    refine stutter_fair _ _ _ ?_
    intro j hj m
    have hm := obj_run R A limits before g hes hq h M mk conv x0 hmk p0 h0 m
    obtain ⟨k, h1, h2⟩ := hf m _ hm j (by rw [hov, length_noSpawn M (noSpawn_firstTurns _ m)]; exact hj)
    obtain ⟨x, hx⟩ := useHit_of_stepOf h2
    exact ⟨k, h1, conv x, by rw [hx]; rfl⟩
  cases hk : q.kind with
  | compass =>
    obtain ⟨l, -, -, now, t1, t2, tv, ho⟩ := behind_compass R A limits before hes q hk r id p h'
    rw [← e0] at ho
    have hmk : ∀ (P : Pool (Whole.Parts BucketCounter Whole.BucketPC) Whole.Call) j (x : In), (Obj.bucket (levelNanos l) P).use R A (.step j x) =
      .bucket (levelNanos l) ((Whole.bucketCompass R (levelNanos l)).apply P (.step j ⟨x.tick, x.time, (x.res.time, x.pick)⟩)) := fun _ _ _ => rfl
    obtain ⟨m, hm⟩ := C100_compass_bucket R (levelNanos l) 10 20 20 now t1 t2 tv _ _
      (fair (Whole.bucketCompass R (levelNanos l)) (.bucket (levelNanos l)) (fun x => ⟨x.tick, x.time, (x.res.time, x.pick)⟩) ⟨0, 0, (0, 0)⟩ _
        (fun P => by simp [Obj.over]) hmk ho)
    refine ⟨m, fun k hk => ⟨_, obj_run R A limits before g hes hq h (Whole.bucketCompass R (levelNanos l)) (.bucket (levelNanos l))
      (fun x => ⟨x.tick, x.time, (x.res.time, x.pick)⟩) ⟨0, 0, (0, 0)⟩ hmk _ ho k, ?_⟩⟩
    intro b hb
    obtain ⟨c, hc, rfl⟩ := List.mem_map.1 hb
    refine hm k hk c ?_
    unfold Whole.bucketUsed
    rw [Machine.run_append]
    exact hc
  | fast =>
    obtain ⟨l, -, -, ho⟩ := behind_fast R A limits before hes q hk r id p h'
    rw [← e0] at ho
    have hmk : ∀ (P : Pool (Guard FastCompass FastCompassConc.Arg Int Bool) (GuardPC FastCompassConc.Arg (FastCompassConc.Arg × FastCompassConc.RecPC) Int Bool Empty Empty Empty)) j
      (x : In), (Obj.fast P).use R A (.step j x) = .fast (FastCompassConc.guarded.machine.apply P (.step j x.time)) := fun _ _ _ => rfl
    obtain ⟨m, hm⟩ := C100_fast_compass (FastCompass.new (levelNanos l) 10 20) _ _
      (fair FastCompassConc.guarded.machine .fast (fun x => x.time) 0 _ (fun P => by simp [Obj.over]) hmk ho)
    refine ⟨m, fun k hk => ⟨_, obj_run R A limits before g hes hq h FastCompassConc.guarded.machine .fast (fun x => x.time) 0 hmk _ ho k, ?_⟩⟩
    intro b hb
    obtain ⟨c, hc, rfl⟩ := List.mem_map.1 hb
    refine hm k hk c ?_
    rw [Machine.run_append]
    exact hc

theorem eventually_all {α : Type} (l : List α) (P : α → Nat → Prop) (h : ∀ a ∈ l, ∃ m, ∀ k, m ≤ k → P a k) : ∃ m, ∀ k, m ≤ k → ∀ a ∈ l, P a k := by
  induction l with
  | nil => exact ⟨0, by simp⟩
  | cons a l ih =>
    obtain ⟨m1, h1⟩ := h a (by simp)
    obtain ⟨m2, h2⟩ := ih fun b hb => h b (List.mem_cons_of_mem _ hb)
    refine ⟨max m1 m2, fun k hk b hb => ?_⟩
    rcases List.mem_cons.1 hb with rfl | hb
    · exact h1 k (by omega)
    · exact h2 k (by omega) b hb

end AppConc
open AppConc Registry App

/-- **C100.** A whole program: registries, a manager, any number of lookups, `SetEnable` calls and calls on the metrics that were returned, overlapping in any way. Whatever
has happened: if nothing new starts and the scheduler is fair, the time comes when all lookups and all calls on the metrics they returned are over, and over they remain. -/
theorem C100_program (R : Rounding) (A : EDR.Arith) (limits : List Int) (before : List (Event AppConc.Use NewEnvs)) (hes : SchedOk limits.length (regEvents before))
    (g : Nat → Event AppConc.Use NewEnvs) (hq : ∀ k, Quiet (g k)) (hf : FairTo R A limits before g) :
    ∃ m, ∀ k, m ≤ k → AtRest (AppConc.after R A limits before g k) := by
  obtain ⟨m, hm⟩ := lookups_end R A limits before g hq hf
  -- from here on no lookup does anything
  have hes' := schedOk_after limits before g hes hq m
  have hshift := after_shift R A limits before g m
  have hq' : ∀ k, Quiet (g (m + k)) := fun k => hq _
  have hend : ∀ k, (AppConc.after R A limits before g (m + k)).pool.calls = (AppConc.after R A limits before g m).pool.calls := by
    intro k
    induction k with
    | zero => rfl
    | succ k ih =>
      rw [← Nat.add_assoc, after_succ]
      have hq'' := hq (m + k)
      cases hg : g (m + k) with
      | use i u => exact ih
      | reg e env =>
        cases e with
        | spawn a => rw [hg] at hq''; exact hq''.elim
        | step i x =>
          rw [← ih]
          simp only [App.apply, Machine.apply]
          cases hc : (AppConc.after R A limits before g (m + k)).pool.calls[i]? with
          | none => rfl
          | some c =>
            have hce := hm (m + k) (by omega) c (List.mem_of_getElem? hc)
            have : (Registry.conc.step (AppConc.after R A limits before g (m + k)).pool.shared x c).2 = c := by
              cases c <;> first | rfl | (simp [PC.ended] at hce)
            show (AppConc.after R A limits before g (m + k)).pool.calls.set i _ = _
            rw [this]
            obtain ⟨hi, rfl⟩ := List.getElem?_eq_some_iff.1 hc
            exact List.set_getElem_self hi
  obtain ⟨m', hm'⟩ := eventually_all (AppConc.after R A limits before g m).pool.calls
    (fun c k => ∀ q r id p, c = .done q r (.real id p) → ∃ o, (AppConc.after R A limits before g (m + k)).objs id = some o ∧ ∀ b ∈ o.over, b = true) (by
      intro c hc
      by_cases hd : ∃ q r id p, c = .done q r (.real id p)
      · obtain ⟨q, r, id, p, rfl⟩ := hd
        obtain ⟨m', h'⟩ := calls_end R A limits (before ++ (List.range m).map g) (fun k => g (m + k)) (id := id) (q := q) (r := r) (p := p) hes' hq' (by
            intro k o ho j hj
            rw [← hshift] at ho
            obtain ⟨n, h1, h2⟩ := hf.2 (m + k) id o ho j hj
            refine ⟨n - m, by omega, ?_⟩
            rw [← hshift, show m + (n - m) = n by omega]
            exact h2) (by rw [← hshift]; exact hc)
        refine ⟨m', fun k hk q' r' id' p' e => ?_⟩
        cases e
        obtain ⟨o, h1, h2⟩ := h' k hk
        exact ⟨o, by rw [hshift]; exact h1, h2⟩
      · exact ⟨0, fun k _ q r id p e => absurd ⟨q, r, id, p, e⟩ hd⟩)
  refine ⟨m + m', fun k hk => ⟨hm k (by omega), ?_⟩⟩
  intro q r id p h
  have := hend (k - m)
  rw [show m + (k - m) = k by omega] at this
  rw [this] at h
  obtain ⟨o, h1, h2⟩ := hm' (k - m) (by omega) _ h q r id p rfl
  rw [show m + (k - m) = k by omega] at h1
  exact ⟨o, h1, h2⟩

namespace AppConc

/-- A fast compass is looked up and a `Record` begins; later the two get turns one after the other. -/
def recBefore : List (Event Use NewEnvs) :=
  let env : NewEnvs := ⟨⟨0, 0, 0⟩, ⟨0, 0, 0⟩⟩
  [.reg (.spawn (.lookup { target := .direct 0, kind := .fast, name := { hash := [107] } })) env] ++ List.replicate 6 (.reg (.step 0 ()) env) ++ [.use 0 (.fast ⟨1000000, "a"⟩)]

def recLater (k : Nat) : Event Use NewEnvs :=
  if k % 2 = 0 then .reg (.step 0 ()) ⟨⟨0, 0, 0⟩, ⟨0, 0, 0⟩⟩ else .use 0 (.step 0 ⟨0, 1000, ⟨0, 1000, .nan⟩, 0, 0⟩)

theorem rec_state (R : Rounding) (A : EDR.Arith) (m : Nat) :
    (after R A [10] recBefore recLater m).pool.calls = [.done { target := .direct 0, kind := .fast, name := { hash := [107] } } (some 0) (creator .fast 2 0)] ∧
    (∀ id, id ≠ 0 → (after R A [10] recBefore recLater m).objs id = none) ∧
    ∃ P, (after R A [10] recBefore recLater m).objs 0 = some (.fast P) ∧ P.calls.length = 1 := by
  induction m with
  | zero =>
    refine ⟨by rw [before_pool]; decide +kernel, fun id hid => ?_, _, rfl, rfl⟩
    show (if id = 0 then _ else if id = 0 then _ else none) = none
    rw [if_neg hid, if_neg hid]
  | succ m ih =>
    obtain ⟨h1, h2, P, h3, h4⟩ := ih
    rw [after_succ]
    generalize after R A [10] recBefore recLater m = s at *
    obtain ⟨⟨sh, calls⟩, objs⟩ := s
    simp only at h1 h2 h3
    subst h1
    unfold recLater
    by_cases hm : m % 2 = 0
    · rw [if_pos hm]
      exact ⟨rfl, h2, P, h3, h4⟩
    · rw [if_neg hm]
      refine ⟨rfl, fun id hid => ?_, FastCompassConc.guarded.machine.apply P (.step 0 1000), ?_, ?_⟩
      · show (if id = 0 then _ else objs id) = none
        rw [if_neg hid]; exact h2 id hid
      · show (objs 0).map _ = _
        rw [h3]; rfl
      · rw [← h4]
        cases hc : P.calls[0]? <;> simp only [Machine.apply, hc, List.length_set]

/-- The hypotheses of C100_program are met by this program, in which a call is under way. -/
theorem rec_meets (R : Rounding) (A : EDR.Arith) : SchedOk ([10] : List Int).length (regEvents recBefore) ∧ (∀ k, Quiet (recLater k)) ∧ FairTo R A [10] recBefore recLater ∧
    ¬ AtRest (after R A [10] recBefore recLater 0) := by
  refine ⟨?_, ?_, ⟨?_, ?_⟩, ?_⟩
  · intro a ha
    simp [recBefore, regEvents, List.replicate_succ] at ha
    subst ha
    simp [Call.ok]
  · intro k
    unfold recLater
    split <;> trivial
  · intro i hi m
    rw [(rec_state R A 0).1] at hi
    obtain rfl : i = 0 := by simpa using hi
    exact ⟨2 * m, by omega, ⟨⟨0, 0, 0⟩, ⟨0, 0, 0⟩⟩, by unfold recLater; rw [if_pos (by omega)]⟩
  · intro m id o ho j hj
    obtain ⟨-, h2, P, h3, h4⟩ := rec_state R A m
    by_cases hid : id = 0
    · subst hid
      rw [h3] at ho
      obtain rfl := Option.some.inj ho
      obtain rfl : j = 0 := by simp only [Obj.over, List.length_map, h4] at hj; omega
      refine ⟨2 * m + 1, by omega, 0, ⟨0, 1000, ⟨0, 1000, .nan⟩, 0, 0⟩, { target := .direct 0, kind := .fast, name := { hash := [107] } }, some 0, .fast (levelNanos 2) 10 20,
        by unfold recLater; rw [if_neg (by omega)], ?_⟩
      rw [(rec_state R A _).1]; rfl
    · rw [h2 id hid] at ho; cases ho
  · intro h
    obtain ⟨o, ho, hb⟩ := h.2 { target := .direct 0, kind := .fast, name := { hash := [107] } } (some 0) 0 (.fast (levelNanos 2) 10 20) (by rw [(rec_state R A 0).1]; exact List.mem_singleton_self _)
    have e : (after R A [10] recBefore recLater 0).objs 0 = some (.fast ⟨(Guarded.init (FastCompass.new (levelNanos 2) 10 20)).shared, [FastCompassConc.guarded.machine.call (.inl ⟨1000000, "a"⟩)]⟩) := rfl
    rw [e] at ho
    obtain rfl := Option.some.inj ho
    have := hb false (by simp [Obj.over, Guarded.machine, Guarded.ended])
    cases this

end AppConc
end GoMetrics
