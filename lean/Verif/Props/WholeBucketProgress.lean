import Verif.Props.WholeBucketAlone
/-! # C87 — every call of a compass with a bucket reservoir can come to its end -/
namespace GoMetrics
open Machine Whole

namespace Whole

/-- Steps of a query on a counter that stands still. -/
theorem read_ends (b : BucketCounter) (st t : Int) (r : BucketCounter.ReadPC) : ∃ k, ((BucketCounter.readStep st b t)^[k] r).ended = true := by
  have hs : ∀ r, (∃ k, ((BucketCounter.readStep st b t)^[k] (BucketCounter.readStep st b t r)).ended = true) →
      ∃ k, ((BucketCounter.readStep st b t)^[k] r).ended = true := by
    rintro r ⟨k, h⟩
    exact ⟨k + 1, h⟩
  have hcount : ∀ now todo res, ∃ k, ((BucketCounter.readStep st b t)^[k] (.counts now todo res)).ended = true := by
    intro now todo
    induction todo with
    | nil => intro res; exact hs _ ⟨0, rfl⟩
    | cons p todo ih => intro res; exact hs _ (ih _)
  have hsec : ∀ now sts second acc, ∃ k, ((BucketCounter.readStep st b t)^[k] (.slots now sts [] second acc)).ended = true := by
    intro now sts second
    induction second with
    | nil => intro acc; exact hs _ (hcount _ _ _)
    | cons p second ih => intro acc; exact hs _ (ih _)
  have hslots : ∀ now sts first second acc, ∃ k, ((BucketCounter.readStep st b t)^[k] (.slots now sts first second acc)).ended = true := by
    intro now sts first second
    induction first with
    | nil => intro acc; exact hsec _ _ _ _
    | cons p first ih => intro acc; exact hs _ (ih _)
  have h4 : ∀ now sp cur, ∃ k, ((BucketCounter.readStep st b t)^[k] (.startTs now sp cur)).ended = true := fun _ _ _ => hs _ (hslots _ _ _ _ _)
  have h3 : ∀ now sp, ∃ k, ((BucketCounter.readStep st b t)^[k] (.again now sp)).ended = true := fun _ _ => hs _ (h4 _ _ _)
  have h2 : ∀ now, ∃ k, ((BucketCounter.readStep st b t)^[k] (.pos now)).ended = true := fun _ => hs _ (h3 _ _)
  cases r with
  | clock =>
    refine hs _ ?_
    simp only [BucketCounter.readStep]
    cases BucketCounter.alignTimestamp b.interval t with
    | none => exact ⟨0, rfl⟩
    | some now => exact h2 now
  | pos now => exact h2 now
  | again now sp => exact h3 now sp
  | startTs now sp cur => exact h4 now sp cur
  | slots now sts first second acc => exact hslots _ _ _ _ _
  | counts now todo res => exact hcount _ _ _
  | done m => exact ⟨0, rfl⟩
  | panicked => exact ⟨0, rfl⟩

/-- Steps of a snapshot on counters that stand still. -/
theorem snap_ends (bi : Int) (s : BucketPair.Shared) (x : Int × Nat) (pc : BucketPair.SnapPC) : ∃ k, snapOver ((BucketPair.snapStep bi s x)^[k] pc) = true := by
  have hs : ∀ pc, (∃ k, snapOver ((BucketPair.snapStep bi s x)^[k] (BucketPair.snapStep bi s x pc)) = true) →
      ∃ k, snapOver ((BucketPair.snapStep bi s x)^[k] pc) = true := by
    rintro r ⟨k, h⟩
    exact ⟨k + 1, h⟩
  have hc : ∀ st v r, ∃ k, snapOver ((BucketPair.snapStep bi s x)^[k] (.count st v r)) = true := by
    intro st v r
    obtain ⟨k, hk⟩ := read_ends s.count st x.1 r
    induction k generalizing r with
    | zero => cases r <;> first | (cases hk; done) | exact hs _ ⟨0, rfl⟩
    | succ k ih =>
      by_cases he : r.ended = true
      · cases r <;> first | (cases he; done) | exact hs _ ⟨0, rfl⟩
      · refine hs _ ?_
        have e : BucketPair.snapStep bi s x (.count st v r) = .count st v (BucketCounter.readStep st s.count x.1 r) := by
          cases r <;> first | rfl | exact absurd rfl he
        rw [e]
        exact ih _ hk
  have hv : ∀ st r, ∃ k, snapOver ((BucketPair.snapStep bi s x)^[k] (.value st r)) = true := by
    intro st r
    obtain ⟨k, hk⟩ := read_ends s.value st x.1 r
    induction k generalizing r with
    | zero => cases r <;> first | (cases hk; done) | exact hs _ (hc _ _ _) | exact hs _ ⟨0, rfl⟩
    | succ k ih =>
      by_cases he : r.ended = true
      · cases r <;> first | (cases he; done) | exact hs _ (hc _ _ _) | exact hs _ ⟨0, rfl⟩
      · refine hs _ ?_
        have e : BucketPair.snapStep bi s x (.value st r) = .value st (BucketCounter.readStep st s.value x.1 r) := by
          cases r <;> first | rfl | exact absurd rfl he
        rw [e]
        exact ih _ hk
  cases pc with
  | align =>
    refine hs _ ?_
    simp only [BucketPair.snapStep]
    cases BucketReservoir.alignToBucketStartTimeInMs bi x.1 with
    | none => exact ⟨0, rfl⟩
    | some st => exact hv _ _
  | value st r => exact hv _ _
  | count st v r => exact hc _ _ _
  | done b => exact ⟨0, rfl⟩
  | panicked => exact ⟨0, rfl⟩

/-- A snapshot call of the compass can be brought to its end; nothing else moves. -/
theorem snapshot_ends (R : Rounding) (bi : Int) (k : Nat) : ∀ {p : Pool (Parts BucketCounter BucketPC) Call} {i r : Nat} {pc : BucketPair.SnapPC},
    p.calls[i]? = some ⟨.snapshot, .snap r⟩ → p.shared.res.calls[r]? = some (.snap pc) →
    snapOver ((BucketPair.snapStep bi ⟨p.shared.marks.shared.total, p.shared.res.shared⟩ (0, 0))^[k] pc) = true →
    ∃ es, NoSpawn es ∧ ((bucketCompass R bi).run p es).calls = p.calls.set i ⟨.snapshot, .snapped r⟩ := by
  have fin : ∀ {p : Pool (Parts BucketCounter BucketPC) Call} {i r : Nat} {pc : BucketPair.SnapPC},
      p.calls[i]? = some ⟨.snapshot, .snap r⟩ → p.shared.res.calls[r]? = some (.snap pc) → snapOver pc = true →
      ∃ es, NoSpawn es ∧ ((bucketCompass R bi).run p es).calls = p.calls.set i ⟨.snapshot, .snapped r⟩ := by
    intro p i r pc hi hr ho
    refine ⟨[.step i ⟨0, 0, (0, 0)⟩], by intro a; simp, ?_⟩
    change ((bucketCompass R bi).apply p (.step i ⟨0, 0, (0, 0)⟩)).calls = _
    simp only [Machine.apply, hi]
    simp only [bucketCompass, callStep, hr, over_snap, ho, if_true]
  induction k with
  | zero => intro p i r pc hi hr ho; exact fin hi hr ho
  | succ k ih =>
    intro p i r pc hi hr ho
    by_cases hov : snapOver pc = true
    · exact fin hi hr hov
    have hil := (List.getElem?_eq_some_iff.1 hi).1
    have hrl := (List.getElem?_eq_some_iff.1 hr).1
    set pc' := BucketPair.snapStep bi ⟨p.shared.marks.shared.total, p.shared.res.shared⟩ (0, 0) pc with hpc'
    have e : (bucketCompass R bi).apply p (.step i ⟨0, 0, (0, 0)⟩) =
        ⟨{ p.shared with res := ⟨p.shared.res.shared, p.shared.res.calls.set r (.snap pc')⟩ }, p.calls⟩ := by
      simp only [Machine.apply, hi]
      simp only [bucketCompass, callStep, hr, over_snap, hov, Bool.false_eq_true, if_false, Machine.apply]
      rw [set_same hi]
      rfl
    obtain ⟨es, h1, h2⟩ := ih (p := (bucketCompass R bi).apply p (.step i ⟨0, 0, (0, 0)⟩)) (i := i) (r := r) (pc := pc')
      (by rw [e]; exact hi) (by rw [e]; simp [hrl]) (by rw [e]; exact ho)
    refine ⟨.step i ⟨0, 0, (0, 0)⟩ :: es, fun a ha => ?_, ?_⟩
    · rcases List.mem_cons.1 ha with ha | ha
      · cases ha
      · exact h1 a ha
    · rw [Machine.run_cons, h2, e]

/-- Snapshots are over. -/
def Snapped (c : Call) : Bool := c.use != .snapshot || c.ended

/-- All snapshots can be brought to their end. -/
theorem all_snapped (R : Rounding) (bi : Int) (n : Nat) (maxErr maxAdd now t1 t2 tv : Int) (m : Nat) : ∀ before : List (Ev Use (In (Int × Nat))),
    (bucketUsed R bi n maxErr maxAdd now t1 t2 tv before).calls.countP (fun c => !Snapped c) = m →
    ∃ after, NoSpawn after ∧ ∀ c ∈ (bucketUsed R bi n maxErr maxAdd now t1 t2 tv (before ++ after)).calls, Snapped c = true := by
  induction m using Nat.strong_induction_on with
  | _ m ih =>
    intro before hm
    by_cases hall : ∃ c ∈ (bucketUsed R bi n maxErr maxAdd now t1 t2 tv before).calls, Snapped c = false
    · obtain ⟨c, hc, hs⟩ := hall
      obtain ⟨i, hi, hic⟩ := List.getElem_of_mem hc
      have hi : (bucketUsed R bi n maxErr maxAdd now t1 t2 tv before).calls[i]? = some c := by rw [List.getElem?_eq_getElem hi, hic]
      have go : ∀ es1 : List (Ev Use (In (Int × Nat))), NoSpawn es1 → ∀ c' : Call, Snapped c' = true →
          (bucketUsed R bi n maxErr maxAdd now t1 t2 tv (before ++ es1)).calls = (bucketUsed R bi n maxErr maxAdd now t1 t2 tv before).calls.set i c' →
          ∃ after, NoSpawn after ∧ ∀ c ∈ (bucketUsed R bi n maxErr maxAdd now t1 t2 tv (before ++ after)).calls, Snapped c = true := by
        intro es1 h1 c' hc' h2
        obtain ⟨after, a1, a2⟩ := ih _ (by rw [← hm, h2]; exact countP_set_lt hi (by simp [hs]) (by simp [hc'])) (before ++ es1) rfl
        exact ⟨es1 ++ after, h1.append a1, by rw [← List.append_assoc]; exact a2⟩
      obtain ⟨-, -, -, hinv⟩ := bucket_inv R bi n maxErr maxAdd now t1 t2 tv before
      have hh := hinv.here c hc
      obtain ⟨use, pc⟩ := c
      have hu : use = .snapshot := by
        by_contra hne
        simp [Snapped, hne] at hs
      subst hu
      generalize hp : bucketUsed R bi n maxErr maxAdd now t1 t2 tv before = p at hi go hinv hh hc
      have snapCase : ∀ (p' : Pool (Parts BucketCounter BucketPC) Call) (r : Nat) (q : BucketPair.SnapPC), p'.calls[i]? = some ⟨.snapshot, .snap r⟩ →
          p'.shared.res.calls[r]? = some (.snap q) → ∃ es, NoSpawn es ∧ ((bucketCompass R bi).run p' es).calls = p'.calls.set i ⟨.snapshot, .snapped r⟩ := by
        intro p' r q h1 h2
        obtain ⟨k, hk⟩ := snap_ends bi ⟨p'.shared.marks.shared.total, p'.shared.res.shared⟩ (0, 0) q
        exact snapshot_ends R bi k h1 h2 hk
      have run_eq : ∀ es, bucketUsed R bi n maxErr maxAdd now t1 t2 tv (before ++ es) = (bucketCompass R bi).run p es := by
        intro es; rw [← hp]; unfold bucketUsed; rw [Machine.run_append]
      cases pc with
      | start =>
        have hil := (List.getElem?_eq_some_iff.1 hi).1
        have e : (bucketCompass R bi).apply p (.step i ⟨0, 0, (0, 0)⟩) =
            ⟨{ p.shared with res := ⟨p.shared.res.shared, p.shared.res.calls ++ [.snap .align]⟩ }, p.calls.set i ⟨.snapshot, .snap p.shared.res.calls.length⟩⟩ := by
          simp only [Machine.apply, hi]
          rfl
        obtain ⟨es, g1, g2⟩ := snapCase ((bucketCompass R bi).apply p (.step i ⟨0, 0, (0, 0)⟩)) p.shared.res.calls.length .align
          (by rw [e]; simp [hil]) (by rw [e]; simp)
        refine go (.step i ⟨0, 0, (0, 0)⟩ :: es) ?_ ⟨.snapshot, .snapped p.shared.res.calls.length⟩ rfl ?_
        · intro a ha
          rcases List.mem_cons.1 ha with ha | ha
          · cases ha
          · exact g1 a ha
        · rw [run_eq, Machine.run_cons, g2, e]
          simp
      | snap r =>
        obtain ⟨-, q, q1, q2⟩ := hh
        cases q with
        | upd c => cases q2
        | snap q =>
          obtain ⟨es, g1, g2⟩ := snapCase p r q hi q1
          exact go es g1 _ rfl (by rw [run_eq]; exact g2)
      | snapped r => cases hs
      | done _ _ _ => cases hs
      | resPanicked _ _ _ => cases hs
      | crashed _ _ => cases hs
      | got _ _ => cases hs
      | tick i => exact absurd rfl hh.1
      | avg i w j => exact absurd rfl hh.1
      | total i m => obtain ⟨d, a, h, -⟩ := hh; cases h
      | res i m r => obtain ⟨d, a, h, -⟩ := hh; cases h
      | rest i m r => obtain ⟨d, a, h, -⟩ := hh; cases h
      | rate i => obtain ⟨⟨w, h⟩, -⟩ := hh; cases h
    · refine ⟨[], by intro a; simp, fun c hc => ?_⟩
      rw [List.append_nil] at hc
      by_contra hne
      exact hall ⟨c, hc, by simpa using hne⟩

theorem step_use (R : Rounding) (bi : Int) (s : Parts BucketCounter BucketPC) (x : In BucketIn) (c : Call) :
    (callStep R (bucket bi) bi s x c).2.use = c.use := by
  obtain ⟨use, pc⟩ := c
  cases pc <;> simp only [callStep] <;> (repeat' split) <;> rfl

/-- When no snapshot is under way, no call of the reservoir that is not over is one. -/
theorem calm {R : Rounding} {bi : Int} {n : Nat} {maxErr maxAdd now t1 t2 tv : Int} {p : Pool (Parts BucketCounter BucketPC) Call}
    (hp : Rch R (bucket bi) (BucketCounter.new bi n tv true) bi n maxErr maxAdd now t1 t2 p) (hs : ∀ c ∈ p.calls, Snapped c = true)
    {r : Nat} {q : BucketPC} (hq : p.shared.res.calls[r]? = some q) (ho : (bucket bi).over q = none) : ∃ c, q = .upd c := by
  obtain ⟨k, c, hk, hpc⟩ := res_owner (bucket_ok bi) hp hq ho
  have hc := List.mem_of_getElem? hk
  have hh := (hp.inv (bucket_ok bi)).here c hc
  have hsc := hs c hc
  obtain ⟨use, pc⟩ := c
  rcases hpc with ⟨i, m, rfl⟩ | rfl
  · obtain ⟨d, a, -, -, -, q', q1, q2⟩ := hh
    rw [hq] at q1
    obtain rfl := Option.some.inj q1
    cases q with
    | upd c => exact ⟨c, rfl⟩
    | snap pc => cases q2
  · obtain ⟨hu, -⟩ := hh
    simp only at hu
    subst hu
    cases hsc

/-- Then what the reservoir sees of the rest of the compass plays no role. -/
theorem calm_step {R : Rounding} {bi : Int} {n : Nat} {maxErr maxAdd now t1 t2 tv : Int} {p : Pool (Parts BucketCounter BucketPC) Call}
    (hp : Rch R (bucket bi) (BucketCounter.new bi n tv true) bi n maxErr maxAdd now t1 t2 p) (hs : ∀ c ∈ p.calls, Snapped c = true) (c : Call) (y : In BucketIn) :
    callStep R (bucket bi) bi p.shared y c = callStep R (bucket bi) bi p.shared (atTotal p.shared ⟨y.tick, y.time, (y.res.time, y.res.pick)⟩) c := by
  have key : ∀ r q, p.shared.res.calls[r]? = some q → (bucket bi).over q = none → (bucket bi).machine.apply p.shared.res (.step r y.res) =
      (bucket bi).machine.apply p.shared.res (.step r ⟨y.res.time, y.res.pick, p.shared.marks.shared.total⟩) := by
    intro r q hq ho
    obtain ⟨c, rfl⟩ := calm hp hs hq ho
    simp only [Machine.apply, hq]
    rfl
  obtain ⟨use, pc⟩ := c
  cases pc with
  | res i m r =>
    simp only [callStep]
    cases hq : p.shared.res.calls[r]? with
    | none => rfl
    | some q =>
      simp only
      cases ho : (bucket bi).over q with
      | some b => cases b <;> rfl
      | none => simp only; rw [key r q hq ho]; rfl
  | snap r =>
    simp only [callStep]
    cases hq : p.shared.res.calls[r]? with
    | none => rfl
    | some q =>
      simp only
      cases ho : (bucket bi).over q with
      | some b => rfl
      | none => rw [key r q hq ho]; rfl
  | _ => rfl

theorem calm_run {R : Rounding} {bi : Int} {n : Nat} {maxErr maxAdd now t1 t2 tv : Int} (es' : List (Ev Use (In BucketIn))) : NoSpawn es' →
    ∀ {p : Pool (Parts BucketCounter BucketPC) Call}, Rch R (bucket bi) (BucketCounter.new bi n tv true) bi n maxErr maxAdd now t1 t2 p →
    (∀ c ∈ p.calls, Snapped c = true) → ∃ es, NoSpawn es ∧ (bucketCompass R bi).run p es = (machine R (bucket bi) bi).run p es' := by
  induction es' with
  | nil => intro _ p _ _; exact ⟨[], by intro a; simp, rfl⟩
  | cons e es' ih =>
    intro hns p hp hs
    cases e with
    | spawn a => exact absurd (by simp) (hns a)
    | step i y =>
      have hsame : (bucketCompass R bi).apply p (.step i ⟨y.tick, y.time, (y.res.time, y.res.pick)⟩) = (machine R (bucket bi) bi).apply p (.step i y) := by
        cases hi : p.calls[i]? with
        | none => simp only [Machine.apply, hi]
        | some c =>
          simp only [Machine.apply, hi]
          have := calm_step hp hs c y
          simp only [bucketCompass, machine]
          rw [this]
      have hs' : ∀ c ∈ ((machine R (bucket bi) bi).apply p (.step i y)).calls, Snapped c = true := by
        cases hi : p.calls[i]? with
        | none => simp only [Machine.apply, hi]; exact hs
        | some c =>
          simp only [Machine.apply, hi]
          intro d hd
          rcases List.mem_or_eq_of_mem_set hd with hd | rfl
          · exact hs d hd
          · have hc := hs c (List.mem_of_getElem? hi)
            by_cases hu : c.use = .snapshot
            · have he : c.ended = true := by simpa [Snapped, hu] using hc
              have : (machine R (bucket bi) bi).step p.shared y c = (p.shared, c) := ended_idle _ _ _ he
              rw [this]; exact hc
            · have : ((machine R (bucket bi) bi).step p.shared y c).2.use = c.use := step_use R bi p.shared y c
              simp [Snapped, this, hu]
      obtain ⟨es, h1, h2⟩ := ih (fun a ha => hns a (by simp [ha])) (hp.run [.step i y]) hs'
      refine ⟨.step i ⟨y.tick, y.time, (y.res.time, y.res.pick)⟩ :: es, fun a ha => ?_, ?_⟩
      · rcases List.mem_cons.1 ha with ha | ha
        · cases ha
        · exact h1 a ha
      · rw [Machine.run_cons, hsame, Machine.run_cons]; exact h2

/-- How many steps are left, at most, in a call of the reservoir, if it stands alone. -/
theorem bucket_ends (bi : Int) (s : BucketCounter) (c : BucketPC) : (bucketConc bi).Ends (fun c => ((bucket bi).over c).isSome) s c := by
  cases c with
  | snap pc =>
    obtain ⟨k, hk⟩ := snap_ends bi ⟨s, s⟩ (0, 0) pc
    induction k generalizing pc with
    | zero => exact .now _ (by rw [over_snap]; exact hk)
    | succ k ih => exact .step _ ⟨0, 0, s⟩ rfl (ih _ hk)
  | upd c =>
    have key : ∀ k (s : BucketCounter) (c : BucketCounter.Call), CompassConc.callRank c.pc ≤ k →
        (bucketConc bi).Ends (fun c => ((bucket bi).over c).isSome) s (.upd c) := by
      intro k
      induction k with
      | zero =>
        intro s c hk
        obtain ⟨n, pc⟩ := c
        exact .now _ (by cases pc <;> simp [CompassConc.callRank] at hk <;> rfl)
      | succ k ih =>
        intro s c hk
        refine .step _ (s' := (BucketCounter.callStep s 0 c).1) (c' := .upd (BucketCounter.callStep s 0 c).2) ⟨0, 0, s⟩ rfl (ih _ _ ?_)
        have := CompassConc.callStep_rank s 0 c
        omega
    exact key _ s c le_rfl

theorem bucket_live (bi : Int) (s : BucketCounter) : (bucket bi).Live s where
  idle := bucket_idle bi
  live := neverStuck_of_one _ (fun _ ⟨c, hc, ho⟩ => ⟨c, hc, ho, bucket_ends bi _ c⟩)

end Whole

/-- **C87.** A compass with a bucket reservoir is never stuck. -/
theorem C87_compass_bucket (R : Rounding) (bi : Int) (n : Nat) (maxErr maxAdd now t1 t2 tv : Int) (before : List (Ev Use (In (Int × Nat)))) :
    ∃ after, NoSpawn after ∧ ∀ c ∈ (bucketUsed R bi n maxErr maxAdd now t1 t2 tv (before ++ after)).calls, c.ended = true := by
  obtain ⟨a1, h1, h2⟩ := all_snapped R bi n maxErr maxAdd now t1 t2 tv _ before rfl
  obtain ⟨es', -, h3, -⟩ := bucket_inv R bi n maxErr maxAdd now t1 t2 tv (before ++ a1)
  obtain ⟨a2, h4, h5⟩ := C87_compass R (bucket bi) bucketArg (bucket_ok bi) _ (bucket_live bi (BucketCounter.new bi n tv true)) ⟨0, 0, BucketCounter.new bi n tv true⟩
    bi n maxErr maxAdd now t1 t2 es'
  obtain ⟨a3, h6, h7⟩ := calm_run a2 h4 (p := bucketUsed R bi n maxErr maxAdd now t1 t2 tv (before ++ a1)) ⟨es', h3⟩ h2
  refine ⟨a1 ++ a3, h1.append h6, ?_⟩
  have e : bucketUsed R bi n maxErr maxAdd now t1 t2 tv (before ++ (a1 ++ a3)) =
      (bucketCompass R bi).run (bucketUsed R bi n maxErr maxAdd now t1 t2 tv (before ++ a1)) a3 := by
    unfold bucketUsed; rw [← List.append_assoc, Machine.run_append]
  rw [e, h7, h3]
  rw [Machine.run_append] at h5
  exact h5

/-! ## The hypotheses can be met -/

/-- Three updates, a snapshot and a rate read on a compass with a bucket reservoir, in turn; then a second snapshot, in a later bucket. -/
def Whole.bucketBusy : List (Ev Use (In (Int × Nat))) :=
  [.spawn (.update 7 ⟨true, "", ""⟩), .spawn (.update 9 ⟨false, "e", "x"⟩), .spawn .snapshot, .spawn (.update 5 ⟨false, "", ""⟩), .spawn (.rate .m5)] ++
  (List.range 80).flatMap (fun t => (List.range 5).map fun i => .step i ⟨200000000 * t, 61000 + t, (61000 + t, 0)⟩) ++
  .spawn .snapshot :: List.replicate 40 (.step 5 ⟨0, 0, (71000, 0)⟩)

/-- `C86_bucket_anytime`, `C86_bucket_quiescent`: all calls are over; the late snapshot sees the last full bucket. -/
example :
    let p := bucketUsed .exact 10000000000 3 1 1 0 0 0 0 Whole.bucketBusy
    (∀ c ∈ p.calls, c.over = true ∧ c.ended = true) ∧ p.calls.length = 6 ∧ p.shared.marks.shared.total.getCount = 3 ∧
      p.shared.marks.shared.success.getCount = 1 ∧ p.shared.res.shared.getCount = 21 ∧
      p.shared.res.calls.getLast? = some (.snap (.done ⟨3, 21⟩)) := by
  decide +kernel

/-- `C91_compass_bucket_history`: two updates and a rate read, one after the other; the second update is over the limit of error codes and panics. -/
example :
    let xs (k : Nat) (t : Int) : List (Whole.In (Int × Nat)) := List.replicate k ⟨t * 1000000000, t * 1000, (t * 1000, 0)⟩
    let h : List (Use × List (Whole.In (Int × Nat))) :=
      [(.update 7 ⟨true, "e", ""⟩, xs 100 1), (.update 9 ⟨false, "f", "a"⟩, xs 100 2), (.rate .m1, xs 100 11)]
    let p := bucketUsed .exact 5000000000 3 1 1 0 0 0 0 (serial 0 h)
    (∀ e ∈ h, e.1 ≠ .snapshot) ∧ (∀ c ∈ p.calls, c.ended = true) ∧
      p.shared.marks.calls.map CompassConc.Mark.pc = [.done, .panicked false] ∧ p.shared.res.shared.getCount = 16 := by
  decide +kernel

/-- `C91_compass_bucket_snapshot`: a snapshot passes an update that stands still between its two counters. -/
example :
    let x : Whole.In (Int × Nat) := ⟨0, 21000, (21000, 0)⟩
    let p := bucketUsed .exact 10000000000 3 1 1 0 0 0 0 (.spawn (.update 7 ⟨true, "e", ""⟩) :: List.replicate 16 (.step 0 x))
    let q := (bucketCompass .exact 10000000000).run p (.spawn .snapshot :: (List.replicate 40 (⟨0, 32000, (32000, 0)⟩ : Whole.In (Int × Nat))).map (Ev.step 1))
    p.calls.map Call.ended = [false] ∧ q.calls.map Call.ended = [false, true] ∧ q.shared.res.calls.getLast? = some (.snap (.done ⟨1, 0⟩)) := by
  decide +kernel

end GoMetrics
