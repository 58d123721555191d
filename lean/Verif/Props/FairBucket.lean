import Verif.Props.FairWhole
import Verif.Props.WholeBucketProgress
/-! # C100 — under a fair scheduler every call of a compass with a bucket reservoir ends -/
namespace GoMetrics
open Machine Whole

namespace BucketCounter

/-- A counter of `N` buckets. -/
def Sane (N : Nat) (b : BucketCounter) : Prop := b.buckets.queue.length = N + 1 ∧ b.buckets.current ≤ N

instance (N : Nat) (b : BucketCounter) : Decidable (Sane N b) := inferInstanceAs (Decidable (_ ∧ _))

theorem sane_after (interval : Int) (N : Nat) (t0 : Int) (u : Bool) (es : List (Ev Int Int)) : Sane N (after interval N t0 u es).shared := by
  have h := (cinv_run N _ (sharedOk_new interval N t0 u) es).shared
  exact ⟨h.qlen, Nat.lt_succ_iff.1 h.cur⟩

/-- The position that a query has read lies in the ring. -/
def ReadPC.low (N : Nat) : ReadPC → Prop
  | .again _ sp | .startTs _ sp _ => sp ≤ N
  | _ => True

theorem low_step {N : Nat} {b : BucketCounter} (h : Sane N b) (s t : Int) {r : ReadPC} (hr : r.low N) : (readStep s b t r).low N := by
  cases r with
  | clock => simp only [readStep]; split <;> trivial
  | pos now => exact h.2
  | again now sp => exact hr
  | slots now st first second acc =>
    cases first with
    | cons i f => trivial
    | nil => cases second <;> trivial
  | counts now todo res => cases todo <;> trivial
  | _ => trivial

theorem rank_step {N : Nat} {b : BucketCounter} (h : Sane N b) (s t : Int) {r : ReadPC} (hr : r.low N) (he : r.ended = false) :
    (readStep s b t r).rank N < r.rank N := by
  have := readStep_rank h.1 s t r (by rintro now sp cur rfl; exact hr)
  have h0 : 0 < r.rank N := by cases r <;> first | (simp [ReadPC.rank]; done) | cases he
  omega

end BucketCounter

namespace BucketPair
open BucketCounter (Sane)

/-- How far a snapshot is from its end, on counters of `N` buckets. -/
def SnapPC.rank (N : Nat) : SnapPC → Nat
  | .align => 4 * N + 15
  | .value _ r => r.rank N + 2 * N + 8
  | .count _ _ r => r.rank N + 1
  | .done _ | .panicked => 0

/-- The positions that a snapshot has read lie in the rings. -/
def SnapPC.low (N : Nat) : SnapPC → Prop
  | .value _ r | .count _ _ r => r.low N
  | _ => True

theorem snap_low {N : Nat} {interval : Int} {s : Shared} (h1 : Sane N s.count) (h2 : Sane N s.value) (x : Int × Nat) {c : SnapPC} (hc : c.low N) :
    (snapStep interval s x c).low N := by
  cases c with
  | align => simp only [snapStep]; split <;> trivial
  | value start r =>
    have h := BucketCounter.low_step h2 start x.1 (r := r) hc
    cases r with
    | done m => trivial
    | panicked => trivial
    | _ => exact h
  | count start v r =>
    have h := BucketCounter.low_step h1 start x.1 (r := r) hc
    cases r with
    | done m => trivial
    | panicked => trivial
    | _ => exact h
  | _ => trivial

theorem snap_rank {N : Nat} {interval : Int} {s : Shared} (h1 : Sane N s.count) (h2 : Sane N s.value) (x : Int × Nat) {c : SnapPC} (hc : c.low N)
    (ho : snapOver c = false) : (snapStep interval s x c).rank N < c.rank N := by
  cases c with
  | align =>
    simp only [snapStep]
    split
    · simp [SnapPC.rank]
    · simp only [SnapPC.rank, BucketCounter.ReadPC.rank]; omega
  | value start r =>
    cases hr : r.ended
    · have hlt := BucketCounter.rank_step h2 start x.1 hc hr
      have e : snapStep interval s x (.value start r) = .value start (BucketCounter.readStep start s.value x.1 r) := by
        cases r <;> first | rfl | cases hr
      rw [e]
      simp only [SnapPC.rank]
      omega
    · cases r <;> first | (cases hr; done) | (simp only [snapStep, SnapPC.rank, BucketCounter.ReadPC.rank]; omega)
  | count start v r =>
    cases hr : r.ended
    · have hlt := BucketCounter.rank_step h1 start x.1 hc hr
      have e : snapStep interval s x (.count start v r) = .count start v (BucketCounter.readStep start s.count x.1 r) := by
        cases r <;> first | rfl | cases hr
      rw [e]
      simp only [SnapPC.rank]
      omega
    · cases r <;> first | (cases hr; done) | (simp only [snapStep, SnapPC.rank, BucketCounter.ReadPC.rank]; omega)
  | done _ => cases ho
  | panicked => cases ho

end BucketPair

namespace Whole
open BucketCounter (Sane)

/-- What the reservoir sees of the rest of the compass, if that is a counter of `N` buckets. -/
def seen (N : Nat) (s : BucketCounter) (x : BucketIn) : BucketIn := if Sane N x.count then x else { x with count := s }

/-- The bucket reservoir, shown only counters of `N` buckets (or its own). -/
def bucketN (bi : Int) (N : Nat) : Stepped BucketCounter BucketPC (Option Int) BucketIn where
  machine := { call := (bucketConc bi).call, step := fun s x c => (bucketConc bi).step s (seen N s x) c }
  updateN := some
  snapshot := none
  over := (bucket bi).over

theorem bucketN_ok (bi : Int) (N : Nat) : (bucketN bi N).Ok bucketArg where
  arg_update _ := rfl
  arg_snapshot := rfl
  arg_step s x c := (bucket_ok bi).arg_step s (seen N s x) c
  over_step s x c b h := (bucket_ok bi).over_step s (seen N s x) c b h

theorem bucketN_run (bi : Int) (N : Nat) (s : BucketCounter) (es : List (Ev (Option Int) BucketIn)) :
    ∃ es', (bucketN bi N).machine.run (Machine.start s) es = (bucketConc bi).run (Machine.start s) es' := by
  induction es using List.reverseRecOn with
  | nil => exact ⟨[], rfl⟩
  | append_singleton es e ih =>
    obtain ⟨es', h⟩ := ih
    rw [Machine.run_snoc, h]
    cases e with
    | spawn a => exact ⟨es' ++ [.spawn a], by rw [Machine.run_snoc]; rfl⟩
    | step i x => exact ⟨es' ++ [.step i (seen N ((bucketConc bi).run (Machine.start s) es').shared x)], by rw [Machine.run_snoc]; rfl⟩

/-- How far a call of a bucket reservoir is from its end. -/
def BucketPC.rank (N : Nat) : BucketPC → Nat
  | .upd c => CompassConc.callRank c.pc
  | .snap pc => pc.rank N

/-- The positions that a call has read lie in the rings. -/
def BucketPC.low (N : Nat) : BucketPC → Prop
  | .upd _ => True
  | .snap pc => pc.low N

theorem bucketN_sane (bi : Int) (N : Nat) (tv : Int) (es : List (Ev (Option Int) BucketIn)) :
    Sane N ((bucketN bi N).machine.run (Machine.start (BucketCounter.new bi N tv true)) es).shared := by
  obtain ⟨es', h⟩ := bucketN_run bi N (BucketCounter.new bi N tv true) es
  obtain ⟨es'', -, g, -⟩ := bucket_value bi (BucketCounter.new bi N tv true) (fun _ => True) es' (fun _ _ _ => trivial)
  rw [h, g]
  exact BucketCounter.sane_after bi N tv true es''

theorem seen_sane {N : Nat} {s : BucketCounter} (hs : Sane N s) (x : BucketIn) : Sane N (seen N s x).count := by
  unfold seen
  split
  · assumption
  · exact hs

theorem bucketN_low (bi : Int) (N : Nat) (tv : Int) (es : List (Ev (Option Int) BucketIn)) :
    ∀ c ∈ ((bucketN bi N).machine.run (Machine.start (BucketCounter.new bi N tv true)) es).calls, c.low N := by
  induction es using List.reverseRecOn with
  | nil => simp [Machine.run, Machine.start]
  | append_singleton es e ih =>
    have hs := bucketN_sane bi N tv es
    rw [Machine.run_snoc]
    generalize (bucketN bi N).machine.run (Machine.start (BucketCounter.new bi N tv true)) es = p at hs ih
    cases e with
    | spawn a =>
      intro c hc
      simp only [Machine.apply, List.mem_append, List.mem_singleton] at hc
      rcases hc with hc | rfl
      · exact ih c hc
      · cases a <;> trivial
    | step i x =>
      cases hi : p.calls[i]? with
      | none => simpa only [Machine.apply, hi] using ih
      | some c0 =>
        simp only [Machine.apply, hi]
        intro c hc
        rcases List.mem_or_eq_of_mem_set hc with hc | rfl
        · exact ih c hc
        · have h0 := ih c0 (List.mem_of_getElem? hi)
          cases c0 with
          | upd c => trivial
          | snap pc => exact BucketPair.snap_low (s := ⟨_, _⟩) (seen_sane hs x) hs _ h0

/-- Why the calls of a bucket reservoir end. -/
def bucketN_ranked (bi : Int) (N : Nat) (tv : Int) :
    (bucketN bi N).machine.Ranked (BucketCounter.new bi N tv true) (fun c => ((bucketN bi N).over c).isSome) (fun _ => True) where
  ok s c := Sane N s ∧ c.low N
  ok_run es c hc := ⟨bucketN_sane bi N tv es, bucketN_low bi N tv es c hc⟩
  b := 0
  ch _ := 0
  r _ := BucketPC.rank N
  help _ c := ((bucketN bi N).over c).isSome = false
  move s x c hok := by
    by_cases ho : ((bucketN bi N).over c).isSome = true
    · obtain ⟨b, hb⟩ := Option.isSome_iff_exists.1 ho
      exact .stay (bucket_idle bi s (seen N s x) c b hb) (by simp [ho])
    · have hlt : BucketPC.rank N ((bucketN bi N).machine.step s x c).2 < BucketPC.rank N c := by
        cases c with
        | upd c =>
          change CompassConc.callRank (BucketCounter.callStep s (seen N s x).time c).2.pc < CompassConc.callRank c.pc
          have := CompassConc.callStep_rank s (seen N s x).time c
          have h0 : 0 < CompassConc.callRank c.pc := by
            obtain ⟨n, pc⟩ := c
            cases pc <;> first | (simp [CompassConc.callRank]; done) | exact absurd rfl ho
          omega
        | snap pc => exact BucketPair.snap_rank (s := ⟨_, _⟩) (seen_sane hok.1 x) hok.1 _ hok.2 (by cases pc <;> first | rfl | exact absurd rfl ho)
      generalize (bucketN bi N).machine.step s x c = t at hlt
      exact .on (s' := t.1) (c' := t.2) rfl (le_refl _) (fun _ => le_refl _) hlt
  some es := fun ⟨c, hc, ho⟩ => ⟨c, hc, ho, ho⟩
  idle s x c h := by
    obtain ⟨b, hb⟩ := Option.isSome_iff_exists.1 h
    have : (bucketN bi N).machine.step s x c = (s, c) := bucket_idle bi s (seen N s x) c b hb
    rw [this]; exact h

/-- A counter of `N` buckets is seen as it is. -/
theorem callStep_seen (R : Rounding) (bi : Int) (N : Nat) (s : Parts BucketCounter BucketPC) (x : In BucketIn) (hx : Sane N x.res.count) (c : Call) :
    callStep R (bucketN bi N) bi s x c = callStep R (bucket bi) bi s x c := by
  have e : ∀ r, (bucketN bi N).machine.apply s.res (.step r x.res) = (bucket bi).machine.apply s.res (.step r x.res) := by
    intro r
    have : ∀ t, seen N t x.res = x.res := fun t => if_pos hx
    simp only [Machine.apply, bucketN, bucket, this]
  obtain ⟨u, pc⟩ := c
  cases pc <;> first | rfl | (simp only [callStep, e]; rfl)

theorem bucket_total {R : Rounding} {bi : Int} {n : Nat} {maxErr maxAdd now t1 t2 tv : Int} (es : List (Ev Use (In (Int × Nat)))) :
    Sane n (bucketUsed R bi n maxErr maxAdd now t1 t2 tv es).shared.marks.shared.total := by
  obtain ⟨-, -, -, h⟩ := bucket_inv R bi n maxErr maxAdd now t1 t2 tv es
  obtain ⟨es1, he1, -⟩ := h.marks
  rw [he1]
  obtain ⟨⟨es', h1, -⟩, -⟩ := C83_bucket_counters bi n maxErr maxAdd t1 t2 es1
  have h1 : (CompassConc.marking.run (init (BucketCounter.new bi n tv true) bi n maxErr maxAdd now t1 t2 : Pool (Parts BucketCounter BucketPC) Call).shared.marks es1).shared.total =
    (BucketCounter.after bi n t1 true es').shared := h1
  rw [h1]
  exact BucketCounter.sane_after bi n t1 true es'

theorem bucket_seen (R : Rounding) (bi : Int) (n : Nat) (maxErr maxAdd now t1 t2 tv : Int) (es : List (Ev Use (In (Int × Nat)))) :
    ∃ es', bucketUsed R bi n maxErr maxAdd now t1 t2 tv es = used R (bucketN bi n) (BucketCounter.new bi n tv true) bi n maxErr maxAdd now t1 t2 es' := by
  induction es using List.reverseRecOn with
  | nil => exact ⟨[], rfl⟩
  | append_singleton es e ih =>
    obtain ⟨es', h⟩ := ih
    have ht := bucket_total (R := R) (bi := bi) (n := n) (maxErr := maxErr) (maxAdd := maxAdd) (now := now) (t1 := t1) (t2 := t2) (tv := tv) es
    have hu : bucketUsed R bi n maxErr maxAdd now t1 t2 tv (es ++ [e]) = (bucketCompass R bi).apply (bucketUsed R bi n maxErr maxAdd now t1 t2 tv es) e := Machine.run_snoc ..
    rw [hu]
    have hu' : ∀ e', used R (bucketN bi n) (BucketCounter.new bi n tv true) bi n maxErr maxAdd now t1 t2 (es' ++ [e']) =
      (machine R (bucketN bi n) bi).apply (bucketUsed R bi n maxErr maxAdd now t1 t2 tv es) e' := fun e' => by rw [h]; exact Machine.run_snoc ..
    generalize bucketUsed R bi n maxErr maxAdd now t1 t2 tv es = p at ht hu'
    cases e with
    | spawn a => exact ⟨es' ++ [.spawn a], by rw [hu']; rfl⟩
    | step i x =>
      refine ⟨es' ++ [.step i (atTotal p.shared x)], ?_⟩
      rw [hu']
      cases hi : p.calls[i]? with
      | none => simp only [Machine.apply, hi]
      | some c =>
        simp only [Machine.apply, hi]
        have := callStep_seen R bi n p.shared (atTotal p.shared x) ht c
        simp only [bucketCompass, machine]
        rw [this]

end Whole

/-- **C100.** A compass with a bucket reservoir: if the scheduler is fair and no new calls start, all calls end. -/
theorem C100_compass_bucket (R : Rounding) (bi : Int) (n : Nat) (maxErr maxAdd now t1 t2 tv : Int) (before : List (Ev Use (In (Int × Nat))))
    (f : Nat → Nat × In (Int × Nat)) (hf : Fair (fun _ => True) (bucketUsed R bi n maxErr maxAdd now t1 t2 tv before).calls.length f) :
    ∃ m, ∀ k, m ≤ k → ∀ c ∈ (bucketUsed R bi n maxErr maxAdd now t1 t2 tv (before ++ firstTurns f k)).calls, c.ended = true := by
  obtain ⟨es', h0⟩ := bucket_seen R bi n maxErr maxAdd now t1 t2 tv before
  let g : Nat → Nat × In BucketIn := fun k => ((f k).1, atTotal (bucketUsed R bi n maxErr maxAdd now t1 t2 tv (before ++ firstTurns f k)).shared (f k).2)
  have hg : ∀ k, bucketUsed R bi n maxErr maxAdd now t1 t2 tv (before ++ firstTurns f k) =
      used R (bucketN bi n) (BucketCounter.new bi n tv true) bi n maxErr maxAdd now t1 t2 (es' ++ firstTurns g k) := by
    intro k
    induction k with
    | zero => simpa [firstTurns] using h0
    | succ k ih =>
      have e1 : bucketUsed R bi n maxErr maxAdd now t1 t2 tv (before ++ firstTurns f (k + 1)) =
          (bucketCompass R bi).apply (bucketUsed R bi n maxErr maxAdd now t1 t2 tv (before ++ firstTurns f k)) (.step (f k).1 (f k).2) := by
        rw [firstTurns_succ, ← List.append_assoc]; exact Machine.run_snoc ..
      have e2 : used R (bucketN bi n) (BucketCounter.new bi n tv true) bi n maxErr maxAdd now t1 t2 (es' ++ firstTurns g (k + 1)) =
          (machine R (bucketN bi n) bi).apply (used R (bucketN bi n) (BucketCounter.new bi n tv true) bi n maxErr maxAdd now t1 t2 (es' ++ firstTurns g k)) (.step (g k).1 (g k).2) := by
        rw [firstTurns_succ, ← List.append_assoc]; exact Machine.run_snoc ..
      have ht := bucket_total (R := R) (bi := bi) (n := n) (maxErr := maxErr) (maxAdd := maxAdd) (now := now) (t1 := t1) (t2 := t2) (tv := tv) (before ++ firstTurns f k)
      rw [e1, e2, ← ih]
      simp only [g]
      generalize bucketUsed R bi n maxErr maxAdd now t1 t2 tv (before ++ firstTurns f k) = p at ht
      cases hi : p.calls[(f k).1]? with
      | none => simp only [Machine.apply, hi]
      | some c =>
        simp only [Machine.apply, hi]
        have := callStep_seen R bi n p.shared (atTotal p.shared (f k).2) ht c
        simp only [bucketCompass, machine]
        rw [this]
  obtain ⟨m, hm⟩ := C100_compass R (bucketN bi n) bucketArg (bucketN_ok bi n) _ _ (bucketN_ranked bi n tv).fairly bi n maxErr maxAdd now t1 t2 es' g (by
    change Fair _ (used R (bucketN bi n) (BucketCounter.new bi n tv true) bi n maxErr maxAdd now t1 t2 es').calls.length g
    rw [← h0]
    intro i hi m
    obtain ⟨k, h1, h2, -⟩ := hf i hi m
    exact ⟨k, h1, h2, trivial⟩)
  refine ⟨m, fun k hk => ?_⟩
  rw [hg k]
  exact hm k hk

/-- An update and a snapshot of a compass with a bucket reservoir, in turn. -/
example :
    let before : List (Ev Use (In (Int × Nat))) := [.spawn (.update 7 ⟨true, "e", ""⟩), .spawn .snapshot] ++ List.replicate 10 (.step 0 ⟨0, 21000, (21000, 0)⟩)
    let f : Nat → Nat × In (Int × Nat) := fun k => (k % 2, ⟨0, 21000, (21000, 0)⟩)
    let p := bucketUsed .exact 10000000000 3 1 1 0 0 0 0 before
    let q := bucketUsed .exact 10000000000 3 1 1 0 0 0 0 (before ++ firstTurns f 120)
    p.calls.length = 2 ∧ (∀ c ∈ p.calls, c.ended = false) ∧ Fair (fun _ => True) 2 f ∧ ∀ c ∈ q.calls, c.ended = true := by
  refine ⟨by decide +kernel, by decide +kernel, ?_, by decide +kernel⟩
  intro i hi m
  exact ⟨2 * m + i, by omega, by simp only; omega, trivial⟩

end GoMetrics
