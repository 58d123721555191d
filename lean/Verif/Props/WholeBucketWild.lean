import Verif.Model.WholeBucketWild
import Verif.Props.WholeWild
import Verif.Props.WholeBucket
import Verif.Props.BucketWild
/-! # C110 — a whole compass with a bucket reservoir whatever unsynchronised loads return -/
namespace GoMetrics
namespace WholeWild
open Whole
open CompassConc (MarkArg Mark Marks TickSeen)
open BucketCounter (Seen)

theorem wildStep_n (b : BucketCounter) (e : Seen) (c : BucketCounter.Call) : (BucketCounter.wildStep b e c).2.n = c.n := by
  unfold BucketCounter.wildStep
  split
  · exact (BucketCounter.callStep_const _ _ _).2.2.2
  · exact (BucketCounter.callStep_const _ _ _).2.2.2

theorem wildBucket_idle (bi : Int) (s : BucketCounter) (x : BucketSeen) (c : BucketPC) (b : Bool) (h : (wildBucket bi).over c = some b) :
    (wildBucket bi).machine.step s x c = (s, c) := by
  cases c with
  | upd c =>
    obtain ⟨n, pc⟩ := c
    cases pc <;> first | rfl | (cases h; done)
  | snap pc => cases pc <;> first | rfl | (cases h; done)

theorem wildBucket_ok (bi : Int) : (wildBucket bi).Ok bucketArg where
  arg_update _ := rfl
  arg_snapshot := rfl
  arg_step s x c := by
    cases c with
    | upd c => exact congrArg some (wildStep_n s x.seen c)
    | snap pc => rfl
  over_step s x c b h := by rw [wildBucket_idle bi s x c b h]; exact h

/-- The reservoir of such a compass is a bucket counter to which `UpdateN` calls were made; the snapshots leave it alone. -/
theorem wildBucket_value (bi : Int) (s : BucketCounter) (es : List (Ev (Option Int) BucketSeen)) :
    ∃ es' : List (Ev Int Seen),
      ((wildBucketConc bi).run (Machine.start s) es).shared = (BucketCounter.wild.run (Machine.start s) es').shared ∧
      ((wildBucketConc bi).run (Machine.start s) es).calls.filterMap updOf? = (BucketCounter.wild.run (Machine.start s) es').calls := by
  induction es using List.reverseRecOn with
  | nil => exact ⟨[], rfl, rfl⟩
  | append_singleton es e ih =>
    obtain ⟨es', h1, h2⟩ := ih
    simp only [Machine.run_snoc]
    generalize (wildBucketConc bi).run (Machine.start s) es = p at h1 h2
    cases e with
    | spawn a =>
      cases a with
      | none => exact ⟨es', h1, by simp only [Machine.apply, List.filterMap_append, h2]; simp [wildBucketConc, updOf?]⟩
      | some d =>
        refine ⟨es' ++ [.spawn d], ?_, ?_⟩
        · rw [Machine.run_snoc]; exact h1
        · rw [Machine.run_snoc]
          simp only [Machine.apply, List.filterMap_append, h2]; simp [wildBucketConc, updOf?, BucketCounter.wild]
    | step i x =>
      cases hc : p.calls[i]? with
      | none => exact ⟨es', by simpa only [Machine.apply, hc] using h1, by simpa only [Machine.apply, hc] using h2⟩
      | some c =>
        have hi : i < p.calls.length := (List.getElem?_eq_some_iff.1 hc).1
        have hsplit : p.calls = p.calls.take i ++ c :: p.calls.drop (i + 1) := by
          have := (List.getElem?_eq_some_iff.1 hc).2
          rw [← this, List.cons_getElem_drop_succ, List.take_append_drop]
        have hset : ∀ c', p.calls.set i c' = p.calls.take i ++ c' :: p.calls.drop (i + 1) := fun c' => List.set_eq_take_cons_drop c' hi
        cases c with
        | snap pc =>
          refine ⟨es', ?_, ?_⟩
          · simp only [Machine.apply, hc]; exact h1
          · simp only [Machine.apply, hc]
            rw [hset]
            rw [hsplit] at h2
            simp only [List.filterMap_append, List.filterMap_cons] at h2 ⊢
            exact h2
        | upd c =>
          rw [hsplit] at h2
          simp only [List.filterMap_append, List.filterMap_cons, updOf?] at h2
          set pre := (p.calls.take i).filterMap updOf? with hpre
          have hget : (BucketCounter.wild.run (Machine.start s) es').calls[pre.length]? = some c := by
            rw [← h2]; simp
          refine ⟨es' ++ [.step pre.length x.seen], ?_, ?_⟩
          · rw [Machine.run_snoc]
            simp only [Machine.apply, hc, hget]
            rw [← h1]; rfl
          · rw [Machine.run_snoc]
            simp only [Machine.apply, hc, hget]
            rw [hset, ← h2]
            simp only [List.filterMap_append, List.filterMap_cons]
            rw [List.set_append_right _ _ (le_refl _), Nat.sub_self, List.set_cons_zero, ← h1]
            rfl

section
variable {S C A I : Type} {R : Rounding} {T : Stepped S C A I} {arg : C → Option Int} {bi : Int} {Qt : TickSeen → Prop} {Qr : I → Prop}
  {p0 p : Pool (Parts S C) Call}

/-- What is in the reservoir, or on its way into it, is the duration of some update. -/
theorem started_arg (h : Inv R T arg bi Qt Qr p0 p) : (p.shared.res.calls.filterMap arg).Subperm ((recorded p).map Prod.fst) := by
  have := sup_calls Call.resIx (fun c => c.recorded?.map Prod.fst) arg p.calls p.shared.res.calls h.resIx ?_
  · rw [recorded, List.map_filterMap]
    exact this
  · intro c hc m k hm hk
    have hh := h.here c hc
    have key : ∀ a d, c.use = .update d a → (Machine.At p.shared.res m fun k => arg k = some d) → arg k = none ∨ arg k = c.recorded?.map Prod.fst := by
      rintro a d hu ⟨k', g1, g2⟩
      rw [hk] at g1
      obtain rfl := Option.some.inj g1
      exact .inr (by simp [Call.recorded?, hu, g2])
    have key2 : (Machine.At p.shared.res m fun k => arg k = none) → arg k = none := by
      rintro ⟨k', g1, g2⟩
      rw [hk] at g1
      obtain rfl := Option.some.inj g1
      exact g2
    obtain ⟨use, pc⟩ := c
    cases pc <;> simp only [Call.resIx, Option.some.injEq, reduceCtorEq] at hm
    · subst hm; obtain ⟨d, a, hu, -, -, g⟩ := hh; exact key a d hu g
    · subst hm; obtain ⟨d, a, hu, -, -, g⟩ := hh; exact key a d hu (g.mono fun _ hg => hg.1)
    · subst hm; exact .inl (key2 hh.2)
    · subst hm; obtain ⟨d, a, hu, -, -, g⟩ := hh; exact key a d hu (g.mono fun _ hg => hg.1)
    · subst hm; obtain ⟨d, a, hu, -, -, g⟩ := hh; exact key a d hu (g.mono fun _ hg => hg.1)
    · subst hm; exact .inl (key2 (hh.2.mono fun _ hg => hg.1))

/-- The durations of the updates that are over have been through the reservoir. -/
theorem finished_arg (h : Inv R T arg bi Qt Qr p0 p) :
    ((finished p).map Prod.fst).Subperm (p.shared.res.calls.filterMap fun k => if T.over k = some false then arg k else none) := by
  have := sub_calls Call.resIx (fun c => if c.over then c.recorded?.map Prod.fst else none) (fun k => if T.over k = some false then arg k else none)
    p.calls p.shared.res.calls h.resIx ?_
  · have e1 : (finished p).map Prod.fst = p.calls.filterMap (fun c => if c.over then c.recorded?.map Prod.fst else none) := by
      unfold finished
      rw [List.map_filterMap, List.filterMap_filter]
    rw [e1]; exact this
  · intro c hc b hb
    have hh := h.here c hc
    obtain ⟨use, pc⟩ := c
    cases pc <;> simp only [Call.over, if_true, Bool.false_eq_true, if_false, reduceCtorEq] at hb
    · obtain ⟨d, a, hu, -, -, ⟨k, k1, k2, k3⟩⟩ := hh
      simp only at hu
      subst hu
      simp only [Call.recorded?, Option.map_some, Option.some.injEq] at hb
      exact ⟨_, k, rfl, k1, by rw [if_pos k3, k2, hb]⟩
    · obtain ⟨⟨w, hu⟩, -⟩ := hh
      simp only at hu
      subst hu; simp [Call.recorded?] at hb
    · obtain ⟨hu, -⟩ := hh
      simp only at hu
      subst hu; simp [Call.recorded?] at hb
end

theorem wildBucket_inv (R : Rounding) (bi : Int) (n : Nat) (maxErr maxAdd now t1 t2 tv : Int) (es : List (Ev Use (InBy TickSeen Seen BucketSeen))) :
    Inv R (wildBucket bi) bucketArg bi (fun _ => True) (fun _ => True) (init (BucketCounter.new bi n tv true) bi n maxErr maxAdd now t1 t2)
      (wildBucketUsed R bi n maxErr maxAdd now t1 t2 tv es) :=
  inv_all (wildBucket_ok bi) _ n maxErr maxAdd now t1 t2 es (fun _ _ _ => ⟨trivial, trivial⟩)

/-- The value counter of the reservoir. -/
theorem wildBucket_reservoir {R : Rounding} {bi : Int} {n : Nat} {maxErr maxAdd now t1 t2 tv : Int} {p : Pool (Parts BucketCounter BucketPC) Call}
    (h : Inv R (wildBucket bi) bucketArg bi (fun _ => True) (fun _ => True) (init (BucketCounter.new bi n tv true) bi n maxErr maxAdd now t1 t2) p) :
    ∃ es : List (Ev Int Seen), p.shared.res.shared = (BucketCounter.wildAfter bi n tv true es).shared ∧
      p.shared.res.calls.filterMap updOf? = (BucketCounter.wildAfter bi n tv true es).calls := by
  obtain ⟨es', e1, -⟩ := h.res
  obtain ⟨es'', g1, g2⟩ := wildBucket_value bi (BucketCounter.new bi n tv true) es'
  exact ⟨es'', by rw [show p.shared.res = (wildBucketConc bi).run (Machine.start (BucketCounter.new bi n tv true)) es' from e1]; exact g1,
    by rw [show p.shared.res = (wildBucketConc bi).run (Machine.start (BucketCounter.new bi n tv true)) es' from e1]; exact g2⟩

theorem wildFine_step {bi : Int} (hbi : 1000000000 ≤ bi) {s : BucketCounter} (hs : s.interval = bi) {x : BucketSeen} {c : BucketPC} (h : Fine c) :
    Fine ((wildBucketConc bi).step s x c).2 := by
  cases c with
  | upd c => exact CompassWild.wildStep_alive (b := s) (t := x.seen) (by omega) h
  | snap pc =>
    exact fine_step (s := (x.counters bi).value) (x := ⟨x.seen.clock, x.pick, (x.counters bi).count⟩) (c := .snap pc) hbi rfl rfl h

/-- With a bucket interval of at least a second no call of the reservoir ever panics. -/
theorem wildFine_run {bi : Int} (hbi : 1000000000 ≤ bi) (n : Nat) (tv : Int) (es : List (Ev (Option Int) BucketSeen)) :
    let p := (wildBucketConc bi).run (Machine.start (BucketCounter.new bi n tv true)) es
    p.shared.interval = bi ∧ ∀ q ∈ p.calls, Fine q := by
  refine (wildBucketConc bi).inv_run (fun p => p.shared.interval = bi ∧ ∀ q ∈ p.calls, Fine q) ?_ ?_ _ ⟨rfl, by simp [Machine.start]⟩ es
  · rintro s cs a ⟨h1, h2⟩
    refine ⟨h1, fun q hq => ?_⟩
    rcases List.mem_append.1 hq with hq | hq
    · exact h2 q hq
    · rw [List.mem_singleton.1 hq]
      cases a with
      | none => trivial
      | some d => change BucketCounter.PC.start ≠ .panicked; simp
  · rintro s pre c post x ⟨h1, h2⟩
    constructor
    · cases c with
      | upd c => exact (CompassWild.wildStep_const s x.seen c).2.trans h1
      | snap pc => exact h1
    · intro q hq
      rcases List.mem_append.1 hq with hq | hq
      · exact h2 q (by simp [hq])
      · rcases List.mem_cons.1 hq with rfl | hq
        · exact wildFine_step hbi h1 (h2 c (by simp))
        · exact h2 q (by simp [hq])

/-- The durations that the value counter has got. -/
theorem wildValue_total {R : Rounding} {bi : Int} {n : Nat} {maxErr maxAdd now t1 t2 tv : Int} {p : Pool (Parts BucketCounter BucketPC) Call}
    (h : Inv R (wildBucket bi) bucketArg bi (fun _ => True) (fun _ => True) (init (BucketCounter.new bi n tv true) bi n maxErr maxAdd now t1 t2) p) :
    ∃ l : List Int, p.shared.res.shared.getCount = i64 l.sum ∧ ((finished p).map Prod.fst).Subperm l ∧ l.Subperm ((recorded p).map Prod.fst) := by
  obtain ⟨es, e1, e2⟩ := wildBucket_reservoir h
  have hw := BucketCounter.winv_run bi n tv true es
  have hsum := hw.sum.total
  have hu : (BucketCounter.wildAfter bi n tv true es).shared.updateTotalCount = true := hw.u
  change (BucketCounter.wildAfter bi n tv true es).shared.getCount = if (BucketCounter.wildAfter bi n tv true es).shared.updateTotalCount then
    i64 ((BucketCounter.wildAfter bi n tv true es).calls.map BucketCounter.Call.totalled).sum else 0 at hsum
  rw [hu, if_pos rfl, ← e1, ← e2] at hsum
  set g : BucketPC → Option Int := fun k => match k with
    | .upd c => if c.pc = .start then none else some c.n
    | .snap _ => none with hg
  refine ⟨p.shared.res.calls.filterMap g, ?_, ?_, ?_⟩
  · rw [hsum]
    congr 1
    generalize p.shared.res.calls = l
    induction l with
    | nil => rfl
    | cons k l ih =>
      cases k with
      | snap pc => exact ih
      | upd c =>
        obtain ⟨m, pc⟩ := c
        simp only [List.filterMap_cons, updOf?, List.map_cons, List.sum_cons, ih, hg]
        cases pc <;> simp [BucketCounter.Call.totalled]
  · refine (finished_arg h).trans (List.Sublist.subperm ?_)
    generalize p.shared.res.calls = l
    induction l with
    | nil => exact List.Sublist.refl _
    | cons k l ih =>
      cases k with
      | snap pc => simp only [List.filterMap_cons, bucketArg, hg, ite_self]; exact ih
      | upd c =>
        obtain ⟨m, pc⟩ := c
        cases pc <;> simp only [List.filterMap_cons, wildBucket, bucket, bucketArg, hg, reduceCtorEq, if_false, if_true, Option.some.injEq, Bool.true_eq_false] <;>
          first | exact ih | exact ih.cons_cons _ | exact ih.cons _
  · refine List.Subperm.trans (List.Sublist.subperm ?_) (started_arg h)
    generalize p.shared.res.calls = l
    induction l with
    | nil => exact List.Sublist.refl _
    | cons k l ih =>
      cases k with
      | snap pc => exact ih
      | upd c =>
        obtain ⟨m, pc⟩ := c
        cases pc <;> simp only [List.filterMap_cons, bucketArg, hg, reduceCtorEq, if_false, if_true] <;>
          first | exact ih.cons_cons _ | exact ih.cons _

/-- **C110.** With a bucket reservoir, at every moment, whatever plain loads return: the values summed up in the reservoir are the durations of some of the calls, at least of those
that are over; no call is stopped by its reservoir or its counter, and no snapshot panics. (The counts: `C110_whole_anytime`.) -/
theorem _root_.GoMetrics.C110_bucket_anytime (R : Rounding) (bi : Int) (hbi : 1000000000 ≤ bi) (n : Nat) (maxErr maxAdd now t1 t2 tv : Int)
    (es : List (Ev Use (InBy TickSeen Seen BucketSeen))) :
    let p := wildBucketUsed R bi n maxErr maxAdd now t1 t2 tv es
    (∃ l : List Int, p.shared.res.shared.getCount = i64 l.sum ∧ ((finished p).map Prod.fst).Subperm l ∧ l.Subperm ((recorded p).map Prod.fst)) ∧
    (∀ c ∈ p.calls, (∀ i m r, c.pc ≠ .resPanicked i m r) ∧ (∀ i m, c.pc ≠ .crashed i m) ∧
      ∀ r, c.pc = .snapped r → ∃ b, p.shared.res.calls[r]? = some (.snap (.done b))) := by
  intro p
  have h := wildBucket_inv R bi n maxErr maxAdd now t1 t2 tv es
  change Inv R (wildBucket bi) bucketArg bi _ _ _ p at h
  refine ⟨wildValue_total h, ?_⟩
  have hf : ∀ q ∈ p.shared.res.calls, Fine q := by
    obtain ⟨es', e1, -⟩ := h.res
    rw [show p.shared.res = (wildBucketConc bi).run (Machine.start (BucketCounter.new bi n tv true)) es' from e1]
    exact (wildFine_run hbi n tv es').2
  intro c hc
  have hh := h.here c hc
  refine ⟨fun i m r e => ?_, fun i m e => ?_, fun r e => ?_⟩
  · unfold Here at hh
    rw [e] at hh
    obtain ⟨d, a, -, -, -, q, q1, -, q2⟩ := hh
    have := hf q (List.mem_of_getElem? q1)
    rcases q with ⟨_, pc⟩ | pc <;> cases pc <;> first | (cases q2; done) | exact this rfl | exact this
  · unfold Here at hh
    rw [e] at hh
    obtain ⟨d, a, -, -, k, k1, -, k2⟩ := hh
    obtain ⟨es1, he1, -⟩ := h.marks
    have g2 := CompassWild.alive_run bi hbi n maxErr maxAdd t1 t2 es1
    change ∀ m ∈ (CompassWild.wildMarked bi n maxErr maxAdd t1 t2 es1).calls, m.pc.alive at g2
    rw [show CompassWild.wildMarked bi n maxErr maxAdd t1 t2 es1 = p.shared.marks from he1.symm] at g2
    have := g2 k (List.mem_of_getElem? k1)
    rw [k2] at this
    exact this
  · unfold Here at hh
    rw [e] at hh
    obtain ⟨-, q, q1, q2, q3⟩ := hh
    have := hf q (List.mem_of_getElem? q1)
    rcases q with ⟨_, pc⟩ | pc
    · cases q2
    · cases pc <;> first | (cases q3; done) | exact ⟨_, q1⟩ | exact absurd this id

/-- **C110.** When every call is over, the reservoir has summed up every recorded duration exactly once. (The counts: `C110_whole`.) -/
theorem _root_.GoMetrics.C110_bucket_quiescent (R : Rounding) (bi : Int) (n : Nat) (maxErr maxAdd now t1 t2 tv : Int)
    (es : List (Ev Use (InBy TickSeen Seen BucketSeen))) (hq : ∀ c ∈ (wildBucketUsed R bi n maxErr maxAdd now t1 t2 tv es).calls, c.over = true) :
    let p := wildBucketUsed R bi n maxErr maxAdd now t1 t2 tv es
    p.shared.res.shared.getCount = i64 ((recorded p).map Prod.fst).sum := by
  intro p
  have h := wildBucket_inv R bi n maxErr maxAdd now t1 t2 tv es
  obtain ⟨l, g1, g2, g3⟩ := wildValue_total h
  have e : finished p = recorded p := by
    unfold finished recorded
    rw [List.filter_eq_self.2 hq]
  change (List.map Prod.fst (finished p)).Subperm l at g2
  rw [e] at g2
  have := g2.antisymm g3
  change p.shared.res.shared.getCount = i64 l.sum at g1
  rw [g1, this.sum_eq]

/-! ## The executions of C86 with a bucket reservoir are among these -/

theorem wildRes_fresh {bi : Int} {N : Nat} (p : Pool BucketCounter BucketPC) (h : BucketCounter.SharedOk N p.shared) (hi : p.shared.interval = bi)
    (cnt : BucketCounter) (hc : cnt.interval = bi) (i : Nat) (t : Int) (k : Nat) :
    (wildBucketConc bi).apply p (.step i ⟨⟨t, p.shared.latestBucket, false, p.shared.buckets.current⟩, k, ⟨cnt, p.shared⟩⟩) =
      (bucketConc bi).apply p (.step i ⟨t, k, cnt⟩) := by
  cases hx : p.calls[i]? with
  | none => simp only [Machine.apply, hx]
  | some c =>
    simp only [Machine.apply, hx]
    have e1 : ({ cnt with interval := bi } : BucketCounter) = cnt := by rw [← hc]
    have e2 : ({ p.shared with interval := bi } : BucketCounter) = p.shared := by rw [← hi]
    cases c with
    | upd c =>
      simp only [wildBucketConc, bucketConc, BucketCounter.wild_fresh h c t]
    | snap pc =>
      simp only [wildBucketConc, bucketConc, BucketSeen.counters, e1, e2]

theorem wildSpawn (bi : Int) (p : Pool BucketCounter BucketPC) (a : Option Int) :
    (wildBucketConc bi).apply p (.spawn a) = (bucketConc bi).apply p (.spawn a) := by cases a <;> rfl

theorem wildBucket_step {bi : Int} {N M : Nat} (R : Rounding) (s : Parts BucketCounter BucketPC) (hm : FreshOk N s.marks.shared)
    (h : BucketCounter.SharedOk M s.res.shared) (hi : s.res.shared.interval = bi) (ht : s.marks.shared.total.interval = bi) (x : In (Int × Nat)) (c : Call) :
    ∃ y, (wildBucketCompass R bi).step s y c = (bucketCompass R bi).step s x c := by
  have hres := fun r => wildRes_fresh s.res h hi s.marks.shared.total ht r x.res.1 x.res.2
  have hw : ∀ y c, (wildBucketCompass R bi).step s y c =
      callStepBy R (wildBucket bi) (CompassConc.wildConc bi) CompassConc.wildMarking (fun any r => any.getD r) s y c := fun _ _ => rfl
  have hb : ∀ c, (bucketCompass R bi).step s x c = callStep R (bucket bi) bi s (atTotal s x) c := fun _ => rfl
  obtain ⟨use, pc⟩ := c
  let v : BucketSeen := ⟨⟨x.res.1, s.res.shared.latestBucket, false, s.res.shared.buckets.current⟩, x.res.2, ⟨s.marks.shared.total, s.res.shared⟩⟩
  cases pc with
  | total i m =>
    obtain ⟨e, he⟩ := marks_fresh hm m x.time
    refine ⟨⟨⟨0, 0⟩, e, v, none⟩, ?_⟩
    rw [hw, hb]
    simp only [callStepBy, callStep, he]
    show _ = _
    cases hk : s.marks.calls[m]? with
    | none => rfl
    | some k =>
      simp only []
      by_cases h1 : pastTotal k = true
      · rw [if_pos h1, if_pos h1]
        by_cases h2 : k.pc = .crashed
        · rw [if_pos h2, if_pos h2]
        · rw [if_neg h2, if_neg h2]
          cases use <;> rfl
      · rw [if_neg h1, if_neg h1]; rfl
  | rest i m r =>
    obtain ⟨e, he⟩ := marks_fresh hm m x.time
    refine ⟨⟨⟨0, 0⟩, e, v, none⟩, ?_⟩
    rw [hw, hb]
    simp only [callStepBy, callStep, he]; rfl
  | tick i =>
    refine ⟨⟨⟨x.tick, s.ticks.shared.lastTick⟩, ⟨0, 0, false, 0⟩, v, none⟩, ?_⟩
    rw [hw, hb]
    simp only [callStepBy, callStep, ticks_fresh]; rfl
  | res i m r =>
    refine ⟨⟨⟨0, 0⟩, ⟨0, 0, false, 0⟩, v, none⟩, ?_⟩
    rw [hw, hb]
    simp only [callStepBy, callStep]
    cases hk : s.res.calls[r]? with
    | none => rfl
    | some q =>
      have := hres r
      show (match (bucket bi).over q with
        | some true => (s, _)
        | some false => (s, _)
        | none => ({ s with res := (wildBucketConc bi).apply s.res (.step r v) }, _)) = _
      rw [show (wildBucketConc bi).apply s.res (.step r v) = _ from this]
      rfl
  | snap r =>
    refine ⟨⟨⟨0, 0⟩, ⟨0, 0, false, 0⟩, v, none⟩, ?_⟩
    rw [hw, hb]
    simp only [callStepBy, callStep]
    cases hk : s.res.calls[r]? with
    | none => rfl
    | some q =>
      have := hres r
      show (if ((bucket bi).over q).isSome = true then (s, _) else ({ s with res := (wildBucketConc bi).apply s.res (.step r v) }, _)) = _
      rw [show (wildBucketConc bi).apply s.res (.step r v) = _ from this]
      rfl
  | start => refine ⟨⟨⟨0, 0⟩, ⟨0, 0, false, 0⟩, v, none⟩, ?_⟩; cases use <;> rfl
  | _ => exact ⟨⟨⟨0, 0⟩, ⟨0, 0, false, 0⟩, v, none⟩, rfl⟩

theorem wildBucket_step' (R : Rounding) {bi : Int} {n : Nat} {maxErr maxAdd now t1 t2 tv : Int} {p : Pool (Parts BucketCounter BucketPC) Call}
    (hi : Whole.Inv R (bucket bi) bucketArg bi (fun _ => True) (fun _ => True) (init (BucketCounter.new bi n tv true) bi n maxErr maxAdd now t1 t2) p)
    (x : In (Int × Nat)) (c : Call) : ∃ y, (wildBucketCompass R bi).step p.shared y c = (bucketCompass R bi).step p.shared x c := by
  have hok : FreshOk n p.shared.marks.shared ∧ p.shared.marks.shared.total.interval = bi := by
    obtain ⟨es1, e1, -⟩ := hi.marks
    rw [e1]; exact ⟨freshOk_run bi n maxErr maxAdd t1 t2 es1, CompassConc.sim_const (CompassConc.minv_run bi n maxErr maxAdd t1 t2 es1).total⟩
  obtain ⟨es2, k1, -⟩ := bucket_reservoir hi
  have hr : BucketCounter.SharedOk n p.shared.res.shared := by
    rw [k1]; exact (BucketCounter.cinv_run n _ (BucketCounter.sharedOk_new bi n tv true) es2).shared
  have hI : p.shared.res.shared.interval = bi := by rw [k1]; exact after_interval bi n tv es2
  exact wildBucket_step R p.shared hok.1 hr hI hok.2 x c

/-- **C110.** The executions of C86 with a bucket reservoir are among these. -/
theorem _root_.GoMetrics.C110_bucket_covers (R : Rounding) (bi : Int) (n : Nat) (maxErr maxAdd now t1 t2 tv : Int) (es : List (Ev Use (In (Int × Nat)))) :
    ∃ es', wildBucketUsed R bi n maxErr maxAdd now t1 t2 tv es' = bucketUsed R bi n maxErr maxAdd now t1 t2 tv es := by
  induction es using List.reverseRecOn with
  | nil => exact ⟨[], rfl⟩
  | append_singleton es e ih =>
    obtain ⟨es', h'⟩ := ih
    obtain ⟨-, -, -, hi⟩ := bucket_inv R bi n maxErr maxAdd now t1 t2 tv es
    have hsnoc : bucketUsed R bi n maxErr maxAdd now t1 t2 tv (es ++ [e]) = (bucketCompass R bi).apply (bucketUsed R bi n maxErr maxAdd now t1 t2 tv es) e :=
      Machine.run_snoc _ _ _ _
    have hsnoc' : ∀ e', wildBucketUsed R bi n maxErr maxAdd now t1 t2 tv (es' ++ [e']) =
        (wildBucketCompass R bi).apply (wildBucketUsed R bi n maxErr maxAdd now t1 t2 tv es') e' := fun _ => Machine.run_snoc _ _ _ _
    rw [hsnoc]
    rw [h'] at hsnoc'
    generalize bucketUsed R bi n maxErr maxAdd now t1 t2 tv es = p at *
    cases e with
    | spawn a => exact ⟨es' ++ [.spawn a], hsnoc' _⟩
    | step i x =>
      cases hc : p.calls[i]? with
      | none =>
        refine ⟨es' ++ [.step i ⟨⟨0, 0⟩, ⟨0, 0, false, 0⟩, ⟨⟨0, 0, false, 0⟩, 0, ⟨p.shared.res.shared, p.shared.res.shared⟩⟩, none⟩], ?_⟩
        rw [hsnoc']
        simp only [Machine.apply, hc]
      | some c =>
        obtain ⟨y, hy⟩ := wildBucket_step' R hi x c
        refine ⟨es' ++ [.step i y], ?_⟩
        rw [hsnoc']
        simp only [Machine.apply, hc, hy]

/-- Two updates, a snapshot and a rate read, in turn; pointers, positions and timestamps appear differently at every load, and the snapshot finds in the two counters what
was in them never. -/
def hectic (k : Nat) : List (Ev Use (InBy TickSeen Seen BucketSeen)) :=
  [.spawn (.update 7 ⟨true, "", ""⟩), .spawn (.update 9 ⟨false, "e", "x"⟩), .spawn .snapshot, .spawn (.rate .m5)] ++
  (List.range k).flatMap (fun t => (List.range 4).map fun i =>
    .step i ⟨⟨400000000 * t, if t % 7 = 0 then 0 else 3000000000⟩, ⟨1500 * t, t, t % 2 = 0, t / 3⟩,
      ⟨⟨1500 * t, t, t % 3 = 0, t / 2⟩, t, ⟨BucketCounter.new 1 (t % 5) 77 true, BucketCounter.new 3 2 t false⟩⟩, some (.fin t)⟩)

/-- All calls finish, the counts are as they should be, and the durations are summed up. -/
example :
    let p := wildBucketUsed .exact 5000000000 3 1 1 0 0 0 0 (hectic 200)
    (∀ c ∈ p.calls, c.over = true) ∧ p.calls.length = 4 ∧ p.shared.marks.shared.total.getCount = 2 ∧
      p.shared.marks.shared.success.getCount = 1 ∧ (p.shared.marks.shared.lab false).counters.keys = ["e"] ∧ p.shared.res.shared.getCount = 16 := by
  decide +kernel

end WholeWild
end GoMetrics
