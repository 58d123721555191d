import Verif.Model.WholeBucket
import Verif.Props.WholeCompassRes
import Verif.Props.WholeProgress
import Verif.Props.Alone
import Verif.Props.BucketPair
/-! # C86, C87, C91 — a whole compass with a bucket reservoir -/
namespace GoMetrics
open Whole
open CompassConc (MarkArg Mark Marks)
namespace Whole

/-- The value of an `UpdateN` call on a bucket reservoir. -/
def bucketArg : BucketPC → Option Int
  | .upd c => some c.n
  | .snap _ => none

/-- The call of the counter `valuePerBucket` that an `UpdateN` is in. -/
def updOf? : BucketPC → Option BucketCounter.Call
  | .upd c => some c
  | .snap _ => none

theorem bucket_idle (bi : Int) (s : BucketCounter) (x : BucketIn) (c : BucketPC) (b : Bool) (h : (bucket bi).over c = some b) :
    (bucket bi).machine.step s x c = (s, c) := by
  cases c with
  | upd c =>
    obtain ⟨n, pc⟩ := c
    cases pc <;> first | rfl | (cases h; done)
  | snap pc => cases pc <;> first | rfl | (cases h; done)

theorem bucket_ok (bi : Int) : (bucket bi).Ok bucketArg where
  arg_update _ := rfl
  arg_snapshot := rfl
  arg_step s x c := by
    cases c with
    | upd c => exact congrArg some (BucketCounter.callStep_const s x.time c).2.2.2
    | snap pc => rfl
  over_step s x c b h := by rw [bucket_idle bi s x c b h]; exact h

/-- The same event; what the reservoir sees of the rest of the compass is left open on the right. -/
def Same : Ev Use (In (Int × Nat)) → Ev Use (In BucketIn) → Prop
  | .spawn u, .spawn v => u = v
  | .step i x, .step j y => i = j ∧ y.tick = x.tick ∧ y.time = x.time ∧ y.res.time = x.res.1 ∧ y.res.pick = x.res.2
  | _, _ => False

/-- What holds of a compass whose reservoir may see anything in place of the counter it points to, holds of the real one. -/
theorem bucket_run (R : Rounding) (bi : Int) (p : Pool (Parts BucketCounter BucketPC) Call) (es : List (Ev Use (In (Int × Nat)))) :
    ∃ es', List.Forall₂ Same es es' ∧ (bucketCompass R bi).run p es = (machine R (bucket bi) bi).run p es' := by
  induction es generalizing p with
  | nil => exact ⟨[], .nil, rfl⟩
  | cons e es ih =>
    cases e with
    | spawn u =>
      obtain ⟨es', h1, h2⟩ := ih ((bucketCompass R bi).apply p (.spawn u))
      exact ⟨.spawn u :: es', .cons rfl h1, h2⟩
    | step i x =>
      obtain ⟨es', h1, h2⟩ := ih ((bucketCompass R bi).apply p (.step i x))
      refine ⟨.step i (atTotal p.shared x) :: es', .cons ⟨rfl, rfl, rfl, rfl, rfl⟩ h1, ?_⟩
      rw [Machine.run_cons, Machine.run_cons, h2]
      rfl

theorem Same.of_step {es : List (Ev Use (In (Int × Nat)))} {es' : List (Ev Use (In BucketIn))} (h : List.Forall₂ Same es es') {i : Nat} {y : In BucketIn}
    (hy : Ev.step i y ∈ es') : ∃ x, Ev.step i x ∈ es ∧ y.tick = x.tick ∧ y.time = x.time ∧ y.res.time = x.res.1 ∧ y.res.pick = x.res.2 := by
  induction h with
  | nil => simp at hy
  | @cons a b es es' hab _ ih =>
    rcases List.mem_cons.1 hy with rfl | hy
    · cases a with
      | spawn u => cases hab
      | step j x => obtain ⟨rfl, h⟩ := hab; exact ⟨x, by simp, h⟩
    · obtain ⟨x, h1, h2⟩ := ih hy
      exact ⟨x, by simp [h1], h2⟩

/-- The reservoir of such a compass is a bucket counter to which `UpdateN` calls were made; the snapshots leave it alone. -/
theorem bucket_value (bi : Int) (s : BucketCounter) (P : Int → Prop) (es : List (Ev (Option Int) BucketIn)) (hes : ∀ i x, Ev.step i x ∈ es → P x.time) :
    ∃ es' : List (Ev Int Int), (∀ i t, Ev.step i t ∈ es' → P t) ∧
      ((bucketConc bi).run (Machine.start s) es).shared = (BucketCounter.conc.run (Machine.start s) es').shared ∧
      ((bucketConc bi).run (Machine.start s) es).calls.filterMap updOf? = (BucketCounter.conc.run (Machine.start s) es').calls := by
  induction es using List.reverseRecOn with
  | nil => exact ⟨[], by simp, rfl, rfl⟩
  | append_singleton es e ih =>
    obtain ⟨es', h0, h1, h2⟩ := ih (fun i x hx => hes i x (by simp [hx]))
    simp only [Machine.run_snoc]
    generalize (bucketConc bi).run (Machine.start s) es = p at h1 h2
    have hP : ∀ i x, e = Ev.step i x → P x.time := fun i x hx => hes i x (by simp [hx])
    cases e with
    | spawn a =>
      cases a with
      | none => exact ⟨es', h0, h1, by simp only [Machine.apply, List.filterMap_append, h2]; simp [bucketConc, updOf?]⟩
      | some d =>
        refine ⟨es' ++ [.spawn d], by simpa using h0, ?_, ?_⟩
        · rw [Machine.run_snoc]; exact h1
        · rw [Machine.run_snoc]
          simp only [Machine.apply, List.filterMap_append, h2]; simp [bucketConc, updOf?, BucketCounter.conc]
    | step i x =>
      cases hc : p.calls[i]? with
      | none => exact ⟨es', h0, by simpa only [Machine.apply, hc] using h1, by simpa only [Machine.apply, hc] using h2⟩
      | some c =>
        have hi : i < p.calls.length := (List.getElem?_eq_some_iff.1 hc).1
        have hsplit : p.calls = p.calls.take i ++ c :: p.calls.drop (i + 1) := by
          have := (List.getElem?_eq_some_iff.1 hc).2
          rw [← this, List.cons_getElem_drop_succ, List.take_append_drop]
        have hset : ∀ c', p.calls.set i c' = p.calls.take i ++ c' :: p.calls.drop (i + 1) := fun c' => List.set_eq_take_cons_drop c' hi
        cases c with
        | snap pc =>
          refine ⟨es', h0, ?_, ?_⟩
          · simp only [Machine.apply, hc]; exact h1
          · simp only [Machine.apply, hc]
            rw [hset]
            rw [hsplit] at h2
            simp only [List.filterMap_append, List.filterMap_cons] at h2 ⊢
            exact h2
        | upd c =>
          rw [hsplit] at h2
          simp only [List.filterMap_append, List.filterMap_cons, updOf?] at h2
          set pre := (p.calls.take i).filterMap updOf? with hpre
          have hget : (BucketCounter.conc.run (Machine.start s) es').calls[pre.length]? = some c := by
            rw [← h2]; simp
          refine ⟨es' ++ [.step pre.length x.time], ?_, ?_, ?_⟩
          · intro j t ht
            rcases List.mem_append.1 ht with ht | ht
            · exact h0 j t ht
            · simp only [List.mem_singleton, Ev.step.injEq] at ht
              rw [ht.2]; exact hP i x rfl
          · rw [Machine.run_snoc]
            simp only [Machine.apply, hc, hget]
            rw [← h1]; rfl
          · rw [Machine.run_snoc]
            simp only [Machine.apply, hc, hget]
            rw [hset, ← h2]
            simp only [List.filterMap_append, List.filterMap_cons]
            rw [List.set_append_right _ _ (le_refl _), Nat.sub_self, List.set_cons_zero, ← h1]
            rfl

section
variable {S C A I : Type} {R : Rounding} {T : Stepped S C A I} {arg : C → Option Int} {bi : Int} {Qt : Int → Prop} {Qr : I → Prop}
  {p0 p : Pool (Parts S C) Call}

/-- What is in the reservoir, or on its way into it, is the duration of some update. -/
theorem started_arg (h : Inv R T arg bi Qt Qr p0 p) : (p.shared.res.calls.filterMap arg).Subperm ((recorded p).map Prod.fst) := by
  have := sup_calls Call.resIx (fun c => c.recorded?.map Prod.fst) arg p.calls p.shared.res.calls h.resIx ?_
  · rw [recorded, List.map_filterMap]
    exact this
  · intro c hc m k hm hk
    have hh := h.here c hc
    have key : ∀ a d, c.use = .update d a → (Machine.At p.shared.res m fun k => arg k = some d) → arg k = none ∨ arg k = c.recorded?.map Prod.fst := by
      rintro a d hu ⟨k', g1, g2⟩
      rw [hk] at g1
      obtain rfl := Option.some.inj g1
      exact .inr (by simp [Call.recorded?, hu, g2])
    have key2 : (Machine.At p.shared.res m fun k => arg k = none) → arg k = none := by
      rintro ⟨k', g1, g2⟩
      rw [hk] at g1
      obtain rfl := Option.some.inj g1
      exact g2
    obtain ⟨use, pc⟩ := c
    cases pc <;> simp only [Call.resIx, Option.some.injEq, reduceCtorEq] at hm
    · subst hm; obtain ⟨d, a, hu, -, -, g⟩ := hh; exact key a d hu g
    · subst hm; obtain ⟨d, a, hu, -, -, g⟩ := hh; exact key a d hu (g.mono fun _ hg => hg.1)
    · subst hm; exact .inl (key2 hh.2)
    · subst hm; obtain ⟨d, a, hu, -, -, g⟩ := hh; exact key a d hu (g.mono fun _ hg => hg.1)
    · subst hm; obtain ⟨d, a, hu, -, -, g⟩ := hh; exact key a d hu (g.mono fun _ hg => hg.1)
    · subst hm; exact .inl (key2 (hh.2.mono fun _ hg => hg.1))

/-- The durations of the updates that are over have been through the reservoir. -/
theorem finished_arg (h : Inv R T arg bi Qt Qr p0 p) :
    ((finished p).map Prod.fst).Subperm (p.shared.res.calls.filterMap fun k => if T.over k = some false then arg k else none) := by
  have := sub_calls Call.resIx (fun c => if c.over then c.recorded?.map Prod.fst else none) (fun k => if T.over k = some false then arg k else none)
    p.calls p.shared.res.calls h.resIx ?_
  · have e1 : (finished p).map Prod.fst = p.calls.filterMap (fun c => if c.over then c.recorded?.map Prod.fst else none) := by
      unfold finished
      rw [List.map_filterMap, List.filterMap_filter]
    rw [e1]; exact this
  · intro c hc b hb
    have hh := h.here c hc
    obtain ⟨use, pc⟩ := c
    cases pc <;> simp only [Call.over, if_true, Bool.false_eq_true, if_false, reduceCtorEq] at hb
    · obtain ⟨d, a, hu, -, -, ⟨k, k1, k2, k3⟩⟩ := hh
      simp only at hu
      subst hu
      simp only [Call.recorded?, Option.map_some, Option.some.injEq] at hb
      exact ⟨_, k, rfl, k1, by rw [if_pos k3, k2, hb]⟩
    · obtain ⟨⟨w, hu⟩, -⟩ := hh
      simp only at hu
      subst hu; simp [Call.recorded?] at hb
    · obtain ⟨hu, -⟩ := hh
      simp only at hu
      subst hu; simp [Call.recorded?] at hb
end

theorem bucket_inv (R : Rounding) (bi : Int) (n : Nat) (maxErr maxAdd now t1 t2 tv : Int) (es : List (Ev Use (In (Int × Nat)))) :
    ∃ es', List.Forall₂ Same es es' ∧
      bucketUsed R bi n maxErr maxAdd now t1 t2 tv es = used R (bucket bi) (BucketCounter.new bi n tv true) bi n maxErr maxAdd now t1 t2 es' ∧
      Inv R (bucket bi) bucketArg bi (fun _ => True) (fun _ => True) (init (BucketCounter.new bi n tv true) bi n maxErr maxAdd now t1 t2)
        (bucketUsed R bi n maxErr maxAdd now t1 t2 tv es) := by
  obtain ⟨es', h1, h2⟩ := bucket_run R bi (init (BucketCounter.new bi n tv true) bi n maxErr maxAdd now t1 t2) es
  have h2 : bucketUsed R bi n maxErr maxAdd now t1 t2 tv es = used R (bucket bi) (BucketCounter.new bi n tv true) bi n maxErr maxAdd now t1 t2 es' := h2
  refine ⟨es', h1, h2, ?_⟩
  rw [h2]
  exact inv_all (bucket_ok bi) _ n maxErr maxAdd now t1 t2 es' (fun _ _ _ => ⟨trivial, trivial⟩)

/-- The value counter of the reservoir. -/
theorem bucket_reservoir {R : Rounding} {bi : Int} {n : Nat} {maxErr maxAdd now t1 t2 tv : Int} {p : Pool (Parts BucketCounter BucketPC) Call}
    (h : Inv R (bucket bi) bucketArg bi (fun _ => True) (fun _ => True) (init (BucketCounter.new bi n tv true) bi n maxErr maxAdd now t1 t2) p) :
    ∃ es : List (Ev Int Int), p.shared.res.shared = (BucketCounter.after bi n tv true es).shared ∧
      p.shared.res.calls.filterMap updOf? = (BucketCounter.after bi n tv true es).calls := by
  obtain ⟨es', e1, -⟩ := h.res
  obtain ⟨es'', -, g1, g2⟩ := bucket_value bi (BucketCounter.new bi n tv true) (fun _ => True) es' (fun _ _ _ => trivial)
  exact ⟨es'', by rw [show p.shared.res = (bucketConc bi).run (Machine.start (BucketCounter.new bi n tv true)) es' from e1]; exact g1,
    by rw [show p.shared.res = (bucketConc bi).run (Machine.start (BucketCounter.new bi n tv true)) es' from e1]; exact g2⟩

/-- A call of the reservoir has not divided by zero and is not about to panic. -/
def Fine : BucketPC → Prop
  | .upd c => c.pc ≠ .panicked
  | .snap .panicked => False
  | .snap (.value _ .panicked) => False
  | .snap (.count _ _ .panicked) => False
  | _ => True

theorem readStep_fine {b : BucketCounter} (hb : 1000000000 ≤ b.interval) (st t : Int) {r : BucketCounter.ReadPC} (h : r ≠ .panicked) :
    BucketCounter.readStep st b t r ≠ .panicked := by
  obtain ⟨hw, hS⟩ := wholeSeconds_pos hb
  cases r with
  | clock =>
    simp only [BucketCounter.readStep, BucketCounter.alignTimestamp, hw]
    rw [if_neg (by omega)]
    simp
  | slots now st first second acc =>
    cases first with
    | cons i f => simp [BucketCounter.readStep]
    | nil => cases second <;> simp [BucketCounter.readStep]
  | counts now todo res => cases todo <;> simp [BucketCounter.readStep]
  | panicked => exact absurd rfl h
  | _ => simp [BucketCounter.readStep]

theorem fine_step {bi : Int} (hbi : 1000000000 ≤ bi) {s : BucketCounter} (hs : s.interval = bi) {x : BucketIn} (hx : x.count.interval = bi) {c : BucketPC} (h : Fine c) :
    Fine ((bucketConc bi).step s x c).2 := by
  obtain ⟨hw, hS⟩ := wholeSeconds_pos hbi
  cases c with
  | upd c =>
    change (BucketCounter.callStep s x.time c).2.pc ≠ .panicked
    obtain ⟨n, pc⟩ := c
    cases pc with
    | clock =>
      simp only [BucketCounter.callStep, BucketCounter.alignTimestamp, hs, hw]
      rw [if_neg (by omega)]
      simp
    | load ts => simp only [BucketCounter.callStep]; split <;> simp
    | cas ts old => simp only [BucketCounter.callStep]; split <;> simp
    | panicked => exact absurd rfl h
    | _ => simp [BucketCounter.callStep]
  | snap pc =>
    change Fine (.snap (BucketPair.snapStep bi ⟨x.count, s⟩ (x.time, x.pick) pc))
    cases pc with
    | align =>
      simp only [BucketPair.snapStep, BucketReservoir.alignToBucketStartTimeInMs, hw]
      rw [if_neg (by omega)]
      trivial
    | value st r =>
      have key : r ≠ .panicked → (∀ m, r ≠ .done m) → Fine (.snap (.value st (BucketCounter.readStep st s x.time r))) := by
        intro h1 _
        have := readStep_fine (b := s) (by omega) st x.time h1
        cases hr : BucketCounter.readStep st s x.time r <;> first | trivial | exact absurd hr this
      cases r <;> first | exact absurd h id | trivial | exact key (by intro h; cases h) (by intro m h; cases h)
    | count st v r =>
      have key : r ≠ .panicked → (∀ m, r ≠ .done m) → Fine (.snap (.count st v (BucketCounter.readStep st x.count x.time r))) := by
        intro h1 _
        have := readStep_fine (b := x.count) (by omega) st x.time h1
        cases hr : BucketCounter.readStep st x.count x.time r <;> first | trivial | exact absurd hr this
      cases r <;> first | exact absurd h id | trivial | exact key (by intro h; cases h) (by intro m h; cases h)
    | done b => trivial
    | panicked => exact h

theorem after_interval (bi : Int) (n : Nat) (tv : Int) (es : List (Ev Int Int)) : (BucketCounter.after bi n tv true es).shared.interval = bi := by
  apply BucketCounter.inv_run_start (Inv := fun p => p.shared.interval = bi) n _ (BucketCounter.sharedOk_new bi n tv true)
  · rfl
  · intro s cs a _ h; exact h
  · intro s pre c post x _ h
    simp only [(BucketCounter.callStep_const s x c).2.1]; exact h

theorem after_total (bi : Int) (n : Nat) (tv : Int) (es : List (Ev Int Int)) : (BucketCounter.after bi n tv true es).shared.updateTotalCount = true := by
  apply BucketCounter.inv_run_start (Inv := fun p => p.shared.updateTotalCount = true) n _ (BucketCounter.sharedOk_new bi n tv true)
  · rfl
  · intro s cs a _ h; exact h
  · intro s pre c post x _ h
    simp only [(BucketCounter.callStep_const s x c).1]; exact h

/-- With a bucket interval of at least a second no call of the reservoir ever panics. -/
theorem fine_run (R : Rounding) (bi : Int) (hbi : 1000000000 ≤ bi) (n : Nat) (maxErr maxAdd now t1 t2 tv : Int) (es : List (Ev Use (In (Int × Nat)))) :
    ∀ q ∈ (bucketUsed R bi n maxErr maxAdd now t1 t2 tv es).shared.res.calls, Fine q := by
  induction es using List.reverseRecOn with
  | nil => intro q hq; cases hq
  | append_singleton es e ih =>
    obtain ⟨es', -, -, h⟩ := bucket_inv R bi n maxErr maxAdd now t1 t2 tv es
    have hs : bucketUsed R bi n maxErr maxAdd now t1 t2 tv (es ++ [e]) = (bucketCompass R bi).apply (bucketUsed R bi n maxErr maxAdd now t1 t2 tv es) e :=
      Machine.run_snoc _ _ _ _
    rw [hs]
    generalize bucketUsed R bi n maxErr maxAdd now t1 t2 tv es = p at *
    cases e with
    | spawn u => exact ih
    | step i x =>
      cases hc : p.calls[i]? with
      | none => simp only [Machine.apply, hc]; exact ih
      | some c =>
        have e1 : ((bucketCompass R bi).apply p (.step i x)).shared.res = (callStep R (bucket bi) bi p.shared (atTotal p.shared x) c).1.res := by
          simp only [Machine.apply, hc]; rfl
        rw [e1]
        rcases res_step R (bucket bi) bi p.shared (atTotal p.shared x) c with g | ⟨a, g⟩ | ⟨r, g⟩
        · rw [g]; exact ih
        · rw [g]
          intro q hq
          simp only [Machine.apply, List.mem_append, List.mem_singleton] at hq
          rcases hq with hq | rfl
          · exact ih q hq
          · cases a with
            | none => trivial
            | some d => change BucketCounter.PC.start ≠ .panicked; simp
        · rw [g]
          cases hr : p.shared.res.calls[r]? with
          | none => simp only [Machine.apply, hr]; exact ih
          | some q0 =>
            simp only [Machine.apply, hr]
            intro q hq
            rcases List.mem_or_eq_of_mem_set hq with hq | rfl
            · exact ih q hq
            · refine fine_step hbi ?_ ?_ (ih q0 (List.mem_of_getElem? hr))
              · obtain ⟨es2, k1, -⟩ := bucket_reservoir h
                rw [k1]
                exact after_interval bi n tv es2
              · obtain ⟨es1, he1, -⟩ := h.marks
                change p.shared.marks.shared.total.interval = bi
                rw [he1]
                exact CompassConc.sim_const (CompassConc.minv_run bi n maxErr maxAdd t1 t2 es1).total

/-- The durations that the value counter has got. -/
theorem value_total {R : Rounding} {bi : Int} {n : Nat} {maxErr maxAdd now t1 t2 tv : Int} {p : Pool (Parts BucketCounter BucketPC) Call}
    (h : Inv R (bucket bi) bucketArg bi (fun _ => True) (fun _ => True) (init (BucketCounter.new bi n tv true) bi n maxErr maxAdd now t1 t2) p) :
    ∃ l : List Int, p.shared.res.shared.getCount = i64 l.sum ∧ ((finished p).map Prod.fst).Subperm l ∧ l.Subperm ((recorded p).map Prod.fst) := by
  obtain ⟨es, e1, e2⟩ := bucket_reservoir h
  have hsum := (BucketCounter.sumInv_run n bi tv true es).total
  have hu : (BucketCounter.after bi n tv true es).shared.updateTotalCount = true := after_total bi n tv es
  change (BucketCounter.after bi n tv true es).shared.getCount = if (BucketCounter.after bi n tv true es).shared.updateTotalCount then
    i64 ((BucketCounter.after bi n tv true es).calls.map BucketCounter.Call.totalled).sum else 0 at hsum
  rw [hu, if_pos rfl, ← e1, ← e2] at hsum
  set g : BucketPC → Option Int := fun k => match k with
    | .upd c => if c.pc = .start then none else some c.n
    | .snap _ => none with hg
  refine ⟨p.shared.res.calls.filterMap g, ?_, ?_, ?_⟩
  · rw [hsum]
    congr 1
    generalize p.shared.res.calls = l
    induction l with
    | nil => rfl
    | cons k l ih =>
      cases k with
      | snap pc => exact ih
      | upd c =>
        obtain ⟨m, pc⟩ := c
        simp only [List.filterMap_cons, updOf?, List.map_cons, List.sum_cons, ih, hg]
        cases pc <;> simp [BucketCounter.Call.totalled]
  · refine (finished_arg h).trans (List.Sublist.subperm ?_)
    generalize p.shared.res.calls = l
    induction l with
    | nil => exact List.Sublist.refl _
    | cons k l ih =>
      cases k with
      | snap pc => simp only [List.filterMap_cons, bucketArg, hg, ite_self]; exact ih
      | upd c =>
        obtain ⟨m, pc⟩ := c
        cases pc <;> simp only [List.filterMap_cons, bucket, bucketArg, hg, reduceCtorEq, if_false, if_true, Option.some.injEq, Bool.true_eq_false] <;>
          first | exact ih | exact ih.cons_cons _ | exact ih.cons _
  · refine List.Subperm.trans (List.Sublist.subperm ?_) (started_arg h)
    generalize p.shared.res.calls = l
    induction l with
    | nil => exact List.Sublist.refl _
    | cons k l ih =>
      cases k with
      | snap pc => exact ih
      | upd c =>
        obtain ⟨m, pc⟩ := c
        cases pc <;> simp only [List.filterMap_cons, bucketArg, hg, reduceCtorEq, if_false, if_true] <;>
          first | exact ih.cons_cons _ | exact ih.cons _
end Whole

/-- **C86.** On a compass with a bucket reservoir and a bucket interval of at least a second, at every moment of every schedule: the counts are as on any other
compass; the values summed up in the reservoir are the durations of some of the calls, at least of those that are over; no call is stopped by its
reservoir or its counter, and no snapshot panics. -/
theorem C86_bucket_anytime (R : Rounding) (bi : Int) (hbi : 1000000000 ≤ bi) (n : Nat) (maxErr maxAdd now t1 t2 tv : Int) (es : List (Ev Use (In (Int × Nat)))) :
    let p := bucketUsed R bi n maxErr maxAdd now t1 t2 tv es
    let m := p.shared.marks.shared
    (∃ j : Nat, m.total.getCount = i64 j ∧ (finished p).length ≤ j ∧ j ≤ (recorded p).length) ∧
    (∃ j : Nat, m.success.getCount = i64 j ∧ (finished p).countP (fun e => e.2.isSuccess) ≤ j ∧ j ≤ (recorded p).countP (fun e => e.2.isSuccess)) ∧
    (∀ code b, (m.lab false).counters.get? code = some b → ∃ j : Nat, b.getCount = i64 j ∧
      (finished p).countP (fun e => e.2.errorCode = code) ≤ j ∧ j ≤ (recorded p).countP (fun e => e.2.errorCode = code)) ∧
    (∀ addon b, (m.lab true).counters.get? addon = some b → ∃ j : Nat, b.getCount = i64 j ∧ j ≤ (recorded p).countP (fun e => e.2.addon = addon)) ∧
    (∃ j : Nat, i64 (p.shared.ticks.shared.taken.sum + p.shared.ticks.shared.uncounted) = i64 j ∧
      (finished p).length ≤ j ∧ j ≤ (recorded p).length) ∧
    (∃ l : List Int, p.shared.res.shared.getCount = i64 l.sum ∧ ((finished p).map Prod.fst).Subperm l ∧ l.Subperm ((recorded p).map Prod.fst)) ∧
    (∀ c ∈ p.calls, (∀ i m r, c.pc ≠ .resPanicked i m r) ∧ (∀ i m, c.pc ≠ .crashed i m) ∧
      ∀ r, c.pc = .snapped r → ∃ b, p.shared.res.calls[r]? = some (.snap (.done b))) := by
  intro p m
  obtain ⟨es', -, h2, h⟩ := bucket_inv R bi n maxErr maxAdd now t1 t2 tv es
  have hf := fine_run R bi hbi n maxErr maxAdd now t1 t2 tv es
  have hc := C86_anytime R (bucket bi) bucketArg (bucket_ok bi) (BucketCounter.new bi n tv true) bi hbi n maxErr maxAdd now t1 t2 es'
  rw [← h2] at hc
  obtain ⟨c1, c2, c3, c4, c5⟩ := hc
  refine ⟨c1, c2, c3, c4, c5, value_total h, ?_⟩
  change Inv R (bucket bi) bucketArg bi _ _ _ p at h
  change ∀ q ∈ p.shared.res.calls, Fine q at hf
  intro c hc
  have hh := h.here c hc
  unfold Here at hh
  refine ⟨fun i m r e => ?_, fun i m e => ?_, fun r e => ?_⟩
  · rw [e] at hh
    obtain ⟨d, a, -, -, -, q, q1, -, q2⟩ := hh
    have := hf q (List.mem_of_getElem? q1)
    rcases q with ⟨_, pc⟩ | pc <;> cases pc <;> first | (cases q2; done) | exact this rfl | exact this
  · rw [e] at hh
    obtain ⟨d, a, -, -, k, k1, -, k2⟩ := hh
    obtain ⟨es1, he1, -⟩ := h.marks
    have g2 := CompassConc.alive_run bi hbi n maxErr maxAdd t1 t2 es1
    change ∀ m ∈ (CompassConc.marked bi n maxErr maxAdd t1 t2 es1).calls, m.pc.alive at g2
    rw [show CompassConc.marked bi n maxErr maxAdd t1 t2 es1 = p.shared.marks from he1.symm] at g2
    have := g2 k (List.mem_of_getElem? k1)
    rw [k2] at this
    exact this
  · rw [e] at hh
    obtain ⟨-, q, q1, q2, q3⟩ := hh
    have := hf q (List.mem_of_getElem? q1)
    rcases q with ⟨_, pc⟩ | pc
    · cases q2
    · cases pc <;> first | (cases q3; done) | exact ⟨_, q1⟩ | exact absurd this id

/-- **C86.** When every call on such a compass is over, everything is exact; the reservoir has summed up every recorded duration exactly once. -/
theorem C86_bucket_quiescent (R : Rounding) (bi : Int) (hbi : 1000000000 ≤ bi) (n : Nat) (maxErr maxAdd now t1 t2 tv : Int)
    (es : List (Ev Use (In (Int × Nat)))) (hq : ∀ c ∈ (bucketUsed R bi n maxErr maxAdd now t1 t2 tv es).calls, c.over = true) :
    let p := bucketUsed R bi n maxErr maxAdd now t1 t2 tv es
    let m := p.shared.marks.shared
    m.total.getCount = i64 (recorded p).length ∧
    m.success.getCount = i64 ((recorded p).countP fun e => e.2.isSuccess) ∧
    (∀ code b, (m.lab false).counters.get? code = some b → b.getCount = i64 ((recorded p).countP fun e => e.2.errorCode = code)) ∧
    (∀ addon b, (m.lab true).counters.get? addon = some b → b.getCount = i64 ((recorded p).countP fun e =>
      e.2.addon = addon ∧ (e.2.errorCode = "" ∨ e.2.errorCode ∈ (m.lab false).counters.keys))) ∧
    (∃ counts : List Int, i64 (counts.sum + p.shared.ticks.shared.uncounted) = i64 (recorded p).length ∧
      ∀ w, ∃ order : List Int, order.Perm counts ∧
        (p.shared.avg w).shared.e.rate = (EWMA.run R EWMA.zeroValue (order.map EWMA.Op.tickN)).rate) ∧
    p.shared.res.shared.getCount = i64 ((recorded p).map Prod.fst).sum := by
  intro p m
  obtain ⟨es', -, h2, h⟩ := bucket_inv R bi n maxErr maxAdd now t1 t2 tv es
  have hc := C86_quiescent R (bucket bi) bucketArg (bucket_ok bi) (BucketCounter.new bi n tv true) bi hbi n maxErr maxAdd now t1 t2 es' (by rw [← h2]; exact hq)
  rw [← h2] at hc
  obtain ⟨c1, c2, c3, c4, c5⟩ := hc
  refine ⟨c1, c2, c3, c4, c5, ?_⟩
  obtain ⟨l, g1, g2, g3⟩ := value_total h
  have e : finished p = recorded p := by
    unfold finished recorded
    rw [List.filter_eq_self.2 hq]
  change (List.map Prod.fst (finished p)).Subperm l at g2
  rw [e] at g2
  have := g2.antisymm g3
  change p.shared.res.shared.getCount = i64 l.sum at g1
  rw [g1, this.sum_eq]

end GoMetrics
