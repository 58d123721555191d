import Verif.Proofs.AloneCompass
import Verif.Props.WholeProgress
import Verif.Spec.Alone
/-! # A call of a compass that nobody interrupts: all parts together -/
namespace GoMetrics
open Machine
namespace Whole
variable {S C A I σ X : Type} {R : Rounding} {T : Stepped S C A I} {bi : Int} {P : In I → Prop} {Q : Parts S C → Call → Prop}

/-- One step in the tick part that feeds no average. -/
theorem wlp_tick {s : Parts S C} {u : Use} {i : Nat} {t : CompassConc.PC} (hc : s.ticks.calls[i]? = some t) (hov : tickOver t = false)
    (hf : feeds t = none) (h : ∀ x, P x → ∀ s', s'.marks = s.marks → s'.res = s.res → s'.avg = s.avg →
      s'.ticks.shared = (CompassConc.callStep bi s.ticks.shared x.tick t).1 →
      s'.ticks.calls[i]? = some (CompassConc.callStep bi s.ticks.shared x.tick t).2 → (machine R T bi).Wlp Call.ended P Q s' ⟨u, .tick i⟩) :
    (machine R T bi).Wlp Call.ended P Q s ⟨u, .tick i⟩ := by
  refine Wlp.step _ rfl fun x hx => ?_
  have e : (machine R T bi).step s x ⟨u, .tick i⟩ = ({ s with ticks := (CompassConc.conc bi).apply s.ticks (.step i x.tick) }, ⟨u, .tick i⟩) := by
    simp only [machine, callStep, hc, hov, hf]
    rfl
  rw [e]
  have hi : i < s.ticks.calls.length := (List.getElem?_eq_some_iff.1 hc).1
  refine h x hx _ rfl rfl rfl ?_ ?_
  · simp only [Machine.apply, hc]; rfl
  · simp only [Machine.apply, hc]
    rw [List.getElem?_set]
    simp [hi]
    rfl

/-- A step that feeds an average, and all of `TickN`. -/
theorem wlp_feed {s : Parts S C} {u : Use} {i : Nat} {t : CompassConc.PC} {w : Which} {n : Int} (hc : s.ticks.calls[i]? = some t) (hf : feeds t = some (w, n))
    (h : ∀ x, P x → ∀ s', s'.marks = s.marks → s'.res = s.res → (∀ w', w' ≠ w → s'.avg w' = s.avg w') → (s'.avg w).shared.e = (s.avg w).shared.e.tickN R n →
      s'.ticks.shared = (CompassConc.callStep bi s.ticks.shared x.tick t).1 →
      s'.ticks.calls[i]? = some (CompassConc.callStep bi s.ticks.shared x.tick t).2 → (machine R T bi).Wlp Call.ended P Q s' ⟨u, .tick i⟩) :
    (machine R T bi).Wlp Call.ended P Q s ⟨u, .tick i⟩ := by
  have hov : tickOver t = false := by cases t <;> first | rfl | (cases hf; done)
  refine Wlp.step _ rfl fun x hx => ?_
  have hi : i < s.ticks.calls.length := (List.getElem?_eq_some_iff.1 hc).1
  have e : (machine R T bi).step s x ⟨u, .tick i⟩ =
      (({ s with ticks := (CompassConc.conc bi).apply s.ticks (.step i x.tick) } : Parts S C).setAvg w
        ⟨(s.avg w).shared, (s.avg w).calls ++ [.enter false n]⟩, ⟨u, .avg i w (s.avg w).calls.length⟩) := by
    simp only [machine, callStep, hc, hov, hf]
    rfl
  rw [e]
  set s1 : Parts S C := { s with ticks := (CompassConc.conc bi).apply s.ticks (.step i x.tick) } with hs1
  set j := (s.avg w).calls.length with hj
  have hjl : ∀ c, ((s.avg w).calls ++ [c])[j]? = some c := by intro c; simp [hj]
  have := Wlp.phase (M := machine R T bi) (M' := EWMA.conc R) (stop := Call.ended) (stop' := avgOver) (P := P) (P' := fun _ => True) (Q := Q)
    (fun _ => ()) (fun sh c => s1.setAvg w ⟨sh, (s.avg w).calls ++ [c]⟩) (fun _ _ => ⟨u, .avg i w j⟩) (fun _ _ => trivial) (fun _ _ _ => rfl)
    (fun sh c x hc => by
      have e2 : ((s1.setAvg w ⟨sh, (s.avg w).calls ++ [c]⟩).avg w) = ⟨sh, (s.avg w).calls ++ [c]⟩ := by simp [Parts.setAvg]
      simp only [machine, callStep, e2, hjl c, hc, Bool.false_eq_true, if_false, Machine.apply]
      congr 1
      simp only [Parts.setAvg, Function.update_idem]
      congr 2
      simp [hj])
    (s := (s.avg w).shared) (c := .enter false n) ?_
  · exact this
  · refine (EWMA.wlp_enter R _ _ false n avgOver ?_ ?_ ?_ ?_ ?_ ?_).mono ?_ <;> try (intros; rfl)
    rintro sh c - ⟨rfl, -, rfl⟩
    refine Wlp.step _ rfl fun y _ => ?_
    have e2 : ∀ p, ((s1.setAvg w p).avg w) = p := by intro p; simp [Parts.setAvg]
    have e3 : (machine R T bi).step (s1.setAvg w ⟨⟨(s.avg w).shared.e.tickN R n, false⟩, (s.avg w).calls ++ [.done false n]⟩) y ⟨u, .avg i w j⟩ =
        (s1.setAvg w ⟨⟨(s.avg w).shared.e.tickN R n, false⟩, (s.avg w).calls ++ [.done false n]⟩, ⟨u, .tick i⟩) := by
      simp only [machine, callStep, e2, hjl]
      rfl
    rw [e3]
    refine h x hx _ rfl rfl ?_ ?_ ?_ ?_
    · intro w' hw'; simp [Parts.setAvg, Function.update_of_ne hw', hs1]
    · rw [e2]
    · simp only [Parts.setAvg, hs1, Machine.apply, hc]; rfl
    · simp only [Parts.setAvg, hs1, Machine.apply, hc]
      rw [List.getElem?_set]
      simp [hi]
      rfl

variable {rsv : S → σ} {st : Int}

/-- The tick loop. -/
theorem wlp_loop {u : Use} {i : Nat} {upd : Bool} (left : Nat) : ∀ {s : Parts S C}, s.ticks.calls[i]? = some (CompassConc.loop upd left) → (∃ x, P x) →
    (∀ s', s'.marks = s.marks → s'.res = s.res → s'.seen rsv st = (Compass.tickOnce R)^[left] (s.seen rsv st) →
      s'.ticks.calls[i]? = some (CompassConc.after upd) → (machine R T bi).Wlp Call.ended P Q s' ⟨u, .tick i⟩) →
    (machine R T bi).Wlp Call.ended P Q s ⟨u, .tick i⟩ := by
  induction left with
  | zero => intro s hc _ h; exact h s rfl rfl rfl hc
  | succ left ih =>
    intro s hc hx h
    change s.ticks.calls[i]? = some (.load upd left) at hc
    refine wlp_tick hc rfl rfl fun _ _ s1 m1 r1 a1 t1 c1 => ?_
    simp only [CompassConc.callStep] at t1 c1
    refine wlp_tick c1 rfl rfl fun _ _ s2 m2 r2 a2 t2 c2 => ?_
    simp only [CompassConc.callStep, t1, if_true] at t2 c2
    refine wlp_feed c2 rfl fun _ _ s3 m3 r3 a3 f3 t3 c3 => ?_
    simp only [CompassConc.callStep] at t3 c3
    refine wlp_feed c3 rfl fun _ _ s4 m4 r4 a4 f4 t4 c4 => ?_
    simp only [CompassConc.callStep] at t4 c4
    refine wlp_feed c4 rfl fun _ _ s5 m5 r5 a5 f5 t5 c5 => ?_
    simp only [CompassConc.callStep] at t5 c5
    refine ih c5 hx fun s' hm hr hs hc' => ?_
    refine h s' (by rw [hm, m5, m4, m3, m2, m1]) (by rw [hr, r5, r4, r3, r2, r1]) ?_ hc'
    rw [hs, Function.iterate_succ_apply]
    congr 1
    have hm : s5.marks = s.marks := by rw [m5, m4, m3, m2, m1]
    have hr : s5.res = s.res := by rw [r5, r4, r3, r2, r1]
    have v1 : (s5.avg .m1).shared.e = (s.avg .m1).shared.e.tickN R s.ticks.shared.uncounted := by
      rw [a5 .m1 (by simp), a4 .m1 (by simp), f3, a2, a1]
    have v5 : (s5.avg .m5).shared.e = (s.avg .m5).shared.e.tickN R s.ticks.shared.uncounted := by
      rw [a5 .m5 (by simp), f4, a3 .m5 (by simp), a2, a1]
    have v15 : (s5.avg .m15).shared.e = (s.avg .m15).shared.e.tickN R s.ticks.shared.uncounted := by
      rw [f5, a4 .m15 (by simp), a3 .m15 (by simp), a2, a1]
    have hl : s5.ticks.shared.lastTick = s.ticks.shared.lastTick := by rw [t5, t4, t3, t2]
    have hu : s5.ticks.shared.uncounted = 0 := by rw [t5, t4, t3, t2]
    simp only [Parts.seen, Compass.tickOnce, hm, hr, v1, v5, v15, hl, hu]

/-- `tickIfNecessary`, and for an `Update` the increment. -/
theorem wlp_ticks {u : Use} {i : Nat} {upd : Bool} {s : Parts S C} (hbi : bi ≠ 0) (hint : s.marks.shared.interval = bi)
    (hc : s.ticks.calls[i]? = some (.readOld upd))
    (h : ∀ x, P x → ∀ s' c, s'.marks = s.marks → s'.res = s.res → (s.seen rsv st).tickIfNecessary R x.tick = .ok c →
      s'.seen rsv st = (if upd then c.addUncounted else c) → s'.ticks.calls[i]? = some (.done upd) →
      (machine R T bi).Wlp Call.ended P Q s' ⟨u, .tick i⟩) :
    (machine R T bi).Wlp Call.ended P Q s ⟨u, .tick i⟩ := by
  have hafter : ∀ x, P x → ∀ s' c, s'.marks = s.marks → s'.res = s.res → (s.seen rsv st).tickIfNecessary R x.tick = .ok c → s'.seen rsv st = c →
      s'.ticks.calls[i]? = some (CompassConc.after upd) → (machine R T bi).Wlp Call.ended P Q s' ⟨u, .tick i⟩ := by
    intro x hx s' c hm hr htick hs hc'
    cases upd with
    | false => exact h x hx s' c hm hr htick (by simpa using hs) hc'
    | true =>
      change s'.ticks.calls[i]? = some .add at hc'
      refine wlp_tick hc' rfl rfl fun _ _ s2 m2 r2 a2 t2 c2 => ?_
      refine h x hx s2 c (m2.trans hm) (r2.trans hr) htick ?_ c2
      simp only [CompassConc.callStep] at t2
      rw [if_pos rfl, ← hs]
      simp only [Parts.seen, Compass.addUncounted, m2, r2, a2, t2]
  refine wlp_tick hc rfl rfl fun _ _ s1 m1 r1 a1 t1 c1 => ?_
  simp only [CompassConc.callStep] at t1 c1
  have e1 : s1.seen rsv st = s.seen rsv st := by simp only [Parts.seen, m1, r1, a1, t1]
  refine wlp_tick c1 rfl rfl fun x hx s2 m2 r2 a2 t2 c2 => ?_
  simp only [CompassConc.callStep] at t2 c2
  have e2 : s2.seen rsv st = s.seen rsv st := by rw [← e1]; simp only [Parts.seen, m2, r2, a2, t2]
  by_cases hage : i64 (x.tick - s.ticks.shared.lastTick) > Compass.tickInterval
  · rw [if_pos hage] at c2
    refine wlp_tick c2 rfl rfl fun _ _ s3 m3 r3 a3 t3 c3 => ?_
    simp only [CompassConc.callStep, t2, t1, if_true] at t3 c3
    refine wlp_loop (rsv := rsv) (st := st) _ c3 ⟨x, hx⟩ fun s' hm hr hs hc' => ?_
    refine hafter x hx s' _ (by rw [hm, m3, m2, m1]) (by rw [hr, r3, r2, r1]) ?_ hs hc'
    have hage' : (s.seen rsv st).age x.tick = i64 (x.tick - s.ticks.shared.lastTick) := rfl
    have hb : (s.seen rsv st).bucketInterval ≠ 0 := by change s.marks.shared.interval ≠ 0; rw [hint]; exact hbi
    rw [Compass.tickIfNecessary, Compass.ticksDue, hage', if_pos hage, if_neg hb, if_pos hage]
    congr 2
    have hm : s3.marks = s.marks := by rw [m3, m2, m1]
    have hr : s3.res = s.res := by rw [r3, r2, r1]
    have ha : s3.avg = s.avg := by rw [a3, a2, a1]
    simp only [Parts.seen, hm, hr, ha, t3, hint]
  · rw [if_neg hage] at c2
    refine hafter x hx s2 (s.seen rsv st) (m2.trans m1) (r2.trans r1) ?_ e2 c2
    have hage' : (s.seen rsv st).age x.tick = i64 (x.tick - s.ticks.shared.lastTick) := rfl
    rw [Compass.tickIfNecessary, hage', if_neg hage]

/-- A step of the call in the counters is a step there. -/
theorem wlp_marks_total {s : Parts S C} {u : Use} {i : Nat} {sh : CompassConc.Marks} {cs : List CompassConc.Mark} {k : CompassConc.Mark} {PT : Int → Prop}
    (hPT : ∀ x, P x → PT x.time)
    (h : CompassConc.marking.Wlp pastTotal PT (fun sh k => (machine R T bi).Wlp Call.ended P Q { s with marks := ⟨sh, cs ++ [k]⟩ } ⟨u, .total i cs.length⟩) sh k) :
    (machine R T bi).Wlp Call.ended P Q { s with marks := ⟨sh, cs ++ [k]⟩ } ⟨u, .total i cs.length⟩ :=
  Wlp.phase (M := machine R T bi) (M' := CompassConc.marking) (stop := Call.ended) (stop' := pastTotal) (P := P) (P' := PT) (Q := Q)
    In.time (fun sh k => { s with marks := ⟨sh, cs ++ [k]⟩ }) (fun _ _ => ⟨u, .total i cs.length⟩) hPT (fun _ _ _ => rfl)
    (fun sh k x hk => by
      have e : (cs ++ [k])[cs.length]? = some k := by simp
      simp only [machine, callStep, e, hk, Bool.false_eq_true, if_false, Machine.apply]
      congr 2
      congr 1
      simp)
    h

theorem wlp_marks_rest {s : Parts S C} {u : Use} {i r : Nat} {sh : CompassConc.Marks} {cs : List CompassConc.Mark} {k : CompassConc.Mark} {PT : Int → Prop}
    (hPT : ∀ x, P x → PT x.time)
    (h : CompassConc.marking.Wlp markOver PT (fun sh k => (machine R T bi).Wlp Call.ended P Q { s with marks := ⟨sh, cs ++ [k]⟩ } ⟨u, .rest i cs.length r⟩) sh k) :
    (machine R T bi).Wlp Call.ended P Q { s with marks := ⟨sh, cs ++ [k]⟩ } ⟨u, .rest i cs.length r⟩ :=
  Wlp.phase (M := machine R T bi) (M' := CompassConc.marking) (stop := Call.ended) (stop' := markOver) (P := P) (P' := PT) (Q := Q)
    In.time (fun sh k => { s with marks := ⟨sh, cs ++ [k]⟩ }) (fun _ _ => ⟨u, .rest i cs.length r⟩) hPT (fun _ _ _ => rfl)
    (fun sh k x hk => by
      have e : (cs ++ [k])[cs.length]? = some k := by simp
      simp only [machine, callStep, e, hk, Bool.false_eq_true, if_false, Machine.apply]
      congr 2
      congr 1
      simp)
    h

theorem wlp_res {s : Parts S C} {u : Use} {i m : Nat} {sh : S} {cs : List C} {q : C} {PI : I → Prop}
    (hPI : ∀ x, P x → PI x.res)
    (h : T.machine.Wlp (fun c => (T.over c).isSome) PI
      (fun sh q => (machine R T bi).Wlp Call.ended P Q { s with res := ⟨sh, cs ++ [q]⟩ } ⟨u, .res i m cs.length⟩) sh q) :
    (machine R T bi).Wlp Call.ended P Q { s with res := ⟨sh, cs ++ [q]⟩ } ⟨u, .res i m cs.length⟩ :=
  Wlp.phase (M := machine R T bi) (M' := T.machine) (stop := Call.ended) (stop' := fun c => (T.over c).isSome) (P := P) (P' := PI) (Q := Q)
    In.res (fun sh q => { s with res := ⟨sh, cs ++ [q]⟩ }) (fun _ _ => ⟨u, .res i m cs.length⟩) hPI (fun _ _ _ => rfl)
    (fun sh q x hq => by
      have e : (cs ++ [q])[cs.length]? = some q := by simp
      have hq : T.over q = none := by simpa using hq
      simp only [machine, callStep, e, hq, Machine.apply]
      congr 2
      congr 1
      simp)
    h

theorem wlp_snap {s : Parts S C} {u : Use} {sh : S} {cs : List C} {q : C} {PI : I → Prop}
    (hPI : ∀ x, P x → PI x.res)
    (h : T.machine.Wlp (fun c => (T.over c).isSome) PI
      (fun sh q => (machine R T bi).Wlp Call.ended P Q { s with res := ⟨sh, cs ++ [q]⟩ } ⟨u, .snap cs.length⟩) sh q) :
    (machine R T bi).Wlp Call.ended P Q { s with res := ⟨sh, cs ++ [q]⟩ } ⟨u, .snap cs.length⟩ :=
  Wlp.phase (M := machine R T bi) (M' := T.machine) (stop := Call.ended) (stop' := fun c => (T.over c).isSome) (P := P) (P' := PI) (Q := Q)
    In.res (fun sh q => { s with res := ⟨sh, cs ++ [q]⟩ }) (fun _ _ => ⟨u, .snap cs.length⟩) hPI (fun _ _ _ => rfl)
    (fun sh q x hq => by
      have e : (cs ++ [q])[cs.length]? = some q := by simp
      have hq : T.over q = none := by simpa using hq
      simp only [machine, callStep, e, hq, Machine.apply, Option.isSome_none, Bool.false_eq_true, if_false]
      congr 2
      congr 1
      simp)
    h

/-- A reservoir in small steps does what `impl` does when nobody interrupts it. -/
structure Stepped.Faithful (T : Stepped S C A I) (rsv : S → σ) (impl : ReservoirImpl σ X) (From : (I → Prop) → X → Prop) : Prop where
  updateN : ∀ (P : I → Prop) (s : S) (d : Int), T.machine.Wlp (fun c => (T.over c).isSome) P
    (fun s' c => ∃ x, From P x ∧ rsv s' = (impl.updateN (rsv s) x d).state ∧ T.over c = some (impl.updateN (rsv s) x d).panicked) s (T.machine.call (T.updateN d))
  told : ∀ (P : I → Prop), (∃ i, P i) → ∃ x, From P x

variable {impl : ReservoirImpl σ X} {From : (I → Prop) → X → Prop}

theorem seen_marks (s : Parts S C) (p : Pool CompassConc.Marks CompassConc.Mark) :
    ({ s with marks := p } : Parts S C).seen rsv st = (s.seen rsv st).withMarks p.shared := rfl

/-- What `UpdateWithError` leaves. -/
def Updated (R : Rounding) (P : In I → Prop) (impl : ReservoirImpl σ X) (From : (I → Prop) → X → Prop) (rsv : S → σ) (st : Int) (s : Parts S C) (d : Int)
    (a : CompassConc.MarkArg) (s' : Parts S C) (c : Call) : Prop :=
  ∃ env : Compass.Env X, Told P From env ∧
    let r := (s.seen rsv st).updateWithError R impl env d a.isSuccess a.errorCode a.addon
    s'.seen rsv st = r.state ∧ (c.returned s' ↔ r.panicked = false)

theorem wlp_update (hF : T.Faithful rsv impl From) (hbi : bi ≠ 0) (s : Parts S C) (hint : s.marks.shared.interval = bi) (d : Int) (a : CompassConc.MarkArg) :
    (machine R T bi).Wlp Call.ended P (Updated R P impl From rsv st s d a) s ⟨.update d a, .start⟩ := by
  refine Wlp.step' _ (fun _ => ({ s with ticks := ⟨s.ticks.shared, s.ticks.calls ++ [.readOld true]⟩ }, ⟨.update d a, .tick s.ticks.calls.length⟩)) rfl
    (fun _ => rfl) fun x0 hx0 => ?_
  refine wlp_ticks (rsv := rsv) (st := st) (upd := true) hbi hint (by simp) fun xt hxt s1 c1 hm1 hr1 htick hs1 hc1 => ?_
  -- after the increment
  have hPT : ∀ x, P x → (fun t => ∃ x, P x ∧ x.time = t) x.time := fun x hx => ⟨x, hx, rfl⟩
  have hPI : ∀ x, P x → (fun i => ∃ x, P x ∧ x.res = i) x.res := fun x hx => ⟨x, hx, rfl⟩
  obtain ⟨xr0, hxr0⟩ := hF.told (fun i => ∃ x, P x ∧ x.res = i) ⟨x0.res, x0, hx0, rfl⟩
  refine Wlp.step' _ (fun _ => ({ s1 with marks := ⟨s1.marks.shared, s1.marks.calls ++ [CompassConc.marking.call a]⟩ },
    ⟨.update d a, .total s.ticks.calls.length s1.marks.calls.length⟩)) rfl (fun _ => by
      simp only [machine, callStep, hc1]
      rfl) fun _ _ => ?_
  refine wlp_marks_total (s := s1) (PT := fun t => ∃ x, P x ∧ x.time = t) hPT ?_
  refine (CompassConc.wlp_total (P := fun t => ∃ x, P x ∧ x.time = t) s1.marks.shared a).mono ?_
  rintro sh k - ⟨tT, htT, rfl, rfl⟩
  simp only [if_true] at hs1
  have htick' : (s.seen rsv st).tickIfNecessary R xt.tick = .ok c1 := htick
  -- the state before and after `totalCount.Update()`
  have htot : c1.addUncounted.totalCount.update tT = s1.marks.shared.total.updateN tT 1 := by rw [← hs1]; rfl
  have hst : ∀ b : BucketCounter, (s1.seen rsv st).withMarks { s1.marks.shared with total := b } = { c1.addUncounted with totalCount := b } := by
    intro b; rw [← hs1]; rfl
  set cs := s1.marks.calls with hcs
  cases hu : s1.marks.shared.total.updateN tT 1 with
  | panic b =>
    simp only [Res.state, Res.panicked, if_true]
    refine Wlp.step' _ (fun _ => ({ s1 with marks := ⟨{ s1.marks.shared with total := b }, cs ++ [⟨a, .crashed⟩]⟩ },
      ⟨.update d a, .crashed s.ticks.calls.length cs.length⟩)) rfl (fun _ => by simp [machine, callStep, pastTotal]) fun _ _ => ?_
    refine Wlp.now _ rfl ⟨⟨xt.tick, tT, xr0, x0.time, x0.time, x0.time, x0.time, x0.time⟩, ⟨⟨xt, hxt, rfl⟩, htT, hxr0, ⟨x0, hx0, rfl⟩, ⟨x0, hx0, rfl⟩,
      ⟨x0, hx0, rfl⟩, ⟨x0, hx0, rfl⟩, ⟨x0, hx0, rfl⟩⟩, ?_⟩
    rw [Compass.updateWithError, Compass.update, htick']
    simp only [Res.andThen, htot, hu, Res.lift]
    refine ⟨by rw [seen_marks]; exact hst b, ?_⟩
    simp [Call.returned]
  | ok b =>
    simp only [Res.state, Res.panicked, Bool.false_eq_true, if_false]
    -- into the reservoir
    refine Wlp.step' _ (fun _ => ({ s1 with marks := ⟨{ s1.marks.shared with total := b }, cs ++ [⟨a, CompassConc.atSuccess a⟩]⟩, res := ⟨s1.res.shared, s1.res.calls ++ [T.machine.call (T.updateN d)]⟩ },
      ⟨.update d a, .res s.ticks.calls.length cs.length s1.res.calls.length⟩)) rfl (fun _ => ?_) fun _ _ => ?_
    · have e : (cs ++ [(⟨a, CompassConc.atSuccess a⟩ : CompassConc.Mark)])[cs.length]? = some ⟨a, CompassConc.atSuccess a⟩ := by simp
      have e1 : pastTotal ⟨a, CompassConc.atSuccess a⟩ = true := by
        unfold CompassConc.atSuccess CompassConc.atError CompassConc.atAddon
        (repeat' split) <;> rfl
      have e2 : CompassConc.atSuccess a ≠ .crashed := by
        unfold CompassConc.atSuccess CompassConc.atError CompassConc.atAddon
        (repeat' split) <;> simp
      simp only [machine, callStep, e, e1, if_true, e2, if_false]
      rfl
    · refine wlp_res (s := { s1 with marks := ⟨{ s1.marks.shared with total := b }, cs ++ [⟨a, CompassConc.atSuccess a⟩]⟩ }) (PI := fun i => ∃ x, P x ∧ x.res = i) hPI ?_
      refine (hF.updateN _ s1.res.shared d).mono ?_
      rintro rs q - ⟨xr, hxr, hrs, hover⟩
      have hres : ∀ bc : BucketCounter, impl.updateN ({ c1.addUncounted with totalCount := bc } : Compass σ).reservoir xr d = impl.updateN (rsv s1.res.shared) xr d := by
        intro bc; rw [← hs1]; rfl
      set rcs := s1.res.calls with hrcs
      have hst' : ∀ m : CompassConc.Marks, ({ s1 with marks := ⟨m, cs ++ [⟨a, CompassConc.atSuccess a⟩]⟩, res := ⟨rs, rcs ++ [q]⟩ } : Parts S C).seen rsv st =
          { (s1.seen rsv st).withMarks m with reservoir := rsv rs } := fun m => rfl
      cases hru : impl.updateN (rsv s1.res.shared) xr d with
      | panic r =>
        rw [hru] at hrs hover
        refine Wlp.step' _ (fun _ => ({ s1 with marks := ⟨{ s1.marks.shared with total := b }, cs ++ [⟨a, CompassConc.atSuccess a⟩]⟩, res := ⟨rs, rcs ++ [q]⟩ },
          ⟨.update d a, .resPanicked s.ticks.calls.length cs.length rcs.length⟩)) rfl (fun _ => ?_) fun _ _ => ?_
        · have e : (rcs ++ [q])[rcs.length]? = some q := by simp
          simp only [machine, callStep, e, hover]
          rfl
        · refine Wlp.now _ rfl ⟨⟨xt.tick, tT, xr, x0.time, x0.time, x0.time, x0.time, x0.time⟩, ⟨⟨xt, hxt, rfl⟩, htT, hxr, ⟨x0, hx0, rfl⟩, ⟨x0, hx0, rfl⟩,
            ⟨x0, hx0, rfl⟩, ⟨x0, hx0, rfl⟩, ⟨x0, hx0, rfl⟩⟩, ?_⟩
          rw [Compass.updateWithError, Compass.update, htick']
          simp only [Res.andThen, htot, hu, Res.lift, hres, hru]
          refine ⟨?_, by simp [Call.returned]⟩
          rw [hst', hst]
          simp only [hrs, Res.state]
      | ok r =>
        rw [hru] at hrs hover
        refine Wlp.step' _ (fun _ => ({ s1 with marks := ⟨{ s1.marks.shared with total := b }, cs ++ [⟨a, CompassConc.atSuccess a⟩]⟩, res := ⟨rs, rcs ++ [q]⟩ },
          ⟨.update d a, .rest s.ticks.calls.length cs.length rcs.length⟩)) rfl (fun _ => ?_) fun _ _ => ?_
        · have e : (rcs ++ [q])[rcs.length]? = some q := by simp
          simp only [machine, callStep, e, hover]
          rfl
        · refine wlp_marks_rest (s := { s1 with res := ⟨rs, rcs ++ [q]⟩ }) (PT := fun t => ∃ x, P x ∧ x.time = t) hPT ?_
          refine (CompassConc.wlp_rest ({ s1.seen rsv st with reservoir := rsv rs } : Compass σ) { s1.marks.shared with total := b } a x0.time ⟨x0, hx0, rfl⟩).mono ?_
          rintro sh k hk ⟨tS, tE0, tE, tA0, tA, ⟨hS, hE0, hE, hA0, hA⟩, g1, g2⟩
          refine Wlp.step' _ (fun _ => ({ s1 with marks := ⟨sh, cs ++ [k]⟩, res := ⟨rs, rcs ++ [q]⟩ },
            ⟨.update d a, .done s.ticks.calls.length cs.length rcs.length⟩)) rfl (fun _ => ?_) fun _ _ => ?_
          · have e : (cs ++ [k])[cs.length]? = some k := by simp
            simp only [machine, callStep, e, hk]
            rfl
          · refine Wlp.now _ rfl ⟨⟨xt.tick, tT, xr, tS, tE0, tE, tA0, tA⟩, ⟨⟨xt, hxt, rfl⟩, htT, hxr, hS, hE0, hE, hA0, hA⟩, ?_⟩
            rw [Compass.updateWithError, Compass.update, htick']
            simp only [Res.andThen, htot, hu, Res.lift, hres, hru]
            have e : ({ c1.addUncounted with totalCount := b, reservoir := r } : Compass σ) =
                ({ s1.seen rsv st with reservoir := rsv rs } : Compass σ).withMarks { s1.marks.shared with total := b } := by
              rw [← hs1, hrs]; rfl
            have e2 : ({ s1 with marks := ⟨sh, cs ++ [k]⟩, res := ⟨rs, rcs ++ [q]⟩ } : Parts S C).seen rsv st =
                ({ s1.seen rsv st with reservoir := rsv rs } : Compass σ).withMarks sh := rfl
            rw [e2, e]
            refine ⟨g1, ?_⟩
            refine Iff.trans ?_ g2
            constructor
            · rintro ⟨i', m', r', k', h1, h2, h3⟩
              simp only [PC.done.injEq] at h1
              obtain ⟨-, rfl, -⟩ := h1
              simp at h2
              rw [h2]; exact h3
            · intro hd
              exact ⟨_, _, _, k, rfl, by simp, hd⟩

theorem wlp_rate (hbi : bi ≠ 0) (s : Parts S C) (hint : s.marks.shared.interval = bi) (w : Which) :
    (machine R T bi).Wlp Call.ended P (fun s' c => ∃ x, P x ∧ s'.seen rsv st = ((s.seen rsv st).tickIfNecessary R x.tick).state ∧
      ∃ i, c.pc = .got i (rateOf R (s.seen rsv st) x.tick w)) s ⟨.rate w, .start⟩ := by
  refine Wlp.step' _ (fun _ => ({ s with ticks := ⟨s.ticks.shared, s.ticks.calls ++ [.readOld false]⟩ }, ⟨.rate w, .tick s.ticks.calls.length⟩)) rfl
    (fun _ => rfl) fun x0 hx0 => ?_
  refine wlp_ticks (rsv := rsv) (st := st) (upd := false) hbi hint (by simp) fun x hx s1 c1 hm1 hr1 htick hs1 hc1 => ?_
  have htick' : (s.seen rsv st).tickIfNecessary R x.tick = .ok c1 := htick
  simp only [Bool.false_eq_true, if_false] at hs1
  refine Wlp.step' _ (fun _ => (s1, ⟨.rate w, .rate s.ticks.calls.length⟩)) rfl (fun _ => by
      simp only [machine, callStep, hc1]
      rfl) fun _ _ => ?_
  refine Wlp.step _ rfl fun _ _ => ?_
  refine Wlp.now _ rfl ⟨x, hx, ?_, s.ticks.calls.length, ?_⟩
  · rw [htick', ← hs1]; rfl
  · cases w <;> simp only [rateOf, Compass.getOneMinuteRate, Compass.getFiveMinuteRate, Compass.getFifteenMinuteRate, htick', ← hs1] <;> rfl

theorem wlp_snapshot {PI : I → Prop} (hPI : ∀ x, P x → PI x.res) {QR : S → C → Prop} (s : Parts S C)
    (h : T.machine.Wlp (fun c => (T.over c).isSome) PI QR s.res.shared (T.machine.call T.snapshot)) :
    (machine R T bi).Wlp Call.ended P (fun s' c => s'.ticks = s.ticks ∧ s'.avg = s.avg ∧ s'.marks = s.marks ∧
      ∃ r q, c.pc = .snapped r ∧ s'.res.calls[r]? = some q ∧ QR s'.res.shared q) s ⟨.snapshot, .start⟩ := by
  refine Wlp.step' _ (fun _ => ({ s with res := ⟨s.res.shared, s.res.calls ++ [T.machine.call T.snapshot]⟩ }, ⟨.snapshot, .snap s.res.calls.length⟩)) rfl
    (fun _ => rfl) fun x0 hx0 => ?_
  refine wlp_snap (s := s) hPI (h.mono ?_)
  intro sh q hq hQR
  refine Wlp.step' _ (fun _ => ({ s with res := ⟨sh, s.res.calls ++ [q]⟩ }, ⟨.snapshot, .snapped s.res.calls.length⟩)) rfl (fun _ => ?_) fun _ _ => ?_
  · have e : (s.res.calls ++ [q])[s.res.calls.length]? = some q := by simp
    simp only [machine, callStep, e, hq]
    rfl
  · exact Wlp.now _ rfl ⟨rfl, rfl, rfl, s.res.calls.length, q, rfl, by simp, hQR⟩

theorem ended_idle (s : Parts S C) (x : In I) (c : Call) (h : c.ended = true) : (machine R T bi).step s x c = (s, c) := by
  obtain ⟨u, pc⟩ := c
  cases pc <;> simp [Call.ended] at h <;> rfl

/-! ## The reservoirs -/

theorem uniform_faithful : uniform.Faithful Guard.obj UniformReservoir.impl uniformTold where
  updateN P s d := by
    have h := UniformConc.guarded.wlp_write P s d
    have e : (fun c => (uniform.over c).isSome) = (Guarded.ended : GuardPC Int UniformConc.WPC Int Bool UniformConc.Query UniformConc.RPC UniformConc.Answer → Bool) := by
      funext c; cases c <;> rfl
    rw [e]
    refine h.mono ?_
    rintro s' c - ⟨xs, o, r, g1, g2, g3, -, -, rfl⟩
    obtain ⟨words, w1, w2, -⟩ := UniformConc.alone_eq g2
    refine ⟨words, fun w hw => g1 w (w1 w hw), ?_, ?_⟩
    · change s'.obj = (s.obj.updateN words d).state
      rw [w2, g3]; cases r <;> rfl
    · change some r = some (s.obj.updateN words d).panicked
      rw [w2]; cases r <;> rfl
  told P _ := ⟨[], by simp [uniformTold]⟩

theorem decaying_faithful (A : EDR.Arith) : (decaying A).Faithful EDRConc.Shared.rsv (EDR.impl A) decayingTold where
  updateN P s d := by
    have h := EDRConc.wlp_updateN A P s d
    have e : (fun c => ((decaying A).over c).isSome) = EDRConc.PC.ended := by
      funext c; cases c <;> rfl
    rw [e]
    refine h.mono ?_
    rintro s' c hc ⟨x1, x2, x3, x4, ⟨p1, p2, p3, p4⟩, h1, h2⟩
    refine ⟨⟨x1.tick, x2.time, x3.time, x4.u⟩, ⟨⟨x1, p1, rfl⟩, ⟨x2, p2, rfl⟩, ⟨x3, p3, rfl⟩, ⟨x4, p4, rfl⟩⟩, h1, ?_⟩
    rcases h2 with ⟨h2, rfl⟩ | ⟨h2, ts, u, k, rfl⟩
    · change some true = some (EDR.updateN A s.rsv _ d).panicked
      rw [h2]
    · change some false = some (EDR.updateN A s.rsv _ d).panicked
      rw [h2]
  told P h := by
    obtain ⟨x, hx⟩ := h
    exact ⟨⟨x.tick, x.time, x.time, x.u⟩, ⟨x, hx, rfl⟩, ⟨x, hx, rfl⟩, ⟨x, hx, rfl⟩, ⟨x, hx, rfl⟩⟩

end Whole
end GoMetrics
