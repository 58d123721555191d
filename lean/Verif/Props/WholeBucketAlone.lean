import Verif.Props.WholeBucket
/-! # C91, C87 — a compass with a bucket reservoir: calls that nobody interrupts, and progress -/
namespace GoMetrics
open Machine Whole

namespace Whole

/-- The clock reading of the sequential `UpdateN` was made during the call. -/
def bucketTold (P : BucketIn → Prop) (t : Int) : Prop := ∃ x, P x ∧ x.time = t

/-- The same for a compass, where the environment does not supply the counter `countPerBucket`. -/
def clockTold (P : Int × Nat → Prop) (t : Int) : Prop := ∃ x, P x ∧ x.1 = t

theorem bucket_faithful (bi : Int) : (bucket bi).Faithful (fun s => (⟨s, bi⟩ : BucketReservoir)) BucketReservoir.impl bucketTold where
  updateN P s d := by
    have := Wlp.phase (M := bucketConc bi) (M' := BucketCounter.conc) (stop := fun c => ((bucket bi).over c).isSome) (stop' := BucketCounter.Call.ended)
      (P := P) (P' := fun t => ∃ x, P x ∧ x.time = t)
      (Q := fun s' c => ∃ x, bucketTold P x ∧ (⟨s', bi⟩ : BucketReservoir) = (BucketReservoir.impl.updateN ⟨s, bi⟩ x d).state ∧
        (bucket bi).over c = some (BucketReservoir.impl.updateN ⟨s, bi⟩ x d).panicked)
      BucketIn.time (fun s _ => s) (fun _ c => .upd c) (fun x hx => ⟨x, hx, rfl⟩)
      (fun s c hc => by
        obtain ⟨n, pc⟩ := c
        cases pc <;> first | rfl | (cases hc; done))
      (fun s c x _ => rfl) (s := s) (c := ⟨d, .start⟩) ?_
    · exact this
    · refine (BucketCounter.wlp_updateN _ s d).mono ?_
      rintro s' c hc ⟨t, ht, h1, h2⟩
      refine Wlp.now _ ?_ ⟨t, ht, ?_, ?_⟩
      · obtain ⟨n, pc⟩ := c
        cases pc <;> first | rfl | (cases hc; done)
      · change _ = (BucketReservoir.updateN ⟨s, bi⟩ t d).state
        rw [h1]
        simp only [BucketReservoir.updateN]
        cases s.updateN t d <;> rfl
      · change (bucket bi).over (.upd c) = some (BucketReservoir.updateN ⟨s, bi⟩ t d).panicked
        have e : (BucketReservoir.updateN ⟨s, bi⟩ t d).panicked = (s.updateN t d).panicked := by
          simp only [BucketReservoir.updateN]
          cases s.updateN t d <;> rfl
        rw [e]
        obtain ⟨n, pc⟩ := c
        cases hp : (s.updateN t d).panicked with
        | true => rw [show pc = .panicked from h2.2 hp]; rfl
        | false =>
          have : pc ≠ .panicked := fun h => by have := h2.1 h; rw [hp] at this; cases this
          cases pc <;> first | rfl | (cases hc; done) | exact absurd rfl this
  told P h := by
    obtain ⟨x, hx⟩ := h
    exact ⟨x.time, x, hx, rfl⟩

/-- What a call is told on the real compass, when it is told it by the other one. -/
theorem Same.told {xs : List (In (Int × Nat))} {ys : List (In BucketIn)}
    (h : ∀ y ∈ ys, ∃ x ∈ xs, y.tick = x.tick ∧ y.time = x.time ∧ y.res.time = x.res.1 ∧ y.res.pick = x.res.2) {env : Compass.Env Int}
    (ht : Told (· ∈ ys) bucketTold env) : Told (· ∈ xs) clockTold env := by
  have tm : ∀ t, (∃ y, y ∈ ys ∧ y.time = t) → ∃ x, x ∈ xs ∧ x.time = t := by
    rintro t ⟨y, hy, rfl⟩
    obtain ⟨x, hx, -, e, -⟩ := h y hy
    exact ⟨x, hx, e.symm⟩
  obtain ⟨h1, h2, h3, h4, h5, h6, h7, h8⟩ := ht
  refine ⟨?_, tm _ h2, ?_, tm _ h4, tm _ h5, tm _ h6, tm _ h7, tm _ h8⟩
  · obtain ⟨y, hy, e⟩ := h1
    obtain ⟨x, hx, e', -⟩ := h y hy
    exact ⟨x, hx, e'.symm.trans e⟩
  · obtain ⟨b, ⟨y, hy, rfl⟩, e⟩ := h3
    obtain ⟨x, hx, -, -, e', -⟩ := h y hy
    exact ⟨x.res, ⟨x, hx, rfl⟩, e'.symm.trans e⟩

theorem same_steps {xs : List (In (Int × Nat))} {k : Nat} {es' : List (Ev Use (In BucketIn))} (h : List.Forall₂ Same (xs.map (Ev.step k)) es') :
    ∃ ys : List (In BucketIn), es' = ys.map (Ev.step k) ∧
      ∀ y ∈ ys, ∃ x ∈ xs, y.tick = x.tick ∧ y.time = x.time ∧ y.res.time = x.res.1 ∧ y.res.pick = x.res.2 := by
  induction xs generalizing es' with
  | nil => cases h; exact ⟨[], rfl, by simp⟩
  | cons x xs ih =>
    rw [List.map_cons] at h
    obtain ⟨e, es', h1, h2, rfl⟩ := List.forall₂_cons_left_iff.1 h
    obtain ⟨ys, rfl, h3⟩ := ih h2
    cases e with
    | spawn u => cases h1
    | step j y =>
      obtain ⟨rfl, h1⟩ := h1
      refine ⟨y :: ys, rfl, fun z hz => ?_⟩
      rcases List.mem_cons.1 hz with rfl | hz
      · exact ⟨x, by simp, h1⟩
      · obtain ⟨x', hx', h⟩ := h3 z hz
        exact ⟨x', by simp [hx'], h⟩

theorem forall₂_append_left {α β : Type} {Rel : α → β → Prop} {a b : List α} {l : List β} (h : List.Forall₂ Rel (a ++ b) l) :
    ∃ l1 l2, List.Forall₂ Rel a l1 ∧ List.Forall₂ Rel b l2 ∧ l = l1 ++ l2 := by
  induction a generalizing l with
  | nil => exact ⟨[], l, .nil, h, rfl⟩
  | cons x a ih =>
    rw [List.cons_append] at h
    obtain ⟨y, l, h1, h2, rfl⟩ := List.forall₂_cons_left_iff.1 h
    obtain ⟨l1, l2, h3, h4, rfl⟩ := ih h2
    exact ⟨y :: l1, l2, .cons h1 h3, h4, rfl⟩

theorem same_serial {h : List (Use × List (In (Int × Nat)))} {k : Nat} {es' : List (Ev Use (In BucketIn))} (hs : List.Forall₂ Same (serial k h) es') :
    ∃ h' : List (Use × List (In BucketIn)), es' = serial k h' ∧ List.Forall₂ (fun a b => a.1 = b.1 ∧
      ∀ y ∈ b.2, ∃ x ∈ a.2, y.tick = x.tick ∧ y.time = x.time ∧ y.res.time = x.res.1 ∧ y.res.pick = x.res.2) h h' := by
  induction h generalizing k es' with
  | nil => cases hs; exact ⟨[], rfl, .nil⟩
  | cons e h ih =>
    obtain ⟨u, xs⟩ := e
    rw [serial, List.cons_append] at hs
    obtain ⟨e, es', h1, h2, rfl⟩ := List.forall₂_cons_left_iff.1 hs
    cases e with
    | step j y => cases h1
    | spawn v =>
      have h1 : u = v := h1
      subst h1
      obtain ⟨l1, l2, h3, h4, rfl⟩ : ∃ l1 l2, List.Forall₂ Same (xs.map (Ev.step k)) l1 ∧ List.Forall₂ Same (serial (k + 1) h) l2 ∧ es' = l1 ++ l2 :=
        forall₂_append_left h2
      obtain ⟨ys, rfl, h5⟩ := same_steps h3
      obtain ⟨h', rfl, h6⟩ := ih h4
      exact ⟨(u, ys) :: h', rfl, .cons ⟨rfl, h5⟩ h6⟩

end Whole

/-- **C91.** `Update`/`UpdateWithError` of a compass with a bucket reservoir, started in any state and not interrupted, leaves what the sequential model
leaves and returns exactly if the sequential one does; every reading was made during the call. -/
theorem C91_compass_bucket (R : Rounding) (bi : Int) (hbi : bi ≠ 0) (st : Int) (p : Pool (Parts BucketCounter BucketPC) Whole.Call)
    (hint : p.shared.marks.shared.interval = bi) (d : Int) (a : CompassConc.MarkArg) (xs : List (Whole.In (Int × Nat))) (c : Whole.Call)
    (hc : ((bucketCompass R bi).run p (.spawn (.update d a) :: xs.map (Ev.step p.calls.length))).calls[p.calls.length]? = some c) (hover : c.ended = true) :
    ∃ env : Compass.Env Int, Told (· ∈ xs) clockTold env ∧
      let s' := ((bucketCompass R bi).run p (.spawn (.update d a) :: xs.map (Ev.step p.calls.length))).shared
      let r := (p.shared.seen (fun s => (⟨s, bi⟩ : BucketReservoir)) st).updateWithError R BucketReservoir.impl env d a.isSuccess a.errorCode a.addon
      s'.seen (fun s => ⟨s, bi⟩) st = r.state ∧ (c.returned s' ↔ r.panicked = false) := by
  obtain ⟨es', h1, h2⟩ := bucket_run R bi p (.spawn (.update d a) :: xs.map (Ev.step p.calls.length))
  rw [h2] at hc ⊢
  obtain ⟨e, es', h3, h4, rfl⟩ := List.forall₂_cons_left_iff.1 h1
  cases e with
  | step j y => cases h3
  | spawn v =>
    have h3 : Use.update d a = v := h3
    subst h3
    obtain ⟨ys, rfl, h5⟩ := same_steps h4
    obtain ⟨env, g1, g2⟩ := alone_update (bucket_faithful bi) R bi hbi st p hint d a ys c hc hover
    exact ⟨env, Same.told h5 g1, g2⟩

/-- **C91.** A rate getter of such a compass, not interrupted. -/
theorem C91_compass_bucket_rate (R : Rounding) (bi : Int) (hbi : bi ≠ 0) (st : Int) (p : Pool (Parts BucketCounter BucketPC) Whole.Call)
    (hint : p.shared.marks.shared.interval = bi) (w : Which) (xs : List (Whole.In (Int × Nat))) (c : Whole.Call)
    (hc : ((bucketCompass R bi).run p (.spawn (.rate w) :: xs.map (Ev.step p.calls.length))).calls[p.calls.length]? = some c) (hover : c.ended = true) :
    ∃ x ∈ xs, ((bucketCompass R bi).run p (.spawn (.rate w) :: xs.map (Ev.step p.calls.length))).shared.seen (fun s => (⟨s, bi⟩ : BucketReservoir)) st =
        ((p.shared.seen (fun s => (⟨s, bi⟩ : BucketReservoir)) st).tickIfNecessary R x.tick).state ∧
      ∃ i, c.pc = .got i (rateOf R (p.shared.seen (fun s => (⟨s, bi⟩ : BucketReservoir)) st) x.tick w) := by
  obtain ⟨es', h1, h2⟩ := bucket_run R bi p (.spawn (.rate w) :: xs.map (Ev.step p.calls.length))
  rw [h2] at hc ⊢
  obtain ⟨e, es', h3, h4, rfl⟩ := List.forall₂_cons_left_iff.1 h1
  cases e with
  | step j y => cases h3
  | spawn v =>
    have h3 : Use.rate w = v := h3
    subst h3
    obtain ⟨ys, rfl, h5⟩ := same_steps h4
    obtain ⟨y, hy, g⟩ := alone_rate (T := bucket bi) (rsv := fun s => (⟨s, bi⟩ : BucketReservoir)) R bi hbi st p hint w ys c hc hover
    obtain ⟨x, hx, e, -⟩ := h5 y hy
    exact ⟨x, hx, by rw [← e]; exact g⟩

/-- **C91.** A history of `Update`, `UpdateWithError` and rate calls on a new compass with a bucket reservoir that do not overlap leaves what the
sequential model says. -/
theorem C91_compass_bucket_history (R : Rounding) (bi : Int) (hbi : bi ≠ 0) (n : Nat) (maxErr maxAdd now t1 t2 tv : Int)
    (h : List (Use × List (Whole.In (Int × Nat)))) (hno : ∀ e ∈ h, e.1 ≠ .snapshot)
    (hover : ∀ c ∈ (bucketUsed R bi n maxErr maxAdd now t1 t2 tv (serial 0 h)).calls, c.ended = true) :
    ∃ hist : List (Compass.Env Int × Compass.Op), List.Forall₂ (fun e x => e.2 = x.1.op ∧ Told (· ∈ x.2) clockTold e.1) hist h ∧
      (bucketUsed R bi n maxErr maxAdd now t1 t2 tv (serial 0 h)).shared.seen (fun s => (⟨s, bi⟩ : BucketReservoir)) now =
        (Compass.new (⟨BucketCounter.new bi n tv true, bi⟩ : BucketReservoir) n bi maxErr maxAdd ⟨t1, now, t2⟩).run R BucketReservoir.impl hist := by
  obtain ⟨es', h1, h2⟩ := bucket_run R bi (init (BucketCounter.new bi n tv true) bi n maxErr maxAdd now t1 t2) (serial 0 h)
  change bucketUsed R bi n maxErr maxAdd now t1 t2 tv (serial 0 h) = _ at h2
  rw [h2] at hover ⊢
  obtain ⟨h', rfl, h3⟩ := same_serial h1
  have hno' : ∀ e ∈ h', e.1 ≠ .snapshot := by
    clear h1 h2 hover
    induction h3 with
    | nil => simp
    | cons hab _ ih =>
      intro e he
      rcases List.mem_cons.1 he with rfl | he
      · rw [← hab.1]; exact hno _ (by simp)
      · exact ih (fun e he => hno e (by simp [he])) e he
  obtain ⟨hist, g1, g2⟩ := serial_run (bucket_faithful bi) R bi hbi now _ rfl h' hno' hover
  refine ⟨hist, ?_, g2⟩
  clear g2 h1 h2 hover hno hno'
  induction g1 generalizing h with
  | nil => cases h3; exact .nil
  | cons he _ ih =>
    cases h3 with
    | cons hab h3 => exact .cons ⟨by rw [hab.1]; exact he.1, Same.told hab.2 he.2⟩ (ih _ h3)

namespace Whole

/-- The snapshot call is over. -/
def snapOver : BucketPair.SnapPC → Bool
  | .done _ | .panicked => true
  | _ => false

theorem over_snap (bi : Int) (pc : BucketPair.SnapPC) : ((bucket bi).over (.snap pc)).isSome = snapOver pc := by cases pc <;> rfl

/-- How a snapshot call of the compass moves. -/
theorem snap_step (R : Rounding) (bi : Int) (s : Parts BucketCounter BucketPC) (cs : List BucketPC) (pc : BucketPair.SnapPC) (x : In (Int × Nat))
    (hr : s.res.calls = cs ++ [.snap pc]) :
    (bucketCompass R bi).step s x ⟨.snapshot, .snap cs.length⟩ =
      if snapOver pc then (s, ⟨.snapshot, .snapped cs.length⟩)
      else ({ s with res := ⟨s.res.shared, cs ++ [.snap (BucketPair.snapStep bi ⟨s.marks.shared.total, s.res.shared⟩ x.res pc)]⟩ }, ⟨.snapshot, .snap cs.length⟩) := by
  have e : s.res.calls[cs.length]? = some (.snap pc) := by rw [hr]; simp
  simp only [bucketCompass, callStep, e, over_snap]
  by_cases ho : snapOver pc = true
  · simp [ho]
  · simp only [ho, Bool.false_eq_true, if_false, Machine.apply, e]
    congr 2
    rw [hr]
    simp [bucket, bucketConc, atTotal]

end Whole

/-- **C91.** A snapshot of such a compass that is not interrupted changes nothing, and shows, or panics, as the sequential `GetSnapshot` does at
clock readings made during the call. -/
theorem C91_compass_bucket_snapshot (R : Rounding) (bi : Int) (p : Pool (Parts BucketCounter BucketPC) Whole.Call) (xs : List (Whole.In (Int × Nat)))
    (c : Whole.Call)
    (hc : ((bucketCompass R bi).run p (.spawn .snapshot :: xs.map (Ev.step p.calls.length))).calls[p.calls.length]? = some c) (hover : c.ended = true) :
    let s' := ((bucketCompass R bi).run p (.spawn .snapshot :: xs.map (Ev.step p.calls.length))).shared
    s'.ticks = p.shared.ticks ∧ s'.avg = p.shared.avg ∧ s'.marks = p.shared.marks ∧ s'.res.shared = p.shared.res.shared ∧
      ∃ r, c.pc = .snapped r ∧ ∃ env : BucketReservoir.SnapEnv, (∃ x ∈ xs, x.res.1 = env.tAlign) ∧
        match (⟨p.shared.res.shared, bi⟩ : BucketReservoir).getSnapshot p.shared.marks.shared.total env with
        | none => s'.res.calls[r]? = some (.snap .panicked)
        | some b => s'.res.calls[r]? = some (.snap (.done b)) ∧ (∃ x ∈ xs, x.res.1 = env.tValue) ∧ ∃ x ∈ xs, x.res.1 = env.tCount := by
  intro s'
  set cs := p.shared.res.calls with hcs
  set sh : BucketPair.Shared := ⟨p.shared.marks.shared.total, p.shared.res.shared⟩ with hsh
  let at_ : BucketPair.SnapPC → Parts BucketCounter BucketPC := fun pc => { p.shared with res := ⟨p.shared.res.shared, cs ++ [.snap pc]⟩ }
  have key : ∀ (l : List (Whole.In (Int × Nat))), (∀ x ∈ l, x ∈ xs) → ∀ s c,
      (s = p.shared ∧ c = ⟨.snapshot, .start⟩ ∨ (∃ pc, BucketPair.LookOk bi sh (xs.map In.res) pc ∧ s = at_ pc ∧
        (c = ⟨.snapshot, .snap cs.length⟩ ∨ c = ⟨.snapshot, .snapped cs.length⟩ ∧ snapOver pc = true))) →
      let r := (bucketCompass R bi).alone s c l
      (r.1 = p.shared ∧ r.2 = ⟨.snapshot, .start⟩ ∨ (∃ pc, BucketPair.LookOk bi sh (xs.map In.res) pc ∧ r.1 = at_ pc ∧
        (r.2 = ⟨.snapshot, .snap cs.length⟩ ∨ r.2 = ⟨.snapshot, .snapped cs.length⟩ ∧ snapOver pc = true))) := by
    intro l
    induction l with
    | nil => intro _ s c h; exact h
    | cons x l ih =>
      intro hl s c h
      refine ih (fun y hy => hl y (by simp [hy])) _ _ ?_
      rcases h with ⟨rfl, rfl⟩ | ⟨pc, h1, rfl, rfl | ⟨rfl, h2⟩⟩
      · exact .inr ⟨.align, trivial, rfl, .inl rfl⟩
      · rw [snap_step R bi (at_ pc) cs pc x rfl]
        by_cases ho : snapOver pc = true
        · rw [if_pos ho]; exact .inr ⟨pc, h1, rfl, .inr ⟨rfl, ho⟩⟩
        · rw [if_neg ho]
          exact .inr ⟨_, BucketPair.lookOk_step bi sh (xs.map In.res) x.res (List.mem_map_of_mem (hl x (by simp))) pc h1, rfl, .inl rfl⟩
      · exact .inr ⟨pc, h1, rfl, .inr ⟨rfl, h2⟩⟩
  have e : ((bucketCompass R bi).apply p (.spawn .snapshot)).calls[p.calls.length]? = some ⟨.snapshot, .start⟩ := by simp [Machine.apply, bucketCompass]
  have hrun := (bucketCompass R bi).run_alone _ e xs
  rw [Machine.run_cons, hrun] at hc
  have hs' : s' = ((bucketCompass R bi).alone p.shared ⟨.snapshot, .start⟩ xs).1 := by
    simp only [s']; rw [Machine.run_cons, hrun]; rfl
  simp only [Machine.apply] at hc
  rw [List.getElem?_set] at hc
  simp at hc
  subst hc
  rw [hs']
  rcases key xs (fun _ h => h) p.shared ⟨.snapshot, .start⟩ (.inl ⟨rfl, rfl⟩) with ⟨-, h2⟩ | ⟨pc, h1, h2, h3 | ⟨h3, h4⟩⟩
  · rw [h2] at hover; cases hover
  · rw [h3] at hover; cases hover
  · rw [h2, h3]
    refine ⟨rfl, rfl, rfl, rfl, cs.length, rfl, ?_⟩
    have hget : (at_ pc).res.calls[cs.length]? = some (.snap pc) := by simp [at_]
    have tr : ∀ t, (∃ a ∈ xs.map In.res, a.1 = t) → ∃ x ∈ xs, x.res.1 = t := by
      rintro t ⟨a, ha, rfl⟩
      obtain ⟨x, hx, rfl⟩ := List.mem_map.1 ha
      exact ⟨x, hx, rfl⟩
    cases pc with
    | done b =>
      obtain ⟨env, g1, g2, g3, g4⟩ := h1
      refine ⟨env, tr _ g1, ?_⟩
      have g4 : (⟨p.shared.res.shared, bi⟩ : BucketReservoir).getSnapshot p.shared.marks.shared.total env = some b := g4
      rw [g4]
      exact ⟨hget, tr _ g2, tr _ g3⟩
    | panicked =>
      obtain ⟨env, g1, g4⟩ := h1
      refine ⟨env, tr _ g1, ?_⟩
      have g4 : (⟨p.shared.res.shared, bi⟩ : BucketReservoir).getSnapshot p.shared.marks.shared.total env = none := g4
      rw [g4]
      exact hget
    | _ => cases h4

end GoMetrics
