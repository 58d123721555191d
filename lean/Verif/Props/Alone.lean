import Verif.Proofs.AloneWhole
import Verif.Proofs.RegistrySeq
import Verif.Props.CompassFeed
/-! # C91 — a call that nobody interrupts does what the sequential model says

Some theorems of this development are about calls that do not overlap, others about calls in small steps. Here the two kinds of models are shown to
describe the same program: from *every* state of the shared memory (also one in which other calls are under way and stand still), a call that runs from
its beginning to its end without interruption leaves the memory, and returns the result, of the sequential model. -/
namespace GoMetrics
open Machine

/-! ## Calls one after the other -/
namespace Machine
variable {S C A I : Type} {M : Machine S C A I}

theorem serial_keeps (h : List (A × List I)) : ∀ (p : Pool S C) (k : Nat), p.calls.length = k →
    (∀ i < k, (M.run p (serial k h)).calls[i]? = p.calls[i]?) := by
  induction h with
  | nil => intro p k _ i _; rfl
  | cons e h ih =>
    obtain ⟨a, xs⟩ := e
    intro p k hk i hi
    have e1 : (M.apply p (.spawn a)).calls[k]? = some (M.call a) := by simp [Machine.apply, ← hk]
    rw [serial, Machine.run_append, Machine.run_cons, M.run_alone _ e1, ih _ (k + 1) (by simp [Machine.apply, hk]) i (by omega)]
    simp only [Machine.apply]
    rw [List.getElem?_set_ne (by omega), List.getElem?_append_left (by omega)]

/-- `Rel` holds between the states before and after each call. -/
inductive Follows (Rel : S → A → List I → S → Prop) : S → List (A × List I) → S → Prop
  | nil {s} : Follows Rel s [] s
  | cons {s a xs s' h s''} : Rel s a xs s' → Follows Rel s' h s'' → Follows Rel s ((a, xs) :: h) s''

theorem serial_follows {over : C → Bool} {ok : A → Prop} {Inv : S → Prop} {Rel : S → A → List I → S → Prop}
    (hRel : ∀ (p : Pool S C) (a : A) (xs : List I) (c : C), ok a → Inv p.shared →
      (M.run p (.spawn a :: xs.map (Ev.step p.calls.length))).calls[p.calls.length]? = some c → over c = true →
      Rel p.shared a xs (M.run p (.spawn a :: xs.map (Ev.step p.calls.length))).shared ∧
        Inv (M.run p (.spawn a :: xs.map (Ev.step p.calls.length))).shared)
    (h : List (A × List I)) : ∀ (p : Pool S C), Inv p.shared → (∀ e ∈ h, ok e.1) →
    (∀ i, p.calls.length ≤ i → ∀ c, (M.run p (serial p.calls.length h)).calls[i]? = some c → over c = true) →
    Follows Rel p.shared h (M.run p (serial p.calls.length h)).shared := by
  induction h with
  | nil => intro p _ _ _; exact .nil
  | cons e h ih =>
    obtain ⟨a, xs⟩ := e
    intro p hinv hok hover
    rw [serial, Machine.run_append] at hover ⊢
    have e1 : (M.apply p (.spawn a)).calls[p.calls.length]? = some (M.call a) := by simp [Machine.apply]
    have hlen : (M.run p (.spawn a :: xs.map (Ev.step p.calls.length))).calls.length = p.calls.length + 1 := by
      rw [Machine.run_cons, M.run_alone _ e1]; simp [Machine.apply]
    generalize hp1 : M.run p (.spawn a :: xs.map (Ev.step p.calls.length)) = p1 at hover hlen ⊢
    obtain ⟨c, hc⟩ : ∃ c, p1.calls[p.calls.length]? = some c := ⟨_, List.getElem?_eq_getElem (by omega)⟩
    have hcover : over c = true := hover p.calls.length le_rfl c (by rw [serial_keeps h p1 (p.calls.length + 1) hlen _ (by omega)]; exact hc)
    have hr := hRel p a xs c (hok (a, xs) (by simp)) hinv (by rw [hp1]; exact hc) hcover
    rw [hp1] at hr
    refine .cons hr.1 ?_
    have := ih p1 hr.2 (fun e he => hok e (by simp [he]))
    rw [hlen] at this
    exact this (fun i hi c hc => hover i (by omega) c hc)

theorem Follows.fold {Rel : S → A → List I → S → Prop} {σ E : Type} (view : S → σ) (stepf : σ → E → σ)
    (good : A → List I → E → Prop) (hstep : ∀ s a xs s', Rel s a xs s' → ∃ e, good a xs e ∧ view s' = stepf (view s) e)
    {s : S} {h : List (A × List I)} {s' : S} (hf : Follows Rel s h s') :
    ∃ hist : List E, List.Forall₂ (fun e x => good x.1 x.2 e) hist h ∧ view s' = hist.foldl stepf (view s) := by
  induction hf with
  | nil => exact ⟨[], .nil, rfl⟩
  | cons hr _ ih =>
    obtain ⟨e, g1, g2⟩ := hstep _ _ _ _ hr
    obtain ⟨hist, i1, i2⟩ := ih
    exact ⟨e :: hist, .cons g1 i1, by rw [i2, List.foldl_cons, g2]⟩

end Machine

/-! ## The parts -/

/-- **C91.** `UpdateN(n)` of a bucket counter, started in any state and not interrupted: what it leaves, and whether it panics, is what the sequential
`UpdateN` does at some clock reading made during the call. -/
theorem C91_bucket_counter (p : Pool BucketCounter BucketCounter.Call) (n : Int) (xs : List Int) (c : BucketCounter.Call)
    (hc : (BucketCounter.conc.run p (.spawn n :: xs.map (Ev.step p.calls.length))).calls[p.calls.length]? = some c) (hover : c.ended = true) :
    ∃ t ∈ xs, (BucketCounter.conc.run p (.spawn n :: xs.map (Ev.step p.calls.length))).shared = (p.shared.updateN t n).state ∧
      (c.pc = .panicked ↔ (p.shared.updateN t n).panicked = true) :=
  Wlp.spawned xs (BucketCounter.wlp_updateN (· ∈ xs) p.shared n) BucketCounter.ended_idle hc hover

/-- **C91.** A history of `UpdateN` calls on a bucket counter that do not overlap leaves what the sequential model says. -/
theorem C91_bucket_counter_history (b : BucketCounter) (h : List (Int × List Int))
    (hover : ∀ c ∈ (BucketCounter.conc.run (Machine.start b) (serial 0 h)).calls, c.ended = true) :
    ∃ hist : List (Int × BucketCounter.Op), List.Forall₂ (fun e x => e.2 = .updateN x.1 ∧ e.1 ∈ x.2) hist h ∧
      (BucketCounter.conc.run (Machine.start b) (serial 0 h)).shared = b.run hist := by
  have hf := serial_follows (M := BucketCounter.conc) (over := BucketCounter.Call.ended) (ok := fun _ => True) (Inv := fun _ => True)
    (Rel := fun b n xs b' => ∃ t ∈ xs, b' = (b.updateN t n).state)
    (fun p a xs c _ _ hc ho => ⟨by obtain ⟨t, h1, h2, -⟩ := C91_bucket_counter p a xs c hc ho; exact ⟨t, h1, h2⟩, trivial⟩)
    h (Machine.start b) trivial (fun _ _ => trivial) (fun i _ c hc => hover c (List.mem_of_getElem? hc))
  exact hf.fold id (fun (b : BucketCounter) (e : Int × BucketCounter.Op) => (b.step e.1 e.2).state) (fun n xs e => e.2 = BucketCounter.Op.updateN n ∧ e.1 ∈ xs)
    (by rintro s n xs s' ⟨t, ht, rfl⟩; exact ⟨(t, .updateN n), ⟨rfl, ht⟩, rfl⟩)

/-- **C91.** A query `GetBucketCountsSince` that is not interrupted answers what the sequential query answers, and changes nothing. -/
theorem C91_query (p : Pool BucketCounter BucketCounter.Call) (startTime : Int) (ts : List Int)
    (hover : ((ts.map Sum.inr).foldl (BucketCounter.watchStep startTime) (p, .clock)).2.ended = true) :
    ((ts.map Sum.inr).foldl (BucketCounter.watchStep startTime) (p, .clock)).1 = p ∧
    ∃ t ∈ ts, ((ts.map Sum.inr).foldl (BucketCounter.watchStep startTime) (p, .clock)).2 =
      match p.shared.getBucketCountsSince t startTime with
      | none => .panicked
      | some r => .done r := by
  have e : ∀ (ts : List Int) (c : BucketCounter.ReadPC), (ts.map Sum.inr).foldl (BucketCounter.watchStep startTime) (p, c) =
      (p, ((BucketCounter.query startTime).alone p.shared c ts).2) ∧ ((BucketCounter.query startTime).alone p.shared c ts).1 = p.shared := by
    intro ts
    induction ts with
    | nil => intro c; exact ⟨rfl, rfl⟩
    | cons t ts ih => intro c; exact ih _
  rw [(e ts .clock).1] at hover ⊢
  obtain ⟨-, h⟩ := (BucketCounter.wlp_query (· ∈ ts) p.shared startTime).alone (by
    intro s x c hc; cases c <;> first | rfl | cases hc) ts (fun _ h => h) hover
  exact ⟨rfl, h⟩

/-- **C91.** `Update`, `Tick` or `TickN` of a moving average, not interrupted. -/
theorem C91_average (R : Rounding) (p : Pool EWMA.Shared EWMA.PC) (op : EWMA.Op) (k : Nat) (c : EWMA.PC)
    (hc : ((EWMA.conc R).run p (.spawn op :: (List.replicate k ()).map (Ev.step p.calls.length))).calls[p.calls.length]? = some c) (hover : c.ended = true) :
    ((EWMA.conc R).run p (.spawn op :: (List.replicate k ()).map (Ev.step p.calls.length))).shared.e = p.shared.e.step R op ∧
    ((EWMA.conc R).run p (.spawn op :: (List.replicate k ()).map (Ev.step p.calls.length))).shared.held = p.shared.held :=
  Wlp.spawned _ (EWMA.wlp_call R _ p.shared op) (EWMA.ended_idle R) hc hover

/-- **C91.** `UpdateN` of a decaying reservoir, not interrupted: all readings and the random number were supplied to the call. -/
theorem C91_decaying_update (A : EDR.Arith) (p : Pool EDRConc.Shared EDRConc.PC) (v : Int) (xs : List EDRConc.In) (c : EDRConc.PC)
    (hc : ((EDRConc.machine A).run p (.spawn (.updateN v) :: xs.map (Ev.step p.calls.length))).calls[p.calls.length]? = some c) (hover : c.ended = true) :
    ∃ x1 ∈ xs, ∃ x2 ∈ xs, ∃ x3 ∈ xs, ∃ x4 ∈ xs,
      let r := p.shared.rsv.updateN A ⟨x1.tick, x2.time, x3.time, x4.u⟩ v
      ((EDRConc.machine A).run p (.spawn (.updateN v) :: xs.map (Ev.step p.calls.length))).shared.rsv = r.state ∧
        (c = .panicked v ↔ r.panicked = true) := by
  obtain ⟨x1, x2, x3, x4, ⟨p1, p2, p3, p4⟩, h1, h2⟩ := Wlp.spawned xs (EDRConc.wlp_updateN A (· ∈ xs) p.shared v) (EDRConc.ended_idle A) hc hover
  refine ⟨x1, p1, x2, p2, x3, p3, x4, p4, h1, ?_⟩
  rcases h2 with ⟨h2, rfl⟩ | ⟨h2, ts, u, k, rfl⟩
  · simp [h2]
  · simp [h2]

/-- **C91.** `GetSnapshot` of a decaying reservoir, not interrupted. -/
theorem C91_decaying_snapshot (A : EDR.Arith) (p : Pool EDRConc.Shared EDRConc.PC) (xs : List EDRConc.In) (c : EDRConc.PC)
    (hc : ((EDRConc.machine A).run p (.spawn .getSnapshot :: xs.map (Ev.step p.calls.length))).calls[p.calls.length]? = some c) (hover : c.ended = true) :
    ∃ x1 ∈ xs, ∃ x2 ∈ xs,
      ((EDRConc.machine A).run p (.spawn .getSnapshot :: xs.map (Ev.step p.calls.length))).shared.rsv = p.shared.rsv.afterSnapshot A x1.tick x2.time ∧
        c = .snapshot (p.shared.rsv.afterSnapshot A x1.tick x2.time).getValues := by
  obtain ⟨x1, x2, ⟨p1, p2⟩, h1, h2⟩ := Wlp.spawned xs (EDRConc.wlp_snapshot A (· ∈ xs) p.shared) (EDRConc.ended_idle A) hc hover
  exact ⟨x1, p1, x2, p2, h1, h2⟩

/-- **C91.** `Size` of a decaying reservoir, not interrupted. -/
theorem C91_decaying_size (A : EDR.Arith) (p : Pool EDRConc.Shared EDRConc.PC) (xs : List EDRConc.In) (c : EDRConc.PC)
    (hc : ((EDRConc.machine A).run p (.spawn .size :: xs.map (Ev.step p.calls.length))).calls[p.calls.length]? = some c) (hover : c.ended = true) :
    ((EDRConc.machine A).run p (.spawn .size :: xs.map (Ev.step p.calls.length))).shared = p.shared ∧ c = .sized p.shared.rsv.getSize :=
  Wlp.spawned xs (EDRConc.wlp_size A (· ∈ xs) p.shared) (EDRConc.ended_idle A) hc hover

/-! ## A whole compass -/
namespace Whole
variable {S C A I σ X : Type}

/-- What a compass call that nobody interrupts leaves, for any faithful reservoir. -/
theorem alone_update {T : Stepped S C A I} {rsv : S → σ} {impl : ReservoirImpl σ X} {From : (I → Prop) → X → Prop} (hF : T.Faithful rsv impl From)
    (R : Rounding) (bi : Int) (hbi : bi ≠ 0) (st : Int) (p : Pool (Parts S C) Call) (hint : p.shared.marks.shared.interval = bi) (d : Int)
    (a : CompassConc.MarkArg) (xs : List (In I)) (c : Call)
    (hc : ((machine R T bi).run p (.spawn (.update d a) :: xs.map (Ev.step p.calls.length))).calls[p.calls.length]? = some c) (hover : c.ended = true) :
    Updated R (· ∈ xs) impl From rsv st p.shared d a ((machine R T bi).run p (.spawn (.update d a) :: xs.map (Ev.step p.calls.length))).shared c :=
  Wlp.spawned xs (wlp_update hF hbi p.shared hint d a) ended_idle hc hover

theorem alone_rate {T : Stepped S C A I} {rsv : S → σ} (R : Rounding) (bi : Int) (hbi : bi ≠ 0) (st : Int) (p : Pool (Parts S C) Call)
    (hint : p.shared.marks.shared.interval = bi) (w : Which) (xs : List (In I)) (c : Call)
    (hc : ((machine R T bi).run p (.spawn (.rate w) :: xs.map (Ev.step p.calls.length))).calls[p.calls.length]? = some c) (hover : c.ended = true) :
    ∃ x ∈ xs, ((machine R T bi).run p (.spawn (.rate w) :: xs.map (Ev.step p.calls.length))).shared.seen rsv st =
        ((p.shared.seen rsv st).tickIfNecessary R x.tick).state ∧
      ∃ i, c.pc = .got i (rateOf R (p.shared.seen rsv st) x.tick w) := by
  obtain ⟨x, h1, h2⟩ := Wlp.spawned xs (wlp_rate (P := (· ∈ xs)) (T := T) (rsv := rsv) (st := st) hbi p.shared hint w) ended_idle hc hover
  exact ⟨x, h1, h2⟩

theorem serial_run {T : Stepped S C A I} {rsv : S → σ} {impl : ReservoirImpl σ X} {From : (I → Prop) → X → Prop} (hF : T.Faithful rsv impl From)
    (R : Rounding) (bi : Int) (hbi : bi ≠ 0) (st : Int) (s0 : Parts S C) (hint : s0.marks.shared.interval = bi) (h : List (Use × List (In I)))
    (hno : ∀ e ∈ h, e.1 ≠ .snapshot)
    (hover : ∀ c ∈ ((machine R T bi).run (Machine.start s0) (serial 0 h)).calls, c.ended = true) :
    ∃ hist : List (Compass.Env X × Compass.Op), List.Forall₂ (fun e x => e.2 = x.1.op ∧ Told (· ∈ x.2) From e.1) hist h ∧
      ((machine R T bi).run (Machine.start s0) (serial 0 h)).shared.seen rsv st = (s0.seen rsv st).run R impl hist := by
  have hf := serial_follows (M := machine R T bi) (over := Call.ended) (ok := fun u => u ≠ .snapshot) (Inv := fun s => s.marks.shared.interval = bi)
    (Rel := fun s u xs s' => ∃ e : Compass.Env X × Compass.Op, (e.2 = u.op ∧ Told (· ∈ xs) From e.1) ∧
      s'.seen rsv st = ((s.seen rsv st).step R impl e.1 e.2).state) (by
      intro p u xs c hu hint hc ho
      have hkeep : ∀ (s' : Parts S C) (env : Compass.Env X) (op : Compass.Op), s'.seen rsv st = ((p.shared.seen rsv st).step R impl env op).state →
          s'.marks.shared.interval = bi := by
        intro s' env op hs
        have h1 : (s'.seen rsv st).bucketInterval = (p.shared.seen rsv st).bucketInterval := by rw [hs, Compass.step_interval R impl _ env op (by rw [show (p.shared.seen rsv st).bucketInterval = bi from hint]; exact hbi)]
        exact h1.trans hint
      cases u with
      | snapshot => exact absurd rfl hu
      | update d a =>
        obtain ⟨env, h1, h2, -⟩ := alone_update hF R bi hbi st p hint d a xs c hc ho
        exact ⟨⟨(env, .updateWithError d a.isSuccess a.errorCode a.addon), ⟨rfl, h1⟩, h2⟩, hkeep _ env (.updateWithError d a.isSuccess a.errorCode a.addon) h2⟩
      | rate w =>
        obtain ⟨x, h1, h2, -⟩ := alone_rate (rsv := rsv) R bi hbi st p hint w xs c hc ho
        obtain ⟨xr, hxr⟩ := hF.told (fun i => ∃ x, x ∈ xs ∧ x.res = i) ⟨x.res, x, h1, rfl⟩
        have hx : ∃ y, y ∈ xs ∧ y.time = x.time := ⟨x, h1, rfl⟩
        exact ⟨⟨(⟨x.tick, x.time, xr, x.time, x.time, x.time, x.time, x.time⟩, .readRate), ⟨rfl, ⟨x, h1, rfl⟩, hx, hxr, hx, hx, hx, hx, hx⟩, h2⟩,
          hkeep _ ⟨x.tick, x.time, xr, x.time, x.time, x.time, x.time, x.time⟩ .readRate h2⟩)
    h (Machine.start s0) hint hno (fun i _ c hc => hover c (List.mem_of_getElem? hc))
  exact hf.fold (Parts.seen rsv st) (fun c (e : Compass.Env X × Compass.Op) => (c.step R impl e.1 e.2).state) _ (fun s a xs s' h => h)

end Whole
open Whole

/-- **C91.** `Update`/`UpdateWithError` of a compass with a uniform reservoir, started in any state of its memory and not interrupted: the counters, the
label maps, the averages, the tick clock and the reservoir are what the sequential model leaves, and the call returns (rather than panics) exactly if the
sequential one does; every reading and random word of the sequential call was supplied to the call. -/
theorem C91_compass_uniform (R : Rounding) (bi : Int) (hbi : bi ≠ 0) (st : Int) (p : Pool _ Whole.Call) (hint : p.shared.marks.shared.interval = bi) (d : Int)
    (a : CompassConc.MarkArg) (xs : List (Whole.In Int)) (c : Whole.Call)
    (hc : ((machine R uniform bi).run p (.spawn (.update d a) :: xs.map (Ev.step p.calls.length))).calls[p.calls.length]? = some c) (hover : c.ended = true) :
    ∃ env : Compass.Env (List Int), Told (· ∈ xs) uniformTold env ∧
      let s' := ((machine R uniform bi).run p (.spawn (.update d a) :: xs.map (Ev.step p.calls.length))).shared
      let r := (p.shared.seen Guard.obj st).updateWithError R UniformReservoir.impl env d a.isSuccess a.errorCode a.addon
      s'.seen Guard.obj st = r.state ∧ (c.returned s' ↔ r.panicked = false) :=
  alone_update uniform_faithful R bi hbi st p hint d a xs c hc hover

/-- **C91.** The same for a compass with a decaying reservoir. -/
theorem C91_compass_decaying (R : Rounding) (A : EDR.Arith) (bi : Int) (hbi : bi ≠ 0) (st : Int) (p : Pool _ Whole.Call)
    (hint : p.shared.marks.shared.interval = bi) (d : Int) (a : CompassConc.MarkArg) (xs : List (Whole.In EDRConc.In)) (c : Whole.Call)
    (hc : ((machine R (decaying A) bi).run p (.spawn (.update d a) :: xs.map (Ev.step p.calls.length))).calls[p.calls.length]? = some c)
    (hover : c.ended = true) :
    ∃ env : Compass.Env EDR.Env, Told (· ∈ xs) decayingTold env ∧
      let s' := ((machine R (decaying A) bi).run p (.spawn (.update d a) :: xs.map (Ev.step p.calls.length))).shared
      let r := (p.shared.seen EDRConc.Shared.rsv st).updateWithError R (EDR.impl A) env d a.isSuccess a.errorCode a.addon
      s'.seen EDRConc.Shared.rsv st = r.state ∧ (c.returned s' ↔ r.panicked = false) :=
  alone_update (decaying_faithful A) R bi hbi st p hint d a xs c hc hover

/-- **C91.** A rate getter of a compass (with any reservoir) that is not interrupted leaves the compass as the sequential getter does, and returns what
the sequential getter returns at a clock reading made during the call. -/
theorem C91_compass_rate {S C A I σ : Type} (T : Stepped S C A I) (rsv : S → σ) (R : Rounding) (bi : Int) (hbi : bi ≠ 0) (st : Int)
    (p : Pool (Parts S C) Whole.Call) (hint : p.shared.marks.shared.interval = bi) (w : Which) (xs : List (Whole.In I)) (c : Whole.Call)
    (hc : ((machine R T bi).run p (.spawn (.rate w) :: xs.map (Ev.step p.calls.length))).calls[p.calls.length]? = some c) (hover : c.ended = true) :
    ∃ x ∈ xs, ((machine R T bi).run p (.spawn (.rate w) :: xs.map (Ev.step p.calls.length))).shared.seen rsv st =
        ((p.shared.seen rsv st).tickIfNecessary R x.tick).state ∧
      ∃ i, c.pc = .got i (rateOf R (p.shared.seen rsv st) x.tick w) :=
  alone_rate R bi hbi st p hint w xs c hc hover

/-- **C91.** A snapshot of a compass with a decaying reservoir that is not interrupted touches nothing but the reservoir, rescales that as the sequential
model does, and copies the samples it then has. -/
theorem C91_compass_snapshot (R : Rounding) (A : EDR.Arith) (bi : Int) (p : Pool _ Whole.Call) (xs : List (Whole.In EDRConc.In)) (c : Whole.Call)
    (hc : ((machine R (decaying A) bi).run p (.spawn .snapshot :: xs.map (Ev.step p.calls.length))).calls[p.calls.length]? = some c)
    (hover : c.ended = true) :
    let s' := ((machine R (decaying A) bi).run p (.spawn .snapshot :: xs.map (Ev.step p.calls.length))).shared
    s'.ticks = p.shared.ticks ∧ s'.avg = p.shared.avg ∧ s'.marks = p.shared.marks ∧
      ∃ x1 ∈ xs, ∃ x2 ∈ xs, s'.res.shared.rsv = p.shared.res.shared.rsv.afterSnapshot A x1.res.tick x2.res.time ∧
        ∃ r, c.pc = .snapped r ∧ s'.res.calls[r]? = some (.snapshot s'.res.shared.rsv.getValues) := by
  have e : (fun c => ((decaying A).over c).isSome) = EDRConc.PC.ended := by funext c; cases c <;> rfl
  have h := EDRConc.wlp_snapshot A (fun i => ∃ x : Whole.In EDRConc.In, x ∈ xs ∧ x.res = i) p.shared.res.shared
  rw [← e] at h
  obtain ⟨h1, h2, h3, r, q, h4, h5, x1, x2, ⟨⟨y1, p1, rfl⟩, ⟨y2, p2, rfl⟩⟩, h6, rfl⟩ :=
    Wlp.spawned xs (wlp_snapshot (P := (· ∈ xs)) (R := R) (bi := bi) (fun x hx => ⟨x, hx, rfl⟩) p.shared h) ended_idle hc hover
  exact ⟨h1, h2, h3, y1, p1, y2, p2, h6, r, h4, by rw [h6]; exact h5⟩

/-- **C91.** A history of `Update`, `UpdateWithError` and rate calls on a new compass with a uniform reservoir that do not overlap leaves what the
sequential model says. -/
theorem C91_compass_uniform_history (R : Rounding) (u : UniformReservoir) (bi : Int) (hbi : bi ≠ 0) (n : Nat) (maxErr maxAdd now t1 t2 : Int)
    (h : List (Use × List (Whole.In Int))) (hno : ∀ e ∈ h, e.1 ≠ .snapshot)
    (hover : ∀ c ∈ (used R uniform { obj := u } bi n maxErr maxAdd now t1 t2 (serial 0 h)).calls, c.ended = true) :
    ∃ hist : List (Compass.Env (List Int) × Compass.Op), List.Forall₂ (fun e x => e.2 = x.1.op ∧ Told (· ∈ x.2) uniformTold e.1) hist h ∧
      (used R uniform { obj := u } bi n maxErr maxAdd now t1 t2 (serial 0 h)).shared.seen Guard.obj now =
        (Compass.new u n bi maxErr maxAdd ⟨t1, now, t2⟩).run R UniformReservoir.impl hist :=
  serial_run uniform_faithful R bi hbi now _ rfl h hno hover

/-- **C91.** The same with a decaying reservoir. -/
theorem C91_compass_decaying_history (R : Rounding) (A : EDR.Arith) (e : EDR) (bi : Int) (hbi : bi ≠ 0) (n : Nat) (maxErr maxAdd now t1 t2 : Int)
    (h : List (Use × List (Whole.In EDRConc.In))) (hno : ∀ e ∈ h, e.1 ≠ .snapshot)
    (hover : ∀ c ∈ (used R (decaying A) ⟨e, []⟩ bi n maxErr maxAdd now t1 t2 (serial 0 h)).calls, c.ended = true) :
    ∃ hist : List (Compass.Env EDR.Env × Compass.Op), List.Forall₂ (fun e x => e.2 = x.1.op ∧ Told (· ∈ x.2) decayingTold e.1) hist h ∧
      (used R (decaying A) ⟨e, []⟩ bi n maxErr maxAdd now t1 t2 (serial 0 h)).shared.seen EDRConc.Shared.rsv now =
        (Compass.new e n bi maxErr maxAdd ⟨t1, now, t2⟩).run R (EDR.impl A) hist :=
  serial_run (decaying_faithful A) R bi hbi now _ rfl h hno hover

/-! ## Lookups -/
namespace Registry

theorem alone_solo (s : Mem) (c : PC) (k : Nat) : conc.alone s c (List.replicate k ()) = solo k (s, c) := by
  induction k generalizing s c with
  | zero => rfl
  | succ k ih => exact ih _ _

theorem solo_add (m n : Nat) (x : Mem × PC) : solo (m + n) x = solo n (solo m x) := by
  induction m generalizing x with
  | zero => simp [solo]
  | succ m ih => rw [Nat.succ_add]; exact ih _

theorem solo_eq (s : Mem) (call : Call) (k : Nat) (h : (solo k (s, begin call)).2.ended = true) : solo k (s, begin call) = exec s call := by
  have hov : ∀ c : PC, c.ended = true → c.over = true := by intro c; cases c <;> simp [PC.ended, PC.over]
  have h9 : (exec s call).2.over = true := by
    have := (waitFree_of_rank conc (rank := PC.rank) (over := PC.ended) (k := 9) (by
      intro s x c
      cases c <;> simp only [conc, callStep] <;> (repeat' split) <;> simp [PC.rank]) (by intro c; cases c <;> simp [PC.rank])
      (by intro c h; cases c <;> simp [PC.rank] at h <;> rfl) s) [.spawn call] ((List.replicate 9 ()).map (Ev.step 0)) 0 (by simp [Machine.run, Machine.apply, Machine.start])
      (by rw [turns_steps]; simp)
    obtain ⟨c, h1, h2⟩ := this
    rw [Machine.run_append, conc.run_alone _ (c := begin call) (by simp [Machine.run, Machine.apply, Machine.start, conc])] at h1
    simp [Machine.run, Machine.apply, Machine.start] at h1
    have e : conc.alone s (begin call) [(), (), (), (), (), (), (), (), ()] = solo 9 (s, begin call) := alone_solo s _ 9
    rw [e] at h1
    rw [exec, h1]
    exact hov c h2
  have e1 : solo (k + 9) (s, begin call) = solo k (s, begin call) := by
    rw [solo_add]
    exact solo_over 9 _ _ (hov _ h)
  have e2 : solo (9 + k) (s, begin call) = exec s call := by
    rw [solo_add]
    exact solo_over k _ _ h9
  rw [← e1, Nat.add_comm, e2]

end Registry

/-- **C91.** A lookup on a registry that is not interrupted leaves the registry, and returns, what the sequential model says. -/
theorem C91_registry_lookup (p : Pool Registry.Mem Registry.PC) (q : Registry.Req) (rid : Nat) (hq : q.target = .direct rid) (k : Nat) (c : Registry.PC)
    (hc : (Registry.conc.run p (.spawn (.lookup q) :: (List.replicate k ()).map (Ev.step p.calls.length))).calls[p.calls.length]? = some c)
    (hover : c.ended = true) :
    ((Registry.conc.run p (.spawn (.lookup q) :: (List.replicate k ()).map (Ev.step p.calls.length))).shared, c) = Registry.getOn p.shared q rid := by
  have e : (Registry.conc.apply p (.spawn (.lookup q))).calls[p.calls.length]? = some (Registry.begin (.lookup q)) := by simp [Machine.apply]; rfl
  rw [Machine.run_cons, Registry.conc.run_alone _ e] at hc ⊢
  simp only [Machine.apply, Registry.alone_solo] at hc ⊢
  rw [List.getElem?_set] at hc
  simp at hc
  subst hc
  rw [← Registry.exec_direct p.shared q rid hq, ← Registry.solo_eq p.shared (.lookup q) k hover]

/-- **C91.** The same for a lookup through the manager. -/
theorem C91_manager_lookup (p : Pool Registry.Mem Registry.PC) (q : Registry.Req) (g : GoStr) (hq : q.target = .group g) (k : Nat) (c : Registry.PC)
    (hc : (Registry.conc.run p (.spawn (.lookup q) :: (List.replicate k ()).map (Ev.step p.calls.length))).calls[p.calls.length]? = some c)
    (hover : c.ended = true) :
    ((Registry.conc.run p (.spawn (.lookup q) :: (List.replicate k ()).map (Ev.step p.calls.length))).shared, c) = Registry.getManaged p.shared q g := by
  have e : (Registry.conc.apply p (.spawn (.lookup q))).calls[p.calls.length]? = some (Registry.begin (.lookup q)) := by simp [Machine.apply]; rfl
  rw [Machine.run_cons, Registry.conc.run_alone _ e] at hc ⊢
  simp only [Machine.apply, Registry.alone_solo] at hc ⊢
  rw [List.getElem?_set] at hc
  simp at hc
  subst hc
  rw [← Registry.exec_group p.shared q g hq, ← Registry.solo_eq p.shared (.lookup q) k hover]

/-! ## The hypotheses can be met -/

/-- A bucket counter on which another `UpdateN` stands still just before its swap; the call passes it and is over. -/
example :
    let p := BucketCounter.conc.run (Machine.start (BucketCounter.new 1000000000 2 0 true)) (.spawn 5 :: List.replicate 3 (.step 0 5000))
    let q := BucketCounter.conc.run p (.spawn 7 :: (List.replicate 9 6000).map (Ev.step p.calls.length))
    p.calls.map BucketCounter.Call.pc = [.cas 5 0] ∧ q.calls[p.calls.length]?.map BucketCounter.Call.ended = some true ∧ q.shared = (p.shared.updateN 6000 7).state ∧
      q.shared.getCount = 12 := by
  decide +kernel

/-- Two updates and a rate read of a compass, one after the other; the second update is over the limit of error codes and panics. -/
example :
    let xs (k : Nat) (t : Int) : List (Whole.In Int) := List.replicate k ⟨t * 1000000000, t * 1000, 1⟩
    let h : List (Use × List (Whole.In Int)) := [(.update 7 ⟨true, "e", ""⟩, xs 100 1), (.update 9 ⟨false, "f", "a"⟩, xs 100 2), (.rate .m1, xs 100 11)]
    let p := used .exact uniform { obj := UniformReservoir.new 2 } 5000000000 3 1 1 0 0 0 (serial 0 h)
    (∀ e ∈ h, e.1 ≠ .snapshot) ∧ (∀ c ∈ p.calls, c.ended = true) ∧
      p.shared.marks.calls.map CompassConc.Mark.pc = [.done, .panicked false] ∧ p.shared.marks.shared.total.getCount = 2 ∧ p.shared.res.shared.obj.values = [7, 9] := by
  decide +kernel

end GoMetrics
