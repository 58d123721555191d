import Verif.Proofs.Stale
import Verif.Props.Races
import Verif.Props.EWMA
import Verif.Props.CompassConc
import Verif.Props.BucketsConc
/-! # C101: what old values cannot break

The properties of concurrent calls proved elsewhere are about interleavings in which every load returns the last value stored. C88 shows where that is not
guaranteed. Here the locations C88 names are loaded with any older value (Spec/Stale.lean), and what remains true is proved again. -/
namespace GoMetrics

namespace EWMA
/-- ewma.go:83, 86: what `Tick` loads while others write (`C88_ewma_tick_refuted`). -/
def racy : Loc → Bool
  | .uncounted => true
  | _ => false

/-- Any number of concurrent calls on the average `e0`, where `Tick` may load old values of the pending count. -/
def staleAfter (R : Rounding) (e0 : EWMA) (es : List (Ev Op (Unit × Nat))) : Pool Shared PC := footprint.staleRun (conc R) racy ⟨e0, false⟩ es

theorem covers (R : Rounding) : footprint.Covers (conc R) racy := by
  constructor
  · intro s c a ha hr hw hm
    cases c <;> simp only [footprint, List.mem_cons, List.not_mem_nil, or_false] at ha <;> (try casesm* _ ∨ _) <;> subst_vars <;>
      first
      | rfl
      | (simp [racy, rd] at hr; done)
      | (simp [awr] at hw; done)
      | (simp [racy, awr] at hr; done)
      | (simp [racy, wr] at hr; done)
  · intro s x c h
    cases c <;> first | rfl | (simp [Footprint.loads, footprint, racy, rd, awr, wr] at h; done)

theorem stale_conserved (R : Rounding) (alpha : F64) (interval : Int) (es : List (Ev Op (Unit × Nat))) :
    Conserved (staleAfter R (new alpha interval) es) := by
  refine footprint.stale_inv (conc R) racy (fun s cs => Conserved ⟨s, cs⟩) (fun _ _ => True) (fun _ => True) (fun _ => True)
    (fun s cs a _ h => conserved_spawn a h) (fun s pre c post x _ h => conserved_step x h) (fun _ _ _ => trivial) (fun _ _ _ _ _ _ _ _ _ => trivial) ?_
    _ (conserved_start alpha interval) es (fun _ _ => trivial) (fun _ _ _ _ => trivial)
  intro s pre c post x s' _ h _ hl
  cases c with
  | load =>
    unfold Conserved at h ⊢
    simpa [conc, callStep, PC.applied, PC.taken] using h
  | _ => simp [Footprint.loads, footprint, racy, rd, awr, wr] at hl

theorem serial_load {R : Rounding} {e0 : EWMA} {s : Shared} {pre post : List PC} {l : List Int} (old : Int) (h : Serial R e0 ⟨s, pre ++ .load :: post⟩ l) :
    Serial R e0 ⟨s, pre ++ .cas old :: post⟩ l := by
  have hm : ∀ d : PC, d.crit = true → (d ∈ pre ++ .cas old :: post ↔ d ∈ pre ++ .load :: post) := by
    intro d hd
    have a1 : d ≠ .load := by rintro rfl; simp [PC.crit] at hd
    have a2 : d ≠ .cas old := by rintro rfl; simp [PC.crit] at hd
    simp [a1, a2]
  refine ⟨?_, ?_, h.alpha, h.interval, ?_, ?_, ?_, ?_⟩
  · have := h.excl
    rw [crit_split] at this ⊢
    exact this
  · have := h.perm
    simp only [filterMap_split] at this ⊢
    exact this
  · intro hh; exact h.idle (fun own c hx => hh own c ((hm _ rfl).2 hx))
  · intro own c i hx; exact h.read own c i ((hm _ rfl).1 hx)
  · intro own c i n hx; exact h.store own c i n ((hm _ rfl).1 hx)
  · intro own c hx; exact h.setInit own c ((hm _ rfl).1 hx)

theorem stale_serial (R : Rounding) (e0 : EWMA) (es : List (Ev Op (Unit × Nat))) : ∃ l, Serial R e0 (staleAfter R e0 es) l := by
  refine footprint.stale_inv (conc R) racy (fun s cs => ∃ l, Serial R e0 ⟨s, cs⟩ l) (fun _ _ => True) (fun _ => True) (fun _ => True)
    (fun s cs a _ ⟨l, h⟩ => ⟨l, serial_spawn a h⟩) (fun s pre c post x _ ⟨l, h⟩ => serial_step (x := x) h) (fun _ _ _ => trivial)
    (fun _ _ _ _ _ _ _ _ _ => trivial) ?_ _ ⟨[], serial_start R e0⟩ es (fun _ _ => trivial) (fun _ _ _ _ => trivial)
  rintro s pre c post x s' _ ⟨l, h⟩ _ hl
  cases c with
  | load => exact ⟨l, serial_load _ h⟩
  | _ => simp [Footprint.loads, footprint, racy, rd, awr, wr] at hl
end EWMA

namespace CompassConc
/-- impl/default_compass.go:191: what `tickIfNecessary` loads while others write (`C88_tick`). -/
def tickRacy : TickLoc → Bool
  | .lastTick => true
  | _ => false

/-- Any number of concurrent `Update` calls and rate reads, which may load old values of the time of the last tick. -/
def staleTicks (I t0 : Int) (es : List (Ev Bool (Int × Nat))) : Pool Shared PC :=
  tickFootprint.staleRun (conc I) tickRacy { lastTick := t0, uncounted := 0 } es

theorem tick_covers (I : Int) : tickFootprint.Covers (conc I) tickRacy := by
  constructor
  · intro s c a ha hr hw hm
    cases c <;> simp only [tickFootprint, List.mem_cons, List.not_mem_nil, or_false] at ha <;> subst_vars <;>
      first
      | rfl
      | (simp [awr, lwr] at hw; done)
      | (simp [ard] at hm; done)
  · intro s x c h
    cases c <;> first | rfl | (simp [Footprint.loads, tickFootprint, tickRacy, rd, awr, ard, lwr] at h; done)

theorem tick_load {s : Shared} {c : PC} (h : tickFootprint.loads tickRacy s c = true) : ∃ upd, c = .readOld upd := by
  cases c with
  | readOld upd => exact ⟨upd, rfl⟩
  | _ => simp [Footprint.loads, tickFootprint, tickRacy, rd, awr, ard, lwr] at h

theorem stale_inv (I t0 : Int) (es : List (Ev Bool (Int × Nat))) : Inv (staleTicks I t0 es) := by
  refine tickFootprint.stale_inv (conc I) tickRacy (fun s cs => Inv ⟨s, cs⟩) (fun _ _ => True) (fun _ => True) (fun _ => True)
    (fun s cs a _ h => inv_spawn a h) (fun s pre c post x _ h => inv_step x h) (fun _ _ _ => trivial) (fun _ _ _ _ _ _ _ _ _ => trivial) ?_
    _ (inv_start t0) es (fun _ _ => trivial) (fun _ _ _ _ => trivial)
  intro s pre c post x s' _ h _ hl
  obtain ⟨upd, rfl⟩ := tick_load hl
  have := inv_step (I := I) x h
  refine ⟨?_, ?_, ?_, ?_, ?_⟩
  · have := this.pending
    simpa [conc, callStep, PC.added] using this
  · have := this.h1
    simpa [conc, callStep, PC.hand1] using this
  · have := this.h5
    simpa [conc, callStep, PC.hand5] using this
  · have := this.h15
    simpa [conc, callStep, PC.hand15] using this
  · have := this.ticks
    simpa [conc, callStep, PC.due] using this

theorem stale_good {I : Int} (hI : 0 < I) (hd : I ∣ 5000000000) (t0 : Int) (h0 : 0 ≤ t0 ∧ t0 < 2 ^ 63) (es : List (Ev Bool (Int × Nat)))
    (hes : ∀ i x t, Ev.step i (x, t) ∈ es → 0 ≤ x ∧ x < 2 ^ 63) :
    GoodInv I (staleTicks I t0 es) ∧ Chain t0 (staleTicks I t0 es).shared.wins (staleTicks I t0 es).shared.lastTick := by
  refine tickFootprint.stale_inv (conc I) tickRacy (fun s cs => GoodInv I ⟨s, cs⟩ ∧ Chain t0 s.wins s.lastTick)
    (fun s' _ => 0 ≤ s'.lastTick ∧ s'.lastTick < 2 ^ 63) (fun _ => True) (fun x => 0 ≤ x ∧ x < 2 ^ 63)
    (fun s cs a _ h => ⟨good_spawn a h.1, h.2⟩) (fun s pre c post x hx h => ⟨good_step hI hd s pre post c x hx h.1, chain_step x h.2⟩) (fun _ _ h => h.1.range)
    (fun _ _ _ _ _ _ _ _ h => h) ?_ { lastTick := t0, uncounted := 0 } ⟨⟨by simp, h0, by simp, by simp⟩, rfl⟩ es (fun _ _ => trivial) hes
  rintro s pre c post x s' _ ⟨h, h'⟩ hold hl
  obtain ⟨upd, rfl⟩ := tick_load hl
  refine ⟨⟨h.wins, h.range, ?_, ?_⟩, h'⟩
  · intro u o hm
    simp only [List.mem_append, List.mem_cons] at hm
    rcases hm with hm | hm | hm
    · exact h.old u o (by simp [hm])
    · simp only [conc, callStep, PC.readClock.injEq] at hm
      rw [hm.2]; exact hold
    · exact h.old u o (by simp [hm])
  · intro u o n k hm
    simp only [List.mem_append, List.mem_cons] at hm
    rcases hm with hm | hm | hm
    · exact h.plan u o n k (by simp [hm])
    · simp [conc, callStep] at hm
    · exact h.plan u o n k (by simp [hm])
end CompassConc

namespace BucketCounter
/-- impl/default_bucket_counter.go:108, 120, impl/bucket_queue.go:66-67: what `UpdateN` loads or stores while others write (`C88_bucket_counter`). -/
def racy : Loc → Bool
  | .latest | .position | .slot _ => true
  | _ => false

/-- Any number of concurrent `UpdateN` calls on a fresh counter, which may load old values of the pointer to the latest bucket and of the position of the queue. -/
def staleAfter (interval : Int) (N : Nat) (t0 : Int) (u : Bool) (es : List (Ev Int (Int × Nat))) : Pool BucketCounter Call :=
  footprint.staleRun conc racy (new interval N t0 u) es

theorem covers : footprint.Covers conc racy := by
  constructor
  · intro s c a ha hr hw hm
    obtain ⟨n, pc⟩ := c
    cases pc <;> simp only [footprint, accesses, List.mem_cons, List.not_mem_nil, or_false] at ha <;> (try casesm* _ ∨ _) <;> subst_vars <;>
      first
      | rfl
      | (simp [racy, rd] at hr; done)
      | (simp [awr, wr] at hw; done)
  · rintro s x ⟨n, pc⟩ h
    cases pc <;> first | rfl | (simp [Footprint.loads, footprint, accesses, racy, rd, awr, wr] at h; done) | (simp only [conc, callStep]; split <;> rfl)

theorem loads_at {s : BucketCounter} {c : Call} (h : footprint.loads racy s c = true) :
    (∃ ts, c.pc = .load ts) ∨ (∃ ts, c.pc = .reload ts) ∨ (∃ ts p, c.pc = .q1 ts p) ∨ ∃ ts p, c.pc = .q3 ts p := by
  obtain ⟨n, pc⟩ := c
  cases pc <;> first | (simp; done) | (simp [Footprint.loads, footprint, accesses, racy, rd, awr, wr] at h; done)

/-- What is known of an earlier memory. -/
structure OldOk (N : Nat) (b' b : BucketCounter) : Prop where
  ok : SharedOk N b'
  ext : Ext b' b
  latest : b'.tsOf b'.latestBucket ≤ b.tsOf b.latestBucket

theorem Ext.trans {a b c : BucketCounter} (h : Ext a b) (h' : Ext b c) : Ext a c :=
  ⟨h.len.trans h'.len, fun p hp => (h'.ts p (lt_of_lt_of_le hp h.len)).trans (h.ts p hp), h'.qlen.trans h.qlen⟩

/-- A load that sees an earlier memory: what the call then holds is all right today. -/
theorem stale_callOk {N : Nat} {b b' : BucketCounter} {c : Call} (x : Int) (h : SharedOk N b) (ho : OldOk N b' b) (hc : CallOk b c)
    (hl : footprint.loads racy b c = true) :
    CallOk b (callStep b' x c).2 ∧ (∀ q, (callStep b' x c).2.amt q = c.amt q) ∧ (callStep b' x c).2.totalled = c.totalled ∧ (callStep b' x c).2.n = c.n ∧
      (callStep b' x c).2.credit b = none ∧ c.credit b = none := by
  have hlt := ho.ok.latest_lt
  have hlen := ho.ext.len
  obtain ⟨n, pc⟩ := c
  rcases loads_at hl with ⟨ts, rfl⟩ | ⟨ts, rfl⟩ | ⟨ts, p, rfl⟩ | ⟨ts, p, rfl⟩
  · simp only [callStep]
    split
    · rename_i hg
      refine ⟨⟨show _ < _ by omega, ?_⟩, fun _ => rfl, rfl, rfl, rfl, rfl⟩
      rw [ho.ext.ts _ hlt]; exact hg
    · exact ⟨show _ < _ by omega, fun _ => rfl, rfl, rfl, rfl, rfl⟩
  · exact ⟨show _ < _ by omega, fun _ => rfl, rfl, rfl, rfl, rfl⟩
  · refine ⟨⟨hc.1, hc.2, ?_⟩, fun _ => rfl, rfl, rfl, rfl, rfl⟩
    rw [h.qlen]
    rw [ho.ok.qlen]
    exact Nat.mod_lt _ (by omega)
  · refine ⟨⟨hc.1, hc.2, ?_⟩, fun _ => rfl, rfl, rfl, rfl, rfl⟩
    rw [h.qlen]; exact ho.ok.cur

/-- Everything kept by the steps and by the loads of old values. -/
structure StaleInv (N : Nat) (u : Bool) (p : Pool BucketCounter Call) : Prop where
  c : CInv N p
  sum : SumInv p
  heap : HeapSum p
  u : p.shared.updateTotalCount = u

theorem stale_both (interval : Int) (N : Nat) (t0 : Int) (u : Bool) :
    (∀ es, StaleInv N u (staleAfter interval N t0 u es)) ∧
    ∀ es es', OldOk N (staleAfter interval N t0 u es).shared (staleAfter interval N t0 u (es ++ es')).shared := by
  have hspawn : ∀ s cs (a : Int), True → StaleInv N u ⟨s, cs⟩ → StaleInv N u ⟨s, cs ++ [conc.call a]⟩ :=
    fun s cs a _ h => ⟨cinv_spawn a h.c, sumInv_spawn a h.sum, heapSum_spawn a h.heap, h.u⟩
  have hstep : ∀ s pre c post (x : Int), True → StaleInv N u ⟨s, pre ++ c :: post⟩ →
      StaleInv N u ⟨(conc.step s x c).1, pre ++ (conc.step s x c).2 :: post⟩ :=
    fun s pre c post x _ h => ⟨cinv_step x h.c, sumInv_step x h.c h.sum, heapSum_step x h.c h.heap, (callStep_const s x c).1.trans h.u⟩
  have hrefl : ∀ s cs, StaleInv N u ⟨s, cs⟩ → OldOk N s s := fun s cs h => ⟨h.c.shared, Ext.refl s, le_rfl⟩
  have hold : ∀ s pre c post (x : Int) s', True → StaleInv N u ⟨s, pre ++ c :: post⟩ → OldOk N s' s → OldOk N s' (conc.step s x c).1 := by
    intro s pre c post x s' _ h ho
    obtain ⟨g1, g2, -⟩ := callStep_ok (t := x) h.c.shared (h.c.calls c (by simp))
    refine ⟨ho.ok, ho.ext.trans g2, ho.latest.trans ?_⟩
    have := g2.ts _ h.c.shared.latest_lt
    simp only at this
    rw [← this]
    exact g1.le_latest _ (lt_of_lt_of_le h.c.shared.latest_lt g2.len)
  have hload : ∀ s pre c post (x : Int) s', True → StaleInv N u ⟨s, pre ++ c :: post⟩ → OldOk N s' s → footprint.loads racy s c = true →
      StaleInv N u ⟨s, pre ++ (conc.step s' x c).2 :: post⟩ := by
    intro s pre c post x s' _ h ho hl
    obtain ⟨k1, k2, k3, k4, k5, k6⟩ := stale_callOk x h.c.shared ho (h.c.calls c (by simp)) hl
    refine ⟨⟨h.c.shared, ?_⟩, ⟨?_, ?_⟩, ?_, h.u⟩
    · intro d hd
      rcases List.mem_append.1 hd with hd | hd
      · exact h.c.calls d (by simp [hd])
      · rcases List.mem_cons.1 hd with rfl | hd
        · exact k1
        · exact h.c.calls d (by simp [hd])
    · intro q
      rw [h.sum.bucket q, sum_map_replace _ pre post c (conc.step s' x c).2]
      show _ = i64 (_ + ((callStep s' x c).2.amt q - c.amt q))
      rw [k2]; simp
    · have := h.sum.total
      simp only at this ⊢
      rw [this, sum_map_replace _ pre post c (conc.step s' x c).2]
      show _ = if _ then i64 (_ + ((callStep s' x c).2.totalled - c.totalled)) else 0
      rw [k3]; simp
    · have := h.heap
      unfold HeapSum at this ⊢
      simp only at this ⊢
      rw [this, sum_map_replace _ pre post c (conc.step s' x c).2]
      have e : ∀ d : Call, d.credit s = none → d.credited = 0 := by
        rintro ⟨n, pc⟩ hd
        cases pc <;> first | rfl | (simp [Call.credit] at hd; done)
      show _ = i64 (_ + ((callStep s' x c).2.credited - c.credited))
      rw [e _ k5, e _ k6]; simp
  have h0 : StaleInv N u ⟨new interval N t0 u, []⟩ :=
    ⟨⟨sharedOk_new interval N t0 u, by simp⟩, sumInv_start N interval t0 u, heapSum_start interval N t0 u, rfl⟩
  exact ⟨fun es => footprint.stale_inv conc racy (fun s cs => StaleInv N u ⟨s, cs⟩) (OldOk N) (fun _ => True) (fun _ => True) hspawn hstep hrefl hold hload _ h0
      es (fun _ _ => trivial) (fun _ _ _ _ => trivial),
    fun es es' => footprint.stale_old conc racy (fun s cs => StaleInv N u ⟨s, cs⟩) (OldOk N) (fun _ => True) (fun _ => True) hspawn hstep hrefl hold hload _ h0
      es es' (fun _ _ => trivial) (fun _ _ _ _ => trivial)⟩
end BucketCounter

open BucketCounter in
/-- **C101.** The locations of which old values are allowed are all those on which concurrent calls race; every unsynchronised load of one of them may return an
old value, and such a load changes nothing. -/
theorem C101_covers :
    ((∀ R, EWMA.footprint.Covers (EWMA.conc R) EWMA.racy) ∧
      ∀ R e l, EWMA.footprint.Races (EWMA.conc R) ⟨e, false⟩ (fun _ => True) l → EWMA.racy l = true) ∧
    ((∀ I, CompassConc.tickFootprint.Covers (CompassConc.conc I) CompassConc.tickRacy) ∧
      ∀ I t0 l, CompassConc.tickFootprint.Races (CompassConc.conc I) ⟨t0, 0, [], [], [], [], []⟩ (fun _ => True) l → CompassConc.tickRacy l = true) ∧
    (footprint.Covers conc racy ∧ ∀ b l, footprint.Races conc b (fun _ => True) l → racy l = true) := by
  refine ⟨⟨EWMA.covers, ?_⟩, ⟨CompassConc.tick_covers, ?_⟩, BucketCounter.covers, ?_⟩
  · intro R e l h
    rw [(C88_ewma_tick_refuted R e l).1 h]; rfl
  · intro I t0 l h
    rw [(C88_tick I t0 l).1 h]; rfl
  · intro b l h
    rcases C88_bucket_counter b l h with rfl | rfl | ⟨k, rfl⟩ <;> rfl

/-- **C101.** The interleavings in which every load returns the last value stored are among these executions: those in which every load sees the present. -/
theorem C101_fresh {S C A I Loc : Type} [DecidableEq Loc] (F : Footprint S C Loc) (M : Machine S C A I) (racy : Loc → Bool) (h : F.Covers M racy) (s0 : S)
    (es : List (Ev A I)) : ∃ es' : List (Ev A (I × Nat)), F.staleRun M racy s0 es' = M.run (Machine.start s0) es :=
  ⟨_, F.staleRun_fresh M racy h s0 es es.length le_rfl⟩

/-- **C101, moving averages (C22).** Even if `Tick` loads old values of the pending count, no event is lost or counted twice: once everybody returned, the int64 sum of
the arguments of all `Update` calls is the sum of the counts of all `Tick` calls plus what is still pending. -/
theorem C101_ewma_exactly_once (R : Rounding) (alpha : F64) (interval : Int) (es : List (Ev EWMA.Op (Unit × Nat))) (updates ticks : List Int)
    (hfin : (EWMA.staleAfter R (EWMA.new alpha interval) es).calls.Perm (updates.map EWMA.PC.updated ++ ticks.map (EWMA.PC.done true))) :
    i64 updates.sum = i64 (ticks.sum + (EWMA.staleAfter R (EWMA.new alpha interval) es).shared.e.uncounted) :=
  (EWMA.stale_conserved R alpha interval es).exactly_once updates ticks hfin

/-- **C101, moving averages (C22).** And the average is still that of ticking the counts of the finished ticks one after another, in some order. -/
theorem C101_ewma_serialisable (R : Rounding) (e0 : EWMA) (es : List (Ev EWMA.Op (Unit × Nat)))
    (hq : ∀ c ∈ (EWMA.staleAfter R e0 es).calls, c.crit = false) :
    ∃ order : List Int, order.Perm ((EWMA.staleAfter R e0 es).calls.filterMap EWMA.PC.folded) ∧
      (EWMA.staleAfter R e0 es).shared.e.rate = (EWMA.run R e0 (order.map EWMA.Op.tickN)).rate ∧
      (EWMA.staleAfter R e0 es).shared.e.initialized = (EWMA.run R e0 (order.map EWMA.Op.tickN)).initialized := by
  obtain ⟨l, hl⟩ := EWMA.stale_serial R e0 es
  exact hl.order hq

/-- A `Tick` that loads an old value of the pending count (0, from before the `Update`), fails to swap it out, loads again and takes the event. -/
example :
    let p := EWMA.staleAfter .exact (EWMA.new (.fin 1) 1)
      [.spawn .tick, .spawn (.update 5), .step 1 ((), 9), .step 0 ((), 0), .step 0 ((), 9), .step 0 ((), 0), .step 0 ((), 9), .step 0 ((), 9), .step 0 ((), 9),
       .step 0 ((), 9), .step 0 ((), 9), .step 0 ((), 9)]
    p.calls = [.done true 5, .updated 5] ∧ p.shared.e.uncounted = 0 ∧
      (EWMA.staleAfter .exact (EWMA.new (.fin 1) 1) [.spawn .tick, .spawn (.update 5), .step 1 ((), 9), .step 0 ((), 0), .step 0 ((), 9)]).calls =
        [.load, .updated 5] := by
  decide +kernel

/-- **C101, compass (C30).** Even if calls load old values of the time of the last tick: once all calls are over, each of the three averages has been fed exactly the
counts taken out, and what it was fed plus what is pending is the number of `Update` calls. -/
theorem C101_compass_exactly_once (I t0 : Int) (es : List (Ev Bool (Int × Nat)))
    (hdone : ∀ c ∈ (CompassConc.staleTicks I t0 es).calls, ∃ upd, c = .done upd) :
    let p := CompassConc.staleTicks I t0 es
    (p.shared.fed1.Perm p.shared.taken ∧ p.shared.fed5.Perm p.shared.taken ∧ p.shared.fed15.Perm p.shared.taken) ∧
    i64 (p.shared.fed1.sum + p.shared.uncounted) = i64 (p.calls.count (.done true)) ∧
    i64 (p.shared.fed5.sum + p.shared.uncounted) = i64 (p.calls.count (.done true)) ∧
    i64 (p.shared.fed15.sum + p.shared.uncounted) = i64 (p.calls.count (.done true)) :=
  (CompassConc.stale_inv I t0 es).exactly_once hdone

/-- **C101, compass (C29, C30).** With an interval that divides 5 s and non-negative clock readings, still no value of the tick clock is replaced by two calls, and each
average ticks at most once per 5 s the tick clock advanced, exactly once if the bucket interval is 5 s. -/
theorem C101_compass_schedule (I : Int) (hI : 0 < I) (hd : I ∣ 5000000000) (t0 : Int) (h0 : 0 ≤ t0 ∧ t0 < 2 ^ 63)
    (es : List (Ev Bool (Int × Nat))) (hes : ∀ i x t, Ev.step i (x, t) ∈ es → 0 ≤ x ∧ x < 2 ^ 63) :
    let p := CompassConc.staleTicks I t0 es
    (p.shared.wins.map Prod.fst).Pairwise (· < ·) ∧
    ((∀ c ∈ p.calls, ∃ upd, c = .done upd) →
      5000000000 * (p.shared.fed1.length : Int) ≤ p.shared.lastTick - t0 ∧
        (I = 5000000000 → 5000000000 * (p.shared.fed1.length : Int) = p.shared.lastTick - t0)) := by
  intro p
  obtain ⟨hg, hc⟩ := CompassConc.stale_good hI hd t0 h0 es hes
  exact ⟨(chain_good' hc hg), fun hdone => (CompassConc.stale_inv I t0 es).schedule hc hg.wins hdone⟩
where chain_good' {p : Pool CompassConc.Shared CompassConc.PC} {I t0 : Int} (hc : CompassConc.Chain t0 p.shared.wins p.shared.lastTick)
    (hg : CompassConc.GoodInv I p) : (p.shared.wins.map Prod.fst).Pairwise (· < ·) := (CompassConc.chain_good hc hg.wins).2.2.1


/-- Two updates 6 s after the start, one after the other, then two after 11 s; the second of each pair still sees the tick clock as it was at the start: it fails
to swap and does not tick. -/
example :
    let up (i : Nat) (t : Int) (old : Nat) : List (Ev Bool (Int × Nat)) := .spawn true :: .step i (t, old) :: List.replicate 10 (.step i (t, 0))
    let p := CompassConc.staleTicks 5000000000 0 (up 0 6000000000 100 ++ up 1 6000000000 0 ++ up 2 11000000000 100 ++ up 3 11000000000 0)
    p.calls = List.replicate 4 (.done true) ∧ p.shared.fed1 = [0, 2] ∧ p.shared.lastTick = 10000000000 ∧ p.shared.uncounted = 2 := by
  decide +kernel

open BucketCounter Spec in
/-- **C101, bucket counter (C10).** Even if `UpdateN` calls load old values of the pointer to the latest bucket and of the position of the queue: once all calls returned
the total and the contents of all buckets are the int64 sum of the arguments. -/
theorem C101_bucket_sums (interval : Int) (N : Nat) (t0 : Int) (u : Bool) (es : List (Ev Int (Int × Nat))) (h : AllReturned (staleAfter interval N t0 u es)) :
    (u = true → (staleAfter interval N t0 u es).shared.getCount = i64 ((staleAfter interval N t0 u es).calls.map Call.n).sum) ∧
    i64 ((staleAfter interval N t0 u es).shared.heap.map Bucket.count).sum = i64 ((staleAfter interval N t0 u es).calls.map Call.n).sum := by
  have hi := (stale_both interval N t0 u).1 es
  exact ⟨fun hu => hi.sum.total_all (hi.u.trans hu) h, hi.heap.all h⟩

open BucketCounter Spec in
/-- **C101, bucket counter (C10).** What a query reports for an interval is still exactly what the returned calls credited to it. -/
theorem C101_reported_exact (interval : Int) (N : Nat) (t0 : Int) (u : Bool) (es : List (Ev Int (Int × Nat))) (t s : Int) (hs : -1000 < s) (m : GoMap Int Int)
    (hm : (staleAfter interval N t0 u es).shared.getBucketCountsSince t s = some m) (k v : Int) (hk : m.get? k = some v) :
    ∃ ts, k = 1000 * ts ∧ v = i64 (amount (credits (staleAfter interval N t0 u es)) ts) :=
  ((stale_both interval N t0 u).1 es).c.reported_exact ((stale_both interval N t0 u).1 es).sum t s hs m hm k v hk

open BucketCounter Spec in
/-- **C101, bucket counter (C11).** The latest bucket only moves forward in time, and no two buckets are created for the same interval. -/
theorem C101_buckets_ordered (interval : Int) (N : Nat) (t0 : Int) (u : Bool) (es es' : List (Ev Int (Int × Nat))) :
    (let b := (staleAfter interval N t0 u es).shared
     let b' := (staleAfter interval N t0 u (es ++ es')).shared
     (b.heap.at b.latestBucket).timestamp ≤ (b'.heap.at b'.latestBucket).timestamp) ∧
    (((staleAfter interval N t0 u es).shared.heap.drop (N + 1)).map Bucket.timestamp).Pairwise (· < ·) := by
  refine ⟨((stale_both interval N t0 u).2 es es').latest, ?_⟩
  exact ((stale_both interval N t0 u).1 es).c.shared.pairwise
end GoMetrics
