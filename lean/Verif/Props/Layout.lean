import Verif.Model.Layout
import Verif.Spec.Layout
import Verif.Proofs.EDR
/-! # Property C111: 64-bit atomic operations on 64-bit and on 32-bit platforms -/
namespace GoMetrics
open Layout

/-- **C111.** On 64-bit platforms every 64-bit atomic operation of the library is on an aligned address, wherever the struct was allocated. -/
theorem C111_64bit_aligned (base : Nat) (hb : base % 8 = 0) : ∀ p ∈ atomics .bits64, address base p.1 p.2 % 8 = 0 := by
  have h : ∀ p ∈ atomics .bits64, ((offsets 0 p.1).lookup p.2).getD 1 % 8 = 0 := by decide +kernel
  intro p hp
  have h1 := h p hp
  unfold address
  cases e : (offsets 0 p.1).lookup p.2 with
  | none => simp; omega
  | some o => rw [e] at h1; simp at h1 ⊢; omega

/-- **C111.** On 32-bit platforms those of counters and of buckets are. Those of moving averages, compasses and decaying reservoirs are not: wherever such a
struct is allocated, the field is 4 bytes off. -/
theorem C111_32bit_aligned (base : Nat) (hb : base % 8 = 0) :
    address base (counterImpl .bits32) "count" % 8 = 0 ∧ address base (bucket .bits32) "count" % 8 = 0 ∧
    address base (ewma .bits32) "uncounted" % 8 = 4 ∧ address base (compass .bits32) "lastTick" % 8 = 4 ∧ address base (compass .bits32) "uncounted" % 8 = 4 ∧
    address base (edr .bits32) "nextScaleTime" % 8 = 4 := by
  have e1 : address base (counterImpl .bits32) "count" = base + 0 := rfl
  have e2 : address base (bucket .bits32) "count" = base + 8 := rfl
  have e3 : address base (ewma .bits32) "uncounted" = base + 12 := rfl
  have e4 : address base (compass .bits32) "lastTick" = base + 180 := rfl
  have e5 : address base (compass .bits32) "uncounted" = base + 188 := rfl
  have e6 : address base (edr .bits32) "nextScaleTime" = base + 60 := rfl
  rw [e1, e2, e3, e4, e5, e6]
  omega

/-- An allocated compass. -/
example : address 4096 (compass .bits32) "uncounted" = 4284 ∧ 4284 % 8 = 4 := by decide +kernel

theorem no_fault (addr : Nat) : faults .bits64 addr = false := rfl

section Averages

/-- **C111.** On 64-bit platforms moving averages are what they are in the other properties. -/
theorem C111_64bit_average (R : Rounding) (base : Nat) (e : EWMA) (h : List EWMA.Op) : e.runOn R .bits64 base h = e.run R h := by
  induction h generalizing e with
  | nil => rfl
  | cons o h ih =>
    have : (e.stepOn R .bits64 base o).state = e.step R o := by cases o <;> rfl
    show EWMA.runOn R .bits64 base (e.stepOn R .bits64 base o).state h = EWMA.run R (e.step R o) h
    rw [this, ih]

/-- **C111.** On 32-bit platforms `Update` and `Tick` of a moving average always panic and change nothing. -/
theorem C111_32bit_average_panics (R : Rounding) (base : Nat) (hb : base % 8 = 0) (e : EWMA) (n : Int) :
    e.updateOn .bits32 base n = .panic e ∧ e.tickOn R .bits32 base = .panic e := by
  have h := (C111_32bit_aligned base hb).2.2.1
  have f : faults .bits32 (address base (ewma .bits32) "uncounted") = true := by unfold faults; rw [h]; rfl
  unfold EWMA.updateOn EWMA.tickOn
  rw [f]
  exact ⟨rfl, rfl⟩

/-- **C111.** After any history on a 32-bit platform a moving average is what the `TickN` calls in it make of it. -/
theorem C111_32bit_average (R : Rounding) (base : Nat) (hb : base % 8 = 0) (e : EWMA) (h : List EWMA.Op) :
    e.runOn R .bits32 base h = e.run R (h.filter Spec.isTickN) := by
  induction h generalizing e with
  | nil => rfl
  | cons o h ih =>
    show EWMA.runOn R .bits32 base (e.stepOn R .bits32 base o).state h = _
    rw [ih]
    obtain ⟨h1, h2⟩ := C111_32bit_average_panics R base hb e
      (match o with | .update n => n | _ => 0)
    cases o with
    | update n => simp only [EWMA.stepOn]; rw [h1]; rfl
    | tick => simp only [EWMA.stepOn]; rw [h2]; rfl
    | tickN c => rfl

/-- A history with all three kinds of calls. -/
example : (EWMA.new (.fin (1 / 2)) 1).runOn .exact .bits32 64 [.update 4, .tick, .tickN 8, .update 1, .tickN 4] = (EWMA.new (.fin (1 / 2)) 1).run .exact [.tickN 8, .tickN 4] :=
  C111_32bit_average _ _ rfl _ _

end Averages

section Compasses
variable {σ X : Type}

theorem Compass.tickOn_64 (R : Rounding) (base : Nat) (c : Compass σ) (t : Int) : c.tickIfNecessaryOn R .bits64 base t = c.tickIfNecessary R t := by
  unfold Compass.tickIfNecessaryOn
  rw [no_fault, no_fault]
  unfold Compass.tickIfNecessary
  by_cases h : c.age t > Compass.tickInterval
  · by_cases h2 : c.bucketInterval = 0 <;> simp [h, h2]
  · simp [h]

theorem Compass.stepOn_64 (R : Rounding) (base : Nat) (S : ReservoirImpl σ X) (c : Compass σ) (env : Compass.Env X) (o : Compass.Op) :
    c.stepOn R .bits64 base S env o = c.step R S env o := by
  have e : ∀ d, c.updateOn R .bits64 base S env d = c.update R S env d := by
    intro d
    unfold Compass.updateOn Compass.update
    rw [Compass.tickOn_64]
    rfl
  cases o with
  | update d => exact e d
  | updateWithError d s er a =>
    show c.updateWithErrorOn R .bits64 base S env d s er a = c.updateWithError R S env d s er a
    unfold Compass.updateWithErrorOn Compass.updateWithError
    rw [e]
  | readRate => exact Compass.tickOn_64 R base c env.tick

/-- **C111.** On 64-bit platforms a compass is what it is in the other properties, call by call and after every history. -/
theorem C111_64bit_compass (R : Rounding) (base : Nat) (S : ReservoirImpl σ X) (c : Compass σ) (h : List (Compass.Env X × Compass.Op)) :
    (∀ env o, c.stepOn R .bits64 base S env o = c.step R S env o) ∧ c.runOn R .bits64 base S h = c.run R S h := by
  refine ⟨fun env o => Compass.stepOn_64 R base S c env o, ?_⟩
  unfold Compass.runOn Compass.run
  simp only [Compass.stepOn_64]

/-- **C111.** On 32-bit platforms every `Update` and every `UpdateWithError` of a compass panics, whatever its reservoir and whatever it has been through, and
changes nothing. -/
theorem C111_32bit_update_panics (R : Rounding) (base : Nat) (hb : base % 8 = 0) (S : ReservoirImpl σ X) (c : Compass σ) (env : Compass.Env X) (d : Int) (success : Bool)
    (code addon : String) :
    c.updateOn R .bits32 base S env d = .panic c ∧ c.updateWithErrorOn R .bits32 base S env d success code addon = .panic c := by
  obtain ⟨-, -, -, h1, h2, -⟩ := C111_32bit_aligned base hb
  have f1 : faults .bits32 (address base (compass .bits32) "lastTick") = true := by unfold faults; rw [h1]; rfl
  have f2 : faults .bits32 (address base (compass .bits32) "uncounted") = true := by unfold faults; rw [h2]; rfl
  have e : c.updateOn R .bits32 base S env d = .panic c := by
    unfold Compass.updateOn Compass.tickIfNecessaryOn Compass.addUncountedOn
    rw [f1, f2]
    by_cases h : c.age env.tick > Compass.tickInterval
    · rw [if_pos h]
      by_cases h3 : c.bucketInterval = 0
      · rw [if_pos h3]; rfl
      · rw [if_neg h3]; rfl
    · rw [if_neg h]; rfl
  refine ⟨e, ?_⟩
  unfold Compass.updateWithErrorOn
  rw [e]
  rfl

/-- **C111.** On 32-bit platforms a rate getter of a compass changes nothing either. If the clock is more than 5 seconds after the last tick it panics, otherwise not. -/
theorem C111_32bit_rate_panics (R : Rounding) (base : Nat) (hb : base % 8 = 0) (c : Compass σ) (tick : Int) :
    (c.tickIfNecessaryOn R .bits32 base tick).state = c ∧
    ((c.tickIfNecessaryOn R .bits32 base tick).panicked = true ↔ i64 (tick - c.lastTick) > 5000000000) := by
  obtain ⟨-, -, -, h1, -, -⟩ := C111_32bit_aligned base hb
  have f1 : faults .bits32 (address base (compass .bits32) "lastTick") = true := by unfold faults; rw [h1]; rfl
  unfold Compass.tickIfNecessaryOn
  rw [f1]
  by_cases h : c.age tick > Compass.tickInterval
  · rw [if_pos h]
    by_cases h3 : c.bucketInterval = 0
    · rw [if_pos h3]; exact ⟨rfl, fun _ => h, fun _ => rfl⟩
    · rw [if_neg h3]; exact ⟨rfl, fun _ => h, fun _ => rfl⟩
  · rw [if_neg h]; exact ⟨rfl, (fun k => nomatch k), fun k => absurd k h⟩

/-- **C111.** So a compass on a 32-bit platform stays as it was created, whatever is called and however the callers recover: nothing is counted, nothing recorded. -/
theorem C111_32bit_compass (R : Rounding) (base : Nat) (hb : base % 8 = 0) (S : ReservoirImpl σ X) (reservoir : σ) (n : Nat) (interval maxErr maxAdd : Int)
    (env : Compass.NewEnv) (h : List (Compass.Env X × Compass.Op)) :
    let c := (Compass.new reservoir n interval maxErr maxAdd env).runOn R .bits32 base S h
    c.getCount = 0 ∧ c.getSuccessCount = 0 ∧ c.getErrorCodeCounts = [] ∧ c.getAddonCounts = [] ∧ c.reservoir = reservoir ∧
      ∀ tick, c.getMeanRate R tick = .fin 0 := by
  have key : ∀ c : Compass σ, c.runOn R .bits32 base S h = c := by
    induction h with
    | nil => exact fun _ => rfl
    | cons eo h ih =>
      intro c
      obtain ⟨e, o⟩ := eo
      show Compass.runOn R .bits32 base S (c.stepOn R .bits32 base S e o).state h = c
      have : (c.stepOn R .bits32 base S e o).state = c := by
        cases o with
        | update d => simp only [Compass.stepOn]; rw [(C111_32bit_update_panics R base hb S c e d false "" "").1]; rfl
        | updateWithError d s er a => simp only [Compass.stepOn]; rw [(C111_32bit_update_panics R base hb S c e d s er a).2]; rfl
        | readRate => exact (C111_32bit_rate_panics R base hb c e.tick).1
      rw [this, ih]
  intro c
  have hc : c = Compass.new reservoir n interval maxErr maxAdd env := key _
  rw [hc]
  refine ⟨rfl, rfl, rfl, rfl, rfl, fun tick => ?_⟩
  unfold Compass.getMeanRate
  have : (Compass.new reservoir n interval maxErr maxAdd env).getCount = 0 := rfl
  simp [this]

/-- A compass with a reservoir that keeps a sum, on a 32-bit and on a 64-bit platform. -/
example : ((Compass.new (σ := Int) 0 10 1000000000 5 5 ⟨0, 0, 0⟩).runOn .exact .bits32 0 ⟨fun s (_ : Unit) d => .ok (s + d)⟩
      [(⟨1, 1, (), 1, 1, 1, 1, 1⟩, .update 7), (⟨1, 1, (), 1, 1, 1, 1, 1⟩, .updateWithError 7 true "E" "")]).getCount = 0 ∧
    ((Compass.new (σ := Int) 0 10 1000000000 5 5 ⟨0, 0, 0⟩).runOn .exact .bits64 0 ⟨fun s (_ : Unit) d => .ok (s + d)⟩
      [(⟨1, 1, (), 1, 1, 1, 1, 1⟩, .update 7), (⟨1, 1, (), 1, 1, 1, 1, 1⟩, .updateWithError 7 true "E" "")]).getCount = 2 := by
  constructor
  · exact (C111_32bit_compass (X := Unit) _ _ rfl _ _ _ _ _ _ _ _).1
  · rw [(C111_64bit_compass _ _ _ _ _).2]; decide +kernel

end Compasses

section Reservoirs
variable (A : EDR.Arith)

/-- **C111.** On 64-bit platforms a decaying reservoir is what it is in the other properties. -/
theorem C111_64bit_reservoir (base : Nat) (r : EDR) (h : List EDR.Op) :
    (∀ o, r.stepOn A .bits64 base o = r.step A o) ∧ r.runOn A .bits64 base h = r.run A h := by
  have e : ∀ (r : EDR) t s, r.rescaleIfNeededOn A .bits64 base t s = .ok (r.rescaleIfNeeded A t s) := by
    intro r t s
    unfold EDR.rescaleIfNeededOn
    rw [no_fault]
    by_cases hn : r.nextScaleTime ≤ t
    · simp [hn]
    · simp [hn, EDR.rescaleIfNeeded]
  have e2 : ∀ (r : EDR) o, r.stepOn A .bits64 base o = r.step A o := by
    intro r o
    cases o with
    | updateN env v => simp only [EDR.stepOn, EDR.step, EDR.updateNOn]; rw [e]; rfl
    | getSnapshot t s => simp only [EDR.stepOn, EDR.step]; rw [e]; rfl
  refine ⟨e2 r, ?_⟩
  unfold EDR.runOn EDR.run
  simp only [e2]

/-- **C111.** On 32-bit platforms a call on a decaying reservoir that finds the time for a rescale come panics and changes nothing; the others are what they are in
the other properties. -/
theorem C111_32bit_reservoir_call (base : Nat) (hb : base % 8 = 0) (r : EDR) (o : EDR.Op) :
    r.stepOn A .bits32 base o = if r.nextScaleTime ≤ Spec.reading o then .panic r else r.step A o := by
  obtain ⟨-, -, -, -, -, h1⟩ := C111_32bit_aligned base hb
  have f1 : faults .bits32 (address base (edr .bits32) "nextScaleTime") = true := by unfold faults; rw [h1]; rfl
  have e : ∀ t s, r.rescaleIfNeededOn A .bits32 base t s = if r.nextScaleTime ≤ t then .panic r else .ok r := by
    intro t s
    unfold EDR.rescaleIfNeededOn
    rw [f1]
    rfl
  cases o with
  | updateN env v =>
    show r.updateNOn A .bits32 base env v = if r.nextScaleTime ≤ env.tick then .panic r else r.updateN A env v
    unfold EDR.updateNOn
    rw [e]
    by_cases hn : r.nextScaleTime ≤ env.tick
    · rw [if_pos hn, if_pos hn]; rfl
    · rw [if_neg hn, if_neg hn, EDR.updateN, EDR.rescaleIfNeeded, if_neg hn]; rfl
  | getSnapshot t s =>
    show r.rescaleIfNeededOn A .bits32 base t s = if r.nextScaleTime ≤ t then .panic r else .ok (r.afterSnapshot A t s)
    rw [e]
    by_cases hn : r.nextScaleTime ≤ t
    · rw [if_pos hn, if_pos hn]
    · rw [if_neg hn, if_neg hn, EDR.afterSnapshot, EDR.rescaleIfNeeded, if_neg hn]

theorem EDR.record_next (r : EDR) (p : F64) (v : Int) (w : F64) : (r.record p v w).state.nextScaleTime = r.nextScaleTime := by
  unfold EDR.record
  dsimp only
  split
  · rfl
  · split
    · rfl
    · split
      · rfl
      · split <;> rfl

/-- **C111.** So on a 32-bit platform a decaying reservoir works for one hour: each call whose clock reading is an hour or more after the creation panics, and after
any history the reservoir is what the earlier calls made of it. -/
theorem C111_32bit_reservoir (base : Nat) (hb : base % 8 = 0) (size : Int) (alpha : F64) (time tick : Int) (h0 : 0 ≤ tick) (h1 : tick + 3600000000000 < 2 ^ 63)
    (h : List EDR.Op) :
    let r := (EDR.new size alpha time tick).runOn A .bits32 base h
    r = (EDR.new size alpha time tick).run A (h.filter fun o => decide (Spec.reading o < tick + 3600000000000)) ∧
      ∀ o, tick + 3600000000000 ≤ Spec.reading o → r.stepOn A .bits32 base o = .panic r := by
  have hn : (EDR.new size alpha time tick).nextScaleTime = tick + 3600000000000 := by
    show i64 (tick + EDR.rescaleThreshold) = _
    unfold EDR.rescaleThreshold
    exact i64_of_in (x := tick + 3600000000000) (by unfold InI64; norm_num at h1; omega)
  have key : ∀ r : EDR, r.nextScaleTime = tick + 3600000000000 →
      r.runOn A .bits32 base h = r.run A (h.filter fun o => decide (Spec.reading o < tick + 3600000000000)) ∧
        (r.runOn A .bits32 base h).nextScaleTime = tick + 3600000000000 := by
    induction h with
    | nil => exact fun r hr => ⟨rfl, hr⟩
    | cons o h ih =>
      intro r hr
      have hs := C111_32bit_reservoir_call A base hb r o
      rw [hr] at hs
      have e : r.runOn A .bits32 base (o :: h) = (r.stepOn A .bits32 base o).state.runOn A .bits32 base h := rfl
      rw [e, hs]
      by_cases hd : tick + 3600000000000 ≤ Spec.reading o
      · rw [if_pos hd, List.filter_cons_of_neg (by simpa using hd)]
        exact ih r hr
      · rw [if_neg hd, List.filter_cons_of_pos (by simpa using hd)]
        have hnext : (r.step A o).state.nextScaleTime = tick + 3600000000000 := by
          cases o with
          | updateN env v =>
            simp only [Spec.reading] at hd
            simp only [EDR.step, EDR.updateN]
            rw [EDR.record_next, EDR.rescaleIfNeeded, if_neg (by rw [hr]; exact hd), hr]
          | getSnapshot t s =>
            simp only [Spec.reading] at hd
            simp only [EDR.step, EDR.afterSnapshot, EDR.rescaleIfNeeded]
            rw [if_neg (by rw [hr]; exact hd)]
            exact hr
        exact ih _ hnext
  obtain ⟨k1, k2⟩ := key _ hn
  refine ⟨k1, fun o ho => ?_⟩
  rw [C111_32bit_reservoir_call A base hb, k2, if_pos ho]

/-- One call before the hour is over and one after it. -/
example : (EDR.new 10 (.fin (3 / 200)) 0 7).runOn A .bits32 16 [.getSnapshot 3600000000006 0, .updateN ⟨3600000000007, 0, 0, .fin (1 / 2)⟩ 5] =
    (EDR.new 10 (.fin (3 / 200)) 0 7).run A [.getSnapshot 3600000000006 0] :=
  (C111_32bit_reservoir A 16 rfl 10 (.fin (3 / 200)) 0 7 (by norm_num) (by norm_num) _).1

end Reservoirs
end GoMetrics
