import Verif.Model.EWMAWild
import Verif.Props.EWMA
/-! # C22 whatever the plain load in `Tick` returns -/
namespace GoMetrics
namespace EWMA

theorem wildStep_load (R : Rounding) (s : Shared) (x : Int) : wildStep R s x .load = (s, .cas x) := rfl

theorem wildStep_else (R : Rounding) (s : Shared) (x : Int) {c : PC} (h : c ≠ .load) : wildStep R s x c = callStep R s () c := by
  cases c <;> first | rfl | exact absurd rfl h

theorem wild_conserved_step {R : Rounding} {s : Shared} {pre post : List PC} {c : PC} (x : Int) (h : Conserved ⟨s, pre ++ c :: post⟩) :
    Conserved ⟨(wildStep R s x c).1, pre ++ (wildStep R s x c).2 :: post⟩ := by
  by_cases hc : c = .load
  · subst hc
    unfold Conserved at *
    simpa [wildStep_load, PC.applied, PC.taken] using h
  · rw [wildStep_else R s x hc]; exact conserved_step () h

theorem wild_conserved_run (R : Rounding) (alpha : F64) (interval : Int) (es : List (Ev Op Int)) :
    Conserved ((wildConc R).run (Machine.start ⟨new alpha interval, false⟩) es) :=
  (wildConc R).inv_run Conserved (fun _ _ a h => conserved_spawn (R := R) a h) (fun _ _ _ _ x h => wild_conserved_step x h) _ (conserved_start alpha interval) es

theorem Serial.uncounted {R : Rounding} {e0 : EWMA} {s : Shared} {cs : List PC} {l : List Int} (h : Serial R e0 ⟨s, cs⟩ l) (n : Int) :
    Serial R e0 ⟨{ s with e := { s.e with uncounted := n } }, cs⟩ l :=
  ⟨h.excl, h.perm, h.alpha, h.interval, h.idle, h.read, h.store, h.setInit⟩

theorem wild_serial_step {R : Rounding} {e0 : EWMA} {s : Shared} {pre post : List PC} {c : PC} {x : Int} {l : List Int}
    (h : Serial R e0 ⟨s, pre ++ c :: post⟩ l) :
    ∃ l', Serial R e0 ⟨(wildStep R s x c).1, pre ++ (wildStep R s x c).2 :: post⟩ l' := by
  by_cases hc : c = .load
  · subst hc
    obtain ⟨l', h'⟩ := serial_step (x := ()) (h.uncounted x)
    exact ⟨l', h'.uncounted s.e.uncounted⟩
  · rw [wildStep_else R s x hc]; exact serial_step h

theorem wild_serial_run (R : Rounding) (e0 : EWMA) (es : List (Ev Op Int)) :
    ∃ l, Serial R e0 ((wildConc R).run (Machine.start ⟨e0, false⟩) es) l :=
  (wildConc R).inv_run (fun p => ∃ l, Serial R e0 p l) (fun _ _ a ⟨l, h⟩ => ⟨l, serial_spawn (R := R) a h⟩) (fun _ _ _ _ _ ⟨_, h⟩ => wild_serial_step h) _
    ⟨[], serial_start R e0⟩ es

end EWMA

open EWMA Rounding

/-- **C22, whatever the load returns.** Even if the plain load of the pending count in `Tick` may return any number each time, what is pending is the int64
difference between everything the `Update` calls have added so far and everything the `Tick` calls have taken so far. -/
theorem C22_conservation_any_load (R : Rounding) (alpha : F64) (interval : Int) (es : List (Ev Op Int)) :
    let p := (wildConc R).run (Machine.start ⟨new alpha interval, false⟩) es
    p.shared.e.uncounted = i64 ((p.calls.map PC.applied).sum - (p.calls.map PC.taken).sum) :=
  wild_conserved_run R alpha interval es

/-- **C22, whatever the load returns.** When everybody has returned, the int64 sum of the arguments of all `Update` calls equals the sum of the counts of all
`Tick` calls plus what is still pending. -/
theorem C22_exactly_once_any_load (R : Rounding) (alpha : F64) (interval : Int) (es : List (Ev Op Int))
    (updates ticks : List Int)
    (hfin : ((wildConc R).run (Machine.start ⟨new alpha interval, false⟩) es).calls.Perm
      (updates.map PC.updated ++ ticks.map (PC.done true))) :
    i64 updates.sum =
      i64 (ticks.sum + ((wildConc R).run (Machine.start ⟨new alpha interval, false⟩) es).shared.e.uncounted) :=
  (wild_conserved_run R alpha interval es).exactly_once updates ticks hfin

/-- **C22, whatever the load returns.** Whenever nobody is inside `TickN`, the average is the sequential average of the counts of the finished ticks in some order. -/
theorem C22_serialisable_any_load (R : Rounding) (e0 : EWMA) (es : List (Ev Op Int)) :
    let p := (wildConc R).run (Machine.start ⟨e0, false⟩) es
    (∀ c ∈ p.calls, c.crit = false) →
      ∃ order : List Int, order.Perm (p.calls.filterMap PC.folded) ∧
        p.shared.e.rate = (EWMA.run R e0 (order.map Op.tickN)).rate ∧
        p.shared.e.initialized = (EWMA.run R e0 (order.map Op.tickN)).initialized := by
  intro p hq
  obtain ⟨l, hl⟩ := wild_serial_run R e0 es
  exact hl.order hq

/-- **C22, whatever the load returns.** The executions in which a load returns the last value stored are among these, and a load can return any number. -/
theorem C22_any_load_covers (R : Rounding) (p : Pool EWMA.Shared PC) (es : List (Ev Op Unit)) :
    (∃ es', (wildConc R).run p es' = (conc R).run p es) ∧
    ∀ (s : EWMA.Shared) (n : Int), (wildConc R).step s n .load = (s, .cas n) := by
  refine ⟨?_, fun _ _ => rfl⟩
  induction es using List.reverseRecOn with
  | nil => exact ⟨[], rfl⟩
  | append_singleton es e ih =>
    obtain ⟨es', h'⟩ := ih
    cases e with
    | spawn a => exact ⟨es' ++ [.spawn a], by rw [Machine.run_snoc, Machine.run_snoc, h']; rfl⟩
    | step i x =>
      refine ⟨es' ++ [.step i ((conc R).run p es).shared.e.uncounted], ?_⟩
      rw [Machine.run_snoc, Machine.run_snoc, h']
      generalize (conc R).run p es = q
      cases hc : q.calls[i]? with
      | none => simp only [Machine.apply, hc]
      | some c =>
        simp only [Machine.apply, hc]
        have : (wildConc R).step q.shared q.shared.e.uncounted c = (conc R).step q.shared x c := by
          cases c <;> rfl
        rw [this]

/-- A `Tick` that loads 7, which was never stored, fails its CAS, retries with a good load and takes the 5. -/
example :
    let p := (wildConc exact).run (Machine.start ⟨new (.fin 1) 1, false⟩)
      [.spawn .tick, .spawn (.update 5), .step 1 0, .step 0 7, .step 0 0, .step 0 5, .step 0 0, .step 0 0, .step 0 0,
       .step 0 0, .step 0 0, .step 0 0]
    p.calls = [.done true 5, .updated 5] ∧ p.shared.e.uncounted = 0 := by
  simp [Machine.run, Machine.apply, Machine.start, wildConc, wildStep, conc, callStep, new, update, i64]

end GoMetrics
