import Verif.Props.WholeCompass
import Verif.Props.EDRRace
/-! # C86 — a whole compass used by many goroutines: its reservoir -/
namespace GoMetrics
open Whole
open CompassConc (MarkArg Mark Marks)

namespace Whole

/-- The value of an `UpdateN` call on a uniform reservoir. -/
def uniformArg : GuardPC Int UniformConc.WPC Int Bool UniformConc.Query UniformConc.RPC UniformConc.Answer → Option Int
  | .wWait a | .wIn a _ _ | .wOut a _ | .wDone a _ => some a
  | _ => none

theorem uniform_ok : uniform.Ok uniformArg where
  arg_update _ := rfl
  arg_snapshot := rfl
  arg_step s x c := by
    cases c <;> simp only [uniform, Guarded.machine, Guarded.callStep] <;> (try split) <;> rfl
  over_step s x c b h := by
    cases c <;> simp only [uniform, Guarded.machine, Guarded.callStep] at h ⊢ <;> first | exact h | cases h

theorem decaying_ok (A : EDR.Arith) : (decaying A).Ok EDRConc.PC.arg where
  arg_update _ := rfl
  arg_snapshot := rfl
  arg_step s x c := EDRConc.arg_step A s x c
  over_step s x c b h := by
    cases c <;> simp only [decaying, EDRConc.machine, EDRConc.callStep] at h ⊢ <;> first | exact h | cases h

section
variable {S C A I : Type}

/-- What a step does to the reservoir is a step of the reservoir. -/
theorem res_step (R : Rounding) (T : Stepped S C A I) (bi : Int) (s : Parts S C) (x : In I) (c : Call) :
    (callStep R T bi s x c).1.res = s.res ∨ (∃ a, (callStep R T bi s x c).1.res = T.machine.apply s.res (.spawn a)) ∨
      ∃ r, (callStep R T bi s x c).1.res = T.machine.apply s.res (.step r x.res) := by
  obtain ⟨use, pc⟩ := c
  cases pc with
  | start =>
    cases use with
    | snapshot => exact .inr (.inl ⟨T.snapshot, rfl⟩)
    | update d a => exact .inl rfl
    | rate w => exact .inl rfl
  | tick i =>
    simp only [callStep]
    cases s.ticks.calls[i]? with
    | none => exact .inl rfl
    | some t =>
      simp only
      by_cases h : tickOver t = true
      · rw [if_pos h]; cases use <;> exact .inl rfl
      · rw [if_neg h]; cases feeds t <;> exact .inl rfl
  | avg i w j =>
    simp only [callStep]
    cases (s.avg w).calls[j]? with
    | none => exact .inl rfl
    | some t => simp only; split <;> exact .inl rfl
  | total i m =>
    simp only [callStep]
    cases s.marks.calls[m]? with
    | none => exact .inl rfl
    | some k =>
      simp only
      by_cases h : pastTotal k = true
      · rw [if_pos h]
        by_cases h2 : k.pc = .crashed
        · rw [if_pos h2]; exact .inl rfl
        · rw [if_neg h2]
          cases use with
          | update d a => exact .inr (.inl ⟨T.updateN d, rfl⟩)
          | rate w => exact .inl rfl
          | snapshot => exact .inl rfl
      · rw [if_neg h]; exact .inl rfl
  | res i m r =>
    simp only [callStep]
    cases s.res.calls[r]? with
    | none => exact .inl rfl
    | some q =>
      simp only
      rcases T.over q with _ | b
      · exact .inr (.inr ⟨r, rfl⟩)
      · cases b <;> exact .inl rfl
  | rest i m r =>
    simp only [callStep]
    cases s.marks.calls[m]? with
    | none => exact .inl rfl
    | some k => simp only; split <;> exact .inl rfl
  | rate i => cases use <;> exact .inl rfl
  | snap r =>
    simp only [callStep]
    cases s.res.calls[r]? with
    | none => exact .inl rfl
    | some q =>
      simp only
      split
      · exact .inl rfl
      · exact .inr (.inr ⟨r, rfl⟩)
  | done i m r => exact .inl rfl
  | resPanicked i m r => exact .inl rfl
  | crashed i m => exact .inl rfl
  | got i v => exact .inl rfl
  | snapped r => exact .inl rfl

theorem Machine.Reached.trans {S C A I : Type} {M : Machine S C A I} {p0 p1 p2 : Pool S C} {Q : I → Prop} (h1 : M.Reached p0 Q p1)
    (h2 : M.Reached p1 Q p2) : M.Reached p0 Q p2 := by
  obtain ⟨es1, rfl, q1⟩ := h1
  obtain ⟨es2, rfl, q2⟩ := h2
  refine ⟨es1 ++ es2, (M.run_append _ _ _).symm, ?_⟩
  intro i x hx
  rcases List.mem_append.1 hx with hx | hx
  · exact q1 i x hx
  · exact q2 i x hx

/-- What a schedule does to the reservoir is a schedule of the reservoir. -/
theorem res_reached (R : Rounding) (T : Stepped S C A I) (bi : Int) (Q : I → Prop) (p : Pool (Parts S C) Call) (es : List (Ev Use (In I)))
    (hes : ∀ i x, Ev.step i x ∈ es → Q x.res) : T.machine.Reached p.shared.res Q ((machine R T bi).run p es).shared.res := by
  induction es using List.reverseRecOn with
  | nil => exact .refl
  | append_singleton es e ih =>
    have ih := ih (fun i x hx => hes i x (by simp [hx]))
    rw [Machine.run_snoc]
    generalize (machine R T bi).run p es = p' at ih
    cases e with
    | spawn u => exact ih
    | step i x =>
      have hx := hes i x (by simp)
      cases hc : p'.calls[i]? with
      | none => simp only [Machine.apply, hc]; exact ih
      | some c =>
        simp only [Machine.apply, hc]
        rcases res_step R T bi p'.shared x c with h | ⟨a, h⟩ | ⟨r, h⟩
        · change T.machine.Reached _ _ (callStep R T bi p'.shared x c).1.res
          rw [h]; exact ih
        · change T.machine.Reached _ _ (callStep R T bi p'.shared x c).1.res
          rw [h]; exact ih.spawn a
        · change T.machine.Reached _ _ (callStep R T bi p'.shared x c).1.res
          rw [h]; exact ih.step r hx

/-- The same, and the schedule of the reservoir grows with the schedule. -/
theorem res_prefix (R : Rounding) (T : Stepped S C A I) (bi : Int) (Q : I → Prop) (p : Pool (Parts S C) Call) (es : List (Ev Use (In I)))
    (hes : ∀ i x, Ev.step i x ∈ es → Q x.res) :
    ∃ es' : List (Ev A I), ((machine R T bi).run p es).shared.res = T.machine.run p.shared.res es' ∧ (∀ i x, Ev.step i x ∈ es' → Q x) ∧
      ∀ es1 es2, es = es1 ++ es2 → ∃ a b, es' = a ++ b ∧ ((machine R T bi).run p es1).shared.res = T.machine.run p.shared.res a := by
  induction es using List.reverseRecOn with
  | nil =>
    refine ⟨[], rfl, by simp, ?_⟩
    intro es1 es2 h
    obtain ⟨rfl, rfl⟩ := List.append_eq_nil_iff.1 h.symm
    exact ⟨[], [], rfl, rfl⟩
  | append_singleton es e ih =>
    obtain ⟨es', h1, h2, h3⟩ := ih (fun i x hx => hes i x (by simp [hx]))
    have hstep : ∃ l, ((machine R T bi).run p (es ++ [e])).shared.res = T.machine.run p.shared.res (es' ++ l) ∧ ∀ i x, Ev.step i x ∈ l → Q x := by
      rw [Machine.run_snoc]
      generalize (machine R T bi).run p es = p' at h1
      cases e with
      | spawn u => exact ⟨[], by rw [List.append_nil, ← h1]; rfl, by simp⟩
      | step i x =>
        have hx := hes i x (by simp)
        cases hc : p'.calls[i]? with
        | none => exact ⟨[], by simp only [Machine.apply, hc]; rw [List.append_nil, ← h1], by simp⟩
        | some c =>
          simp only [Machine.apply, hc]
          rcases res_step R T bi p'.shared x c with h | ⟨a, h⟩ | ⟨r, h⟩
          · exact ⟨[], by rw [List.append_nil, ← h1]; exact h, by simp⟩
          · exact ⟨[.spawn a], by rw [Machine.run_snoc, ← h1]; exact h, by simp⟩
          · refine ⟨[.step r x.res], by rw [Machine.run_snoc, ← h1]; exact h, ?_⟩
            intro j y hy
            simp only [List.mem_singleton, Ev.step.injEq] at hy
            exact hy.2 ▸ hx
    obtain ⟨l, l1, l2⟩ := hstep
    refine ⟨es' ++ l, l1, ?_, ?_⟩
    · intro i x hx
      rcases List.mem_append.1 hx with hx | hx
      · exact h2 i x hx
      · exact l2 i x hx
    · intro es1 es2 h
      rcases List.eq_nil_or_concat es2 with rfl | ⟨es2', e', rfl⟩
      · rw [List.append_nil] at h
        exact ⟨es' ++ l, [], by simp, by rw [← h]; exact l1⟩
      · rw [List.concat_eq_append, ← List.append_assoc] at h
        obtain ⟨h, -⟩ := List.append_inj' h rfl
        obtain ⟨a, b, g1, g2⟩ := h3 es1 es2' h
        exact ⟨a, b ++ l, by rw [g1, List.append_assoc], g2⟩

theorem length_mono (M : Machine S C A I) (p : Pool S C) (es : List (Ev A I)) : p.calls.length ≤ (M.run p es).calls.length := by
  induction es generalizing p with
  | nil => exact le_refl _
  | cons e es ih =>
    refine le_trans ?_ (ih (M.apply p e))
    cases e with
    | spawn a => simp [Machine.apply]
    | step i x => rw [Machine.apply_length]

/-- Every call was begun at some moment. -/
theorem spawned (M : Machine S C A I) (p : Pool S C) (es : List (Ev A I)) (r : Nat) (h1 : p.calls.length ≤ r) (h2 : r < (M.run p es).calls.length) :
    ∃ es1 a es2, es = es1 ++ .spawn a :: es2 ∧ (M.run p es1).calls.length = r := by
  induction es using List.reverseRecOn with
  | nil => simp only [Machine.run_nil] at h2; omega
  | append_singleton es e ih =>
    rw [Machine.run_snoc] at h2
    by_cases h3 : r < (M.run p es).calls.length
    · obtain ⟨es1, a, es2, rfl, g⟩ := ih h3
      exact ⟨es1, a, es2 ++ [e], by simp, g⟩
    · cases e with
      | spawn a =>
        rw [spawn_length] at h2
        exact ⟨es, a, [], by simp, by omega⟩
      | step i x => rw [Machine.apply_length] at h2; exact absurd h2 h3

theorem call_spawned (M : Machine S C A I) (p : Pool S C) (es1 es2 : List (Ev A I)) (a : A) (P : C → Prop) (h0 : P (M.call a))
    (hs : ∀ s x c, P c → P (M.step s x c).2) :
    Machine.At (M.run p (es1 ++ .spawn a :: es2)) (M.run p es1).calls.length P := by
  rw [Machine.run_append, Machine.run_cons]
  have h : Machine.At (M.apply (M.run p es1) (.spawn a)) (M.run p es1).calls.length P := At.new a h0
  generalize M.apply (M.run p es1) (.spawn a) = q at h
  induction es2 generalizing q with
  | nil => exact h
  | cons e es ih => exact ih _ (h.apply hs e)

theorem At_run (M : Machine S C A I) (p : Pool S C) (es : List (Ev A I)) (i : Nat) (P : C → Prop) (h : Machine.At p i P)
    (hs : ∀ s x c, P c → P (M.step s x c).2) : Machine.At (M.run p es) i P := by
  induction es generalizing p with
  | nil => exact h
  | cons e es ih => exact ih _ (h.apply hs e)

/-- What the calls have once got done they have got done later. -/
theorem filterMap_mono {β : Type} (M : Machine S C A I) (f : C → Option β) (hf : ∀ s x c, f c = none ∨ f (M.step s x c).2 = f c)
    (p : Pool S C) (es : List (Ev A I)) : (p.calls.filterMap f).length ≤ ((M.run p es).calls.filterMap f).length := by
  induction es generalizing p with
  | nil => exact le_refl _
  | cons e es ih =>
    refine le_trans ?_ (ih (M.apply p e))
    cases e with
    | spawn a => simp [Machine.apply, List.filterMap_append]
    | step i x =>
      cases hc : p.calls[i]? with
      | none => simp only [Machine.apply, hc]; exact le_refl _
      | some c =>
        obtain ⟨pre, post, g1, -, g2⟩ := M.apply_step_eq (x := x) hc
        rw [g2, g1]
        simp only [List.filterMap_append, List.length_append, List.filterMap_cons]
        rcases hf p.shared x c with h | h
        · rw [h]; simp only; split <;> simp
        · rw [h]

/-- A `GetSnapshot` begun after `es1` gets a call of the reservoir that was begun later than those of `es1`. -/
theorem snapshot_call (R : Rounding) (T : Stepped S C A I) (bi : Int) (p0 : Pool (Parts S C) Call) (es1 es2 : List (Ev Use (In I))) (P : C → Prop)
    (h0 : P (T.machine.call T.snapshot)) (hs : ∀ s x c, P c → P (T.machine.step s x c).2) :
    let p1 := (machine R T bi).run p0 es1
    let p2 := (machine R T bi).run p0 (es1 ++ .spawn .snapshot :: es2)
    ∃ c, p2.calls[p1.calls.length]? = some c ∧ c.use = .snapshot ∧ (c.pc = .start ∨
      ∃ r, (c.pc = .snap r ∨ c.pc = .snapped r) ∧ p1.shared.res.calls.length ≤ r ∧ Machine.At p2.shared.res r P) := by
  intro p1 p2
  have hp2 : p2 = (machine R T bi).run ((machine R T bi).apply p1 (.spawn .snapshot)) es2 := by
    change (machine R T bi).run p0 (es1 ++ .spawn .snapshot :: es2) = _
    rw [Machine.run_append, Machine.run_cons]
  rw [hp2]
  clear hp2 p2
  induction es2 using List.reverseRecOn with
  | nil => exact ⟨⟨.snapshot, .start⟩, by simp [Machine.run_nil, Machine.apply, machine], rfl, .inl rfl⟩
  | append_singleton es e ih =>
    rw [Machine.run_snoc]
    have hlen : p1.shared.res.calls.length ≤ ((machine R T bi).run ((machine R T bi).apply p1 (.spawn .snapshot)) es).shared.res.calls.length := by
      obtain ⟨es', he, -⟩ := res_reached R T bi (fun _ => True) ((machine R T bi).apply p1 (.spawn .snapshot)) es (fun _ _ _ => trivial)
      rw [he]
      exact length_mono T.machine _ es'
    generalize (machine R T bi).run ((machine R T bi).apply p1 (.spawn .snapshot)) es = q at ih hlen
    obtain ⟨c, hc, hu, hpc⟩ := ih
    cases e with
    | spawn u =>
      obtain ⟨hi, -⟩ := List.getElem?_eq_some_iff.1 hc
      exact ⟨c, by simp only [Machine.apply]; rw [List.getElem?_append_left hi]; exact hc, hu, hpc⟩
    | step i x =>
      cases hd : q.calls[i]? with
      | none => simp only [Machine.apply, hd]; exact ⟨c, hc, hu, hpc⟩
      | some d =>
        simp only [Machine.apply, hd]
        by_cases hin : i = p1.calls.length
        · subst hin
          rw [hc] at hd
          obtain rfl := Option.some.inj hd
          obtain ⟨hi, -⟩ := List.getElem?_eq_some_iff.1 hc
          refine ⟨_, List.getElem?_set_self hi, ?_⟩
          obtain ⟨use, pc⟩ := c
          simp only at hu hpc
          subst hu
          rcases hpc with rfl | ⟨r, rfl | rfl, g1, g2⟩
          · exact ⟨rfl, .inr ⟨_, .inl rfl, hlen, At.new _ h0⟩⟩
          · obtain ⟨t, t1, t2⟩ := g2
            change (callStep R T bi q.shared x ⟨.snapshot, .snap r⟩).2.use = _ ∧ _
            simp only [machine, callStep, t1]
            by_cases ho : (T.over t).isSome = true
            · simp only [ho, if_true]
              exact ⟨trivial, .inr ⟨r, .inr rfl, g1, t, t1, t2⟩⟩
            · simp only [ho, Bool.false_eq_true, if_false]
              exact ⟨trivial, .inr ⟨r, .inl rfl, g1, Machine.At.apply (M := T.machine) ⟨t, t1, t2⟩ hs _⟩⟩
          · exact ⟨rfl, .inr ⟨r, .inr rfl, g1, g2⟩⟩
        · refine ⟨c, by rw [List.getElem?_set_ne hin]; exact hc, hu, ?_⟩
          rcases hpc with h | ⟨r, h, g1, g2⟩
          · exact .inl h
          · refine .inr ⟨r, h, g1, ?_⟩
            change Machine.At (callStep R T bi q.shared x d).1.res r P
            rcases res_step R T bi q.shared x d with h | ⟨a, h⟩ | ⟨r', h⟩
            · rw [h]; exact g2
            · rw [h]; exact g2.apply hs _
            · rw [h]; exact g2.apply hs _

end

/-- Which reading method of a uniform reservoir a call is. -/
def queryOf : GuardPC Int UniformConc.WPC Int Bool UniformConc.Query UniformConc.RPC UniformConc.Answer → Option UniformConc.Query
  | .rWait q | .rIn q _ | .rOut q _ | .rDone q _ => some q
  | _ => none

theorem queryOf_step (s : Guard UniformReservoir Int Int Bool) (x : Int)
    (c : GuardPC Int UniformConc.WPC Int Bool UniformConc.Query UniformConc.RPC UniformConc.Answer) :
    queryOf (uniform.machine.step s x c).2 = queryOf c := by
  cases c <;> simp only [uniform, Guarded.machine, Guarded.callStep] <;> (try split) <;> rfl

/-- The value of an `UpdateN` that is through. -/
def through : GuardPC Int UniformConc.WPC Int Bool UniformConc.Query UniformConc.RPC UniformConc.Answer → Option Int
  | .wOut a _ => some a
  | .wDone a _ => some a
  | _ => none

theorem through_step (s : Guard UniformReservoir Int Int Bool) (x : Int)
    (c : GuardPC Int UniformConc.WPC Int Bool UniformConc.Query UniformConc.RPC UniformConc.Answer) :
    through c = none ∨ through (uniform.machine.step s x c).2 = through c := by
  cases c <;> first | exact .inl rfl | exact .inr rfl

/-- The durations of the updates that are over are through. -/
theorem finished_res {R : Rounding} {bi : Int} {Qt Qr : Int → Prop}
    {p0 p : Pool (Parts (Guard UniformReservoir Int Int Bool) _) Call} (h : Inv R uniform uniformArg bi Qt Qr p0 p) :
    ((finished p).map Prod.fst).Subperm (p.shared.res.calls.filterMap through) := by
  have := sub_calls Call.resIx (fun c => if c.over then c.recorded?.map Prod.fst else none) through p.calls p.shared.res.calls h.resIx ?_
  · have e1 : (finished p).map Prod.fst = p.calls.filterMap (fun c => if c.over then c.recorded?.map Prod.fst else none) := by
      unfold finished
      rw [List.map_filterMap, List.filterMap_filter]
    rw [e1]; exact this
  · intro c hc b hb
    have hh := h.here c hc
    obtain ⟨use, pc⟩ := c
    cases pc <;> simp only [Call.over, if_true, Bool.false_eq_true, if_false, reduceCtorEq] at hb
    · obtain ⟨d, a, hu, -, -, ⟨k, k1, k2, k3⟩⟩ := hh
      simp only at hu
      subst hu
      simp only [Call.recorded?, Option.map_some, Option.some.injEq] at hb
      refine ⟨_, k, rfl, k1, ?_⟩
      subst hb
      cases k <;> simp [uniform] at k3
      · exact k2
      · cases k2
    · obtain ⟨⟨w, hu⟩, -⟩ := hh
      simp only at hu
      subst hu; simp [Call.recorded?] at hb
    · obtain ⟨hu, -⟩ := hh
      simp only at hu
      subst hu; simp [Call.recorded?] at hb

/-- What is through is the duration of some update. -/
theorem started_res {R : Rounding} {bi : Int} {Qt Qr : Int → Prop}
    {p0 p : Pool (Parts (Guard UniformReservoir Int Int Bool) _) Call} (h : Inv R uniform uniformArg bi Qt Qr p0 p) :
    (p.shared.res.calls.filterMap through).Subperm ((recorded p).map Prod.fst) := by
  have := sup_calls Call.resIx (fun c => c.recorded?.map Prod.fst) through p.calls p.shared.res.calls h.resIx ?_
  · rw [recorded, List.map_filterMap]
    exact this
  · intro c hc m k hm hk
    have hh := h.here c hc
    have key : ∀ a d, c.use = .update d a → (Machine.At p.shared.res m fun k => uniformArg k = some d) →
        through k = none ∨ through k = c.recorded?.map Prod.fst := by
      rintro a d hu ⟨k', g1, g2⟩
      rw [hk] at g1
      obtain rfl := Option.some.inj g1
      simp only [Call.recorded?, hu, Option.map_some]
      cases k <;> first | exact .inl rfl | exact .inr g2
    have key2 : (Machine.At p.shared.res m fun k => uniformArg k = none) → through k = none := by
      rintro ⟨k', g1, g2⟩
      rw [hk] at g1
      obtain rfl := Option.some.inj g1
      cases k <;> first | rfl | cases g2
    obtain ⟨use, pc⟩ := c
    cases pc <;> simp only [Call.resIx, Option.some.injEq, reduceCtorEq] at hm
    · subst hm; obtain ⟨d, a, hu, -, -, g⟩ := hh; exact key a d hu g
    · subst hm; obtain ⟨d, a, hu, -, -, g⟩ := hh; exact key a d hu (g.mono fun _ hg => hg.1)
    · subst hm; exact .inl (key2 hh.2)
    · subst hm; obtain ⟨d, a, hu, -, -, g⟩ := hh; exact key a d hu (g.mono fun _ hg => hg.1)
    · subst hm; obtain ⟨d, a, hu, -, -, g⟩ := hh; exact key a d hu (g.mono fun _ hg => hg.1)
    · subst hm; exact .inl (key2 (hh.2.mono fun _ hg => hg.1))

end Whole

/-- **C86, the reservoir.** For every schedule of calls on a compass with a uniform reservoir there is one order `hist` of durations (with random
words among those the schedule delivered), containing every update that is over and nothing but updates, such that: once every call is over the
reservoir is what `hist` leaves behind one after the other; and each `GetSnapshot` that is over returned the snapshot of the reservoir after some
first part of `hist` that contains every update that was over when the call began. -/
theorem C86_uniform (R : Rounding) (capacity : Nat) (bi : Int) (n : Nat) (maxErr maxAdd now t1 t2 : Int) (es : List (Ev Use (In Int))) :
    let after := fun es => used R uniform { obj := UniformReservoir.new capacity } bi n maxErr maxAdd now t1 t2 es
    ∃ hist : List (Int × List Int),
      ((finished (after es)).map Prod.fst).Subperm (hist.map Prod.fst) ∧ (hist.map Prod.fst).Subperm ((recorded (after es)).map Prod.fst) ∧
      (∀ e ∈ hist, ∀ x ∈ e.2, ∃ i y, Ev.step i y ∈ es ∧ y.res = x) ∧
      ((∀ c ∈ (after es).calls, c.over = true) → (after es).shared.res.shared.obj = (UniformReservoir.new capacity).run hist) ∧
      (∀ es1 es2 c, es = es1 ++ .spawn .snapshot :: es2 → (after es).calls[(after es1).calls.length]? = some c → c.over = true →
        ∃ r k, c.pc = .snapped r ∧ k ≤ hist.length ∧ ((finished (after es1)).map Prod.fst).Subperm ((hist.take k).map Prod.fst) ∧
          (after es).shared.res.calls[r]? = some (.rDone .snapshot (.snapshot ((UniformReservoir.new capacity).run (hist.take k)).getSnapshot))) := by
  intro after
  have hinv : ∀ es', Inv R uniform uniformArg bi (fun _ => True) (fun _ => True)
      (init { obj := UniformReservoir.new capacity } bi n maxErr maxAdd now t1 t2) (after es') := fun es' =>
    inv_all uniform_ok _ n maxErr maxAdd now t1 t2 es' (fun _ _ _ => ⟨trivial, trivial⟩)
  obtain ⟨es', e1, e2, e3⟩ := res_prefix R uniform bi (fun x => ∃ i y, Ev.step i y ∈ es ∧ y.res = x)
    (init { obj := UniformReservoir.new capacity } bi n maxErr maxAdd now t1 t2) es (fun i x hx => ⟨i, x, hx, rfl⟩)
  have e1 : (after es).shared.res = UniformConc.after capacity es' := e1
  have hthrough : ∀ p : Pool (Guard UniformReservoir Int Int Bool) _, UniformConc.recorded p = p.calls.filterMap through := by
    intro p
    unfold UniformConc.recorded Guarded.written
    congr 1
    funext c
    cases c <;> rfl
  obtain ⟨hist, h1, h2, h3, h4, h5⟩ := C79_linearizable capacity es'
  refine ⟨hist, ?_, ?_, ?_, ?_, ?_⟩
  · have := finished_res (hinv es)
    rw [e1, ← hthrough] at this
    exact this.trans h1.symm.subperm
  · have := started_res (hinv es)
    rw [e1, ← hthrough] at this
    exact h1.subperm.trans this
  · intro e he x hx
    obtain ⟨i, hi⟩ := h2 e he x hx
    exact e2 i x hi
  · intro hq
    rw [e1]
    apply h3
    have hd := res_done (hinv es) hq
    rw [e1] at hd
    have hw := (Guarded.inv_run (G := UniformConc.guarded) (UniformReservoir.new capacity) es').writer
    change ((UniformConc.after capacity es').calls.filter Guarded.wHolds).length = if (UniformConc.after capacity es').shared.writer then 1 else 0 at hw
    have hnil : (UniformConc.after capacity es').calls.filter Guarded.wHolds = [] := by
      rw [List.filter_eq_nil_iff]
      intro c hc hh
      have := hd c hc
      cases c <;> first | (cases hh; done) | (cases this; done)
    rw [hnil] at hw
    cases hwr : (UniformConc.after capacity es').shared.writer
    · rfl
    · rw [hwr] at hw; cases hw
  · intro es1 es2 c hes hc ho
    obtain ⟨a, b, rfl, g2⟩ := e3 es1 (.spawn .snapshot :: es2) hes
    have g2 : (after es1).shared.res = UniformConc.after capacity a := g2
    have hsn := snapshot_call R uniform bi (init { obj := UniformReservoir.new capacity } bi n maxErr maxAdd now t1 t2) es1 es2
      (fun c => queryOf c = some .snapshot) rfl (fun s x c hh => by rw [queryOf_step]; exact hh)
    rw [← hes] at hsn
    obtain ⟨c', c1, c2, c3⟩ := hsn
    have : c' = c := Option.some.inj (c1.symm.trans hc)
    subst this
    rcases c3 with c3 | ⟨r, c3 | c3, r1, q, r2, r3⟩
    · rw [Call.over, c3] at ho; cases ho
    · rw [Call.over, c3] at ho; cases ho
    have hhere := (hinv es).here c' (List.mem_of_getElem? hc)
    unfold Here at hhere
    rw [c3] at hhere
    obtain ⟨-, q', q1, -, q2⟩ := hhere
    have r2 : (after es).shared.res.calls[r]? = some q := r2
    rw [r2] at q1
    obtain rfl := Option.some.inj q1
    -- when the call of the reservoir began
    have r1 : (UniformConc.after capacity a).calls.length ≤ r := by rw [← g2]; exact r1
    rw [e1] at r2
    have hrun : UniformConc.after capacity (a ++ b) = UniformConc.guarded.machine.run (UniformConc.after capacity a) b := Machine.run_append _ _ _ _
    obtain ⟨b1, x, b2, rfl, hr⟩ := spawned UniformConc.guarded.machine (UniformConc.after capacity a) b r r1 (by
      rw [← hrun]; exact (List.getElem?_eq_some_iff.1 r2).1)
    have hr : (UniformConc.after capacity (a ++ b1)).calls.length = r := by
      rw [← hr, show UniformConc.after capacity (a ++ b1) = UniformConc.guarded.machine.run (UniformConc.after capacity a) b1 from
        Machine.run_append _ _ _ _]
    have hx : x = .inr .snapshot := by
      have hat : ∀ o, queryOf (UniformConc.guarded.machine.call x) = o → queryOf q = o := by
        intro o ho
        obtain ⟨q', q1, q2⟩ := call_spawned UniformConc.guarded.machine (Guarded.init (UniformReservoir.new capacity)) (a ++ b1) b2 x
          (fun c => queryOf c = o) ho (fun s x c hh => by rw [show queryOf (UniformConc.guarded.machine.step s x c).2 = queryOf c from queryOf_step s x c]; exact hh)
        rw [show (UniformConc.guarded.machine.run (Guarded.init (UniformReservoir.new capacity)) (a ++ b1)).calls.length = r from hr] at q1
        rw [List.append_assoc] at q1
        rw [show UniformConc.guarded.machine.run (Guarded.init (UniformReservoir.new capacity)) (a ++ (b1 ++ Ev.spawn x :: b2)) =
          UniformConc.after capacity (a ++ (b1 ++ Ev.spawn x :: b2)) from rfl, r2] at q1
        obtain rfl := Option.some.inj q1
        exact q2
      rcases x with v | y
      · have := hat none rfl
        rw [r3] at this; cases this
      · have := hat (some y) rfl
        rw [r3] at this
        rw [Option.some.inj this]
    subst hx
    cases q <;> simp [uniform] at q2
    · cases r3
    · rename_i qq v _
      have r3 : qq = .snapshot := Option.some.inj r3
      subst r3
      obtain ⟨k, k1, k2, k3⟩ := h5 (a ++ b1) .snapshot b2 v (by simp) (by rw [hr]; exact r2)
      have hmono : (UniformConc.recorded (UniformConc.after capacity a)).length ≤ (UniformConc.recorded (UniformConc.after capacity (a ++ b1))).length := by
        rw [hthrough, hthrough]
        rw [show UniformConc.after capacity (a ++ b1) = UniformConc.guarded.machine.run (UniformConc.after capacity a) b1 from Machine.run_append _ _ _ _]
        exact filterMap_mono UniformConc.guarded.machine through through_step _ _
      refine ⟨r, k, c3, k2, ?_, ?_⟩
      · have hf := finished_res (hinv es1)
        rw [g2, ← hthrough] at hf
        refine hf.trans ((h4 a (b1 ++ .spawn (.inr .snapshot) :: b2) rfl).symm.subperm.trans ?_)
        refine List.Sublist.subperm (List.Sublist.map _ ?_)
        exact List.take_sublist_take_left (by omega)
      · rw [e1, r2, k3]; rfl

/-- **C86.** On a compass with a uniform reservoir and a bucket interval of at least a second, no call is stopped by its reservoir or its total counter
(the random words are non-negative, as `Int63` returns them, and there are fewer than 2^63 calls). -/
theorem C86_uniform_no_panic (R : Rounding) (capacity : Nat) (bi : Int) (hbi : 1000000000 ≤ bi) (n : Nat) (maxErr maxAdd now t1 t2 : Int)
    (es : List (Ev Use (In Int))) (hw : ∀ i x, Ev.step i x ∈ es → 0 ≤ x.res)
    (hl : (used R uniform { obj := UniformReservoir.new capacity } bi n maxErr maxAdd now t1 t2 es).calls.length < 2 ^ 63) :
    ∀ c ∈ (used R uniform { obj := UniformReservoir.new capacity } bi n maxErr maxAdd now t1 t2 es).calls,
      (∀ i m r, c.pc ≠ .resPanicked i m r) ∧ ∀ i m, c.pc ≠ .crashed i m := by
  have h : Inv R uniform uniformArg bi (fun _ => True) (fun x => 0 ≤ x) (init { obj := UniformReservoir.new capacity } bi n maxErr maxAdd now t1 t2)
      (used R uniform { obj := UniformReservoir.new capacity } bi n maxErr maxAdd now t1 t2 es) :=
    inv_all uniform_ok _ n maxErr maxAdd now t1 t2 es (fun i x hx => ⟨trivial, hw i x hx⟩)
  generalize used R uniform { obj := UniformReservoir.new capacity } bi n maxErr maxAdd now t1 t2 es = p at h hl
  intro c hc
  have hh := h.here c hc
  unfold Here at hh
  refine ⟨fun i m r e => ?_, fun i m e => ?_⟩
  · rw [e] at hh
    obtain ⟨d, a, -, -, -, q, q1, -, q2⟩ := hh
    obtain ⟨es', e1, e2⟩ := h.res
    have e1 : p.shared.res = UniformConc.after capacity es' := e1
    have hlen : p.shared.res.calls.length ≤ p.calls.length := by
      have := h.resIx.length_eq
      rw [List.length_range] at this
      rw [← this]
      exact List.length_filterMap_le _ _
    cases q <;> simp [uniform] at q2
    subst q2
    have := C79_no_panic capacity es' e2 (by rw [← e1]; omega) _ true (.inr (by rw [← e1]; exact List.mem_of_getElem? q1))
    cases this
  · rw [e] at hh
    obtain ⟨d, a, -, -, k, k1, -, k2⟩ := hh
    obtain ⟨es1, he1, -⟩ := h.marks
    have g2 := CompassConc.alive_run bi hbi n maxErr maxAdd t1 t2 es1
    change ∀ m ∈ (CompassConc.marked bi n maxErr maxAdd t1 t2 es1).calls, m.pc.alive at g2
    rw [show CompassConc.marked bi n maxErr maxAdd t1 t2 es1 = p.shared.marks from he1.symm] at g2
    have := g2 k (List.mem_of_getElem? k1)
    rw [k2] at this
    exact this

/-- **C86.** On a compass with a decaying reservoir of capacity at least 1, likewise; and every sample in it, and in every snapshot taken, is the duration
of some call of `Update` or `UpdateWithError`. -/
theorem C86_decaying (R : Rounding) (A : EDR.Arith) (hA : A.Lawful) (size : Int) (hsz : 1 ≤ size) (alpha : F64) (time tick : Int) (bi : Int)
    (hbi : 1000000000 ≤ bi) (n : Nat) (maxErr maxAdd now t1 t2 : Int) (es : List (Ev Use (In EDRConc.In)))
    (hw : ∀ i x, Ev.step i x ∈ es → EDR.IsDraw x.res.u) :
    let p := used R (decaying A) ⟨EDR.new size alpha time tick, []⟩ bi n maxErr maxAdd now t1 t2 es
    (∀ c ∈ p.calls, (∀ i m r, c.pc ≠ .resPanicked i m r) ∧ ∀ i m, c.pc ≠ .crashed i m) ∧
    (∀ s ∈ p.shared.res.shared.rsv.values, ∃ e ∈ recorded p, e.1 = s.value) ∧
    (∀ l, EDRConc.PC.snapshot l ∈ p.shared.res.calls → ∀ s ∈ l, ∃ e ∈ recorded p, e.1 = s.value) := by
  intro p
  have h : Inv R (decaying A) EDRConc.PC.arg bi (fun _ => True) (fun x => EDR.IsDraw x.u) (init ⟨EDR.new size alpha time tick, []⟩ bi n maxErr maxAdd now t1 t2) p :=
    inv_all (decaying_ok A) _ n maxErr maxAdd now t1 t2 es (fun i x hx => ⟨trivial, hw i x hx⟩)
  clear_value p
  obtain ⟨es', e1, e2⟩ := h.res
  have e1 : p.shared.res = (EDRConc.machine A).run (EDRConc.init size alpha time tick) es' := e1
  have hsup : (p.shared.res.calls.filterMap EDRConc.PC.arg).Subperm ((recorded p).map Prod.fst) := by
    have := sup_calls Call.resIx (fun c => c.recorded?.map Prod.fst) EDRConc.PC.arg p.calls p.shared.res.calls h.resIx ?_
    · rw [recorded, List.map_filterMap]
      exact this
    · intro c hc m k hm hk
      have hh := h.here c hc
      have key : ∀ a d, c.use = .update d a → (Machine.At p.shared.res m fun k => EDRConc.PC.arg k = some d) →
          EDRConc.PC.arg k = none ∨ EDRConc.PC.arg k = c.recorded?.map Prod.fst := by
        rintro a d hu ⟨k', g1, g2⟩
        rw [hk] at g1
        obtain rfl := Option.some.inj g1
        exact .inr (by simp [Call.recorded?, hu, g2])
      have key2 : (Machine.At p.shared.res m fun k => EDRConc.PC.arg k = none) → EDRConc.PC.arg k = none := by
        rintro ⟨k', g1, g2⟩
        rw [hk] at g1
        obtain rfl := Option.some.inj g1
        exact g2
      obtain ⟨use, pc⟩ := c
      cases pc <;> simp only [Call.resIx, Option.some.injEq, reduceCtorEq] at hm
      · subst hm; obtain ⟨d, a, hu, -, -, g⟩ := hh; exact key a d hu g
      · subst hm; obtain ⟨d, a, hu, -, -, g⟩ := hh; exact key a d hu (g.mono fun _ hg => hg.1)
      · subst hm; exact .inl (key2 hh.2)
      · subst hm; obtain ⟨d, a, hu, -, -, g⟩ := hh; exact key a d hu (g.mono fun _ hg => hg.1)
      · subst hm; obtain ⟨d, a, hu, -, -, g⟩ := hh; exact key a d hu (g.mono fun _ hg => hg.1)
      · subst hm; exact .inl (key2 (hh.2.mono fun _ hg => hg.1))
  have hfrom : ∀ v, (∃ c ∈ p.shared.res.calls, c.arg = some v) → ∃ e ∈ recorded p, e.1 = v := by
    rintro v ⟨c, c1, c2⟩
    have : v ∈ p.shared.res.calls.filterMap EDRConc.PC.arg := List.mem_filterMap.2 ⟨c, c1, c2⟩
    have := hsup.subset this
    simpa [List.mem_map] using this
  refine ⟨?_, ?_, ?_⟩
  · intro c hc
    have hh := h.here c hc
    unfold Here at hh
    refine ⟨fun i m r e => ?_, fun i m e => ?_⟩
    · rw [e] at hh
      obtain ⟨d, a, -, -, -, q, q1, -, q2⟩ := hh
      have hn := EDRConc.C67_conc_no_panic A hA size hsz alpha time tick es' e2
      rw [← e1] at hn
      cases q <;> simp [decaying] at q2
      exact hn _ (List.mem_of_getElem? q1) _ rfl
    · rw [e] at hh
      obtain ⟨d, a, -, -, k, k1, -, k2⟩ := hh
      obtain ⟨es1, he1, -⟩ := h.marks
      have g2 := CompassConc.alive_run bi hbi n maxErr maxAdd t1 t2 es1
      change ∀ m ∈ (CompassConc.marked bi n maxErr maxAdd t1 t2 es1).calls, m.pc.alive at g2
      rw [show CompassConc.marked bi n maxErr maxAdd t1 t2 es1 = p.shared.marks from he1.symm] at g2
      have := g2 k (List.mem_of_getElem? k1)
      rw [k2] at this
      exact this
  · have hv := (EDRConc.C65_conc_recorded A size alpha time tick es').1
    rw [← e1] at hv
    exact fun s hs => hfrom _ (hv s hs)
  · have hv := (EDRConc.C65_conc_recorded A size alpha time tick es').2
    rw [← e1] at hv
    exact fun l hl s hs => hfrom _ (hv l hl s hs)

/-- A schedule of the whole compass gives a schedule of the reservoir that is not longer and takes the clock readings in the same order. -/
theorem Whole.res_times (R : Rounding) (A : EDR.Arith) (bi : Int) (p : Pool (Parts EDRConc.Shared EDRConc.PC) Call) (es : List (Ev Use (In EDRConc.In)))
    (Q : EDRConc.In → Prop) (hes : ∀ i x, Ev.step i x ∈ es → Q x.res) :
    ∃ es', ((machine R (decaying A) bi).run p es).shared.res = (EDRConc.machine A).run p.shared.res es' ∧ es'.length ≤ es.length ∧
      (EDRConc.times es').Sublist (resTimes es) ∧ ∀ i x, Ev.step i x ∈ es' → Q x := by
  induction es generalizing p with
  | nil => exact ⟨[], rfl, le_rfl, List.Sublist.refl _, by simp⟩
  | cons e es ih =>
    have ih := fun p => ih p (fun i x hx => hes i x (by simp [hx]))
    cases e with
    | spawn u =>
      obtain ⟨es', h1, h2, h3, h4⟩ := ih ((machine R (decaying A) bi).apply p (.spawn u))
      exact ⟨es', h1, by simp only [List.length_cons]; omega, h3, h4⟩
    | step i x =>
      have hx := hes i x (by simp)
      have skip : ((machine R (decaying A) bi).apply p (.step i x)).shared.res = p.shared.res →
          ∃ es', ((machine R (decaying A) bi).run p (.step i x :: es)).shared.res = (EDRConc.machine A).run p.shared.res es' ∧
            es'.length ≤ (Ev.step i x :: es).length ∧ (EDRConc.times es').Sublist (resTimes (.step i x :: es)) ∧ ∀ i x, Ev.step i x ∈ es' → Q x := by
        intro h
        obtain ⟨es', h1, h2, h3, h4⟩ := ih ((machine R (decaying A) bi).apply p (.step i x))
        rw [h] at h1
        exact ⟨es', h1, by simp only [List.length_cons]; omega, h3.cons _, h4⟩
      cases hc : p.calls[i]? with
      | none => exact skip (by simp only [Machine.apply, hc])
      | some c =>
        have he : ((machine R (decaying A) bi).apply p (.step i x)).shared.res = (callStep R (decaying A) bi p.shared x c).1.res := by
          simp only [Machine.apply, hc]; rfl
        rcases res_step R (decaying A) bi p.shared x c with h | ⟨a, h⟩ | ⟨r, h⟩
        · exact skip (he.trans h)
        · obtain ⟨es', h1, h2, h3, h4⟩ := ih ((machine R (decaying A) bi).apply p (.step i x))
          rw [he, h] at h1
          refine ⟨.spawn a :: es', h1, by simp only [List.length_cons]; omega, h3.cons _, ?_⟩
          intro j y hy
          exact h4 j y (by simpa using hy)
        · obtain ⟨es', h1, h2, h3, h4⟩ := ih ((machine R (decaying A) bi).apply p (.step i x))
          rw [he, h] at h1
          refine ⟨.step r x.res :: es', h1, by simp only [List.length_cons]; omega, h3.cons₂ _, ?_⟩
          intro j y hy
          rcases List.mem_cons.1 hy with hy | hy
          · injection hy with _ hy; exact hy ▸ hx
          · exact h4 j y hy

/-- **C86.** On a compass with a decaying reservoir of `size` samples, once every call is over: every recorded duration reached the reservoir exactly
once, and if the priorities of the records are distinct, the reservoir holds exactly the `size` of them that have the highest priority (exact arithmetic,
positive draws, a clock that does not go backwards; the time at which a record counts is that of its call, moved as much as the
landmark moved while the call was under way). -/
theorem C86_decaying_kept (R : Rounding) (A : EDR.Arith) (a b : ℚ) (hA : A.Exact a b) (size : Int) (hsz : 1 ≤ size) (time tick : Int) (ht : InI64 time)
    (bi : Int) (n : Nat) (maxErr maxAdd now t1 t2 : Int) (es : List (Ev Use (In EDRConc.In)))
    (hn : (es.length : Int) < 9223372036854775808)
    (hu : ∀ i x, Ev.step i x ∈ es → (∃ q : ℚ, x.res.u = .fin q ∧ 0 < q) ∧ InI64 x.res.time)
    (hclock : (time :: resTimes es).Pairwise (· ≤ ·))
    (hq : ∀ c ∈ (used R (decaying A) ⟨EDR.new size (.fin a) time tick, []⟩ bi n maxErr maxAdd now t1 t2 es).calls, c.over = true) :
    let p := used R (decaying A) ⟨EDR.new size (.fin a) time tick, []⟩ bi n maxErr maxAdd now t1 t2 es
    let records := EDRConc.counted p.shared.res
    (records.map (·.value)).Perm ((recorded p).map Prod.fst) ∧
    ((records.map (EDR.Rec.prio b)).Nodup →
      ∃ kept, EDR.TopK b size records kept ∧ p.shared.res.shared.rsv.getValues = kept.map (EDR.relative b p.shared.res.shared.rsv.startTime)) := by
  intro p records
  have h : Inv R (decaying A) EDRConc.PC.arg bi (fun _ => True) (fun _ => True) (init ⟨EDR.new size (.fin a) time tick, []⟩ bi n maxErr maxAdd now t1 t2) p :=
    inv_all (decaying_ok A) _ n maxErr maxAdd now t1 t2 es (fun i x hx => ⟨trivial, trivial⟩)
  obtain ⟨es', e1, e2, e3, e4⟩ := res_times R A bi (init ⟨EDR.new size (.fin a) time tick, []⟩ bi n maxErr maxAdd now t1 t2) es
    (fun x => (∃ q : ℚ, x.u = .fin q ∧ 0 < q) ∧ InI64 x.time) hu
  have e1 : p.shared.res = (EDRConc.machine A).run (EDRConc.init size (.fin a) time tick) es' := e1
  constructor
  · have := perm_calls Call.resIx (fun c => c.recorded?.map Prod.fst) (fun k => (EDRConc.PC.counted k).map (·.value)) p.calls p.shared.res.calls h.resIx ?_
    · rw [recorded, List.map_filterMap]
      change (List.map _ (List.filterMap _ _)).Perm _
      rw [List.map_filterMap]
      exact this
    · intro c hc
      have hh := h.here c hc
      have ho := hq c hc
      have key : ∀ k d, EDRConc.PC.arg k = some d → (decaying A).over k = some false → (EDRConc.PC.counted k).map (·.value) = some d := by
        intro k d k1 k2
        cases k <;> simp_all [decaying, EDRConc.PC.arg, EDRConc.PC.counted]
      have key2 : ∀ k, EDRConc.PC.arg k = none → (EDRConc.PC.counted k).map (·.value) = none := by
        intro k k1
        cases k <;> simp_all [EDRConc.PC.arg, EDRConc.PC.counted]
      obtain ⟨use, pc⟩ := c
      cases pc <;> simp only [Call.over] at ho <;> try cases ho
      · obtain ⟨d, a, hu, -, -, k, k1, k2, k3⟩ := hh
        simp only at hu
        subst hu
        exact ⟨k, k1, (key k d k2 k3).symm⟩
      · obtain ⟨⟨w, hu⟩, -⟩ := hh
        simp only at hu
        subst hu; rfl
      · obtain ⟨hu, k, k1, k2, -⟩ := hh
        simp only at hu
        subst hu; exact ⟨k, k1, (key2 k k2).symm⟩
  · intro hd
    have := EDRConc.C69_exact A a b hA size hsz time tick ht es' (by omega) e4 (hclock.sublist (e3.cons₂ _))
    rw [← e1] at this
    exact this hd

/-! ## A schedule: three updates (one of them a success, one with an error code), a snapshot and a rate read, interleaved step by step -/

/-- Two updates, in turn, and a third one begins. -/
def Whole.busy1 (k : Nat) : List (Ev Use (In Int)) :=
  [.spawn (.update 7 ⟨true, "", ""⟩), .spawn (.update 9 ⟨false, "e", "x"⟩)] ++
  (List.range k).flatMap (fun t => [.step 0 ⟨200000000 * t, t, 1⟩, .step 1 ⟨200000000 * t, t, 1⟩]) ++ [.spawn (.update 5 ⟨false, "", ""⟩)]

/-- The third update, a snapshot and a rate read, in turn. -/
def Whole.busy2 (k : Nat) : List (Ev Use (In Int)) :=
  .spawn (.rate .m5) ::
  (List.range k).flatMap (fun t => [.step 2 ⟨200000000 * (t + k), t, 1⟩, .step 4 ⟨200000000 * (t + k), t, 1⟩, .step 3 ⟨0, t, 1⟩])

/-- The clocks move on all the time. -/
def Whole.busy (k : Nat) : List (Ev Use (In Int)) := busy1 k ++ .spawn .snapshot :: busy2 k

/-- All five calls finish; the snapshot begins after two updates are over and while the third is under way, the rate read ticks the averages. -/
example :
    let p := used .exact uniform { obj := UniformReservoir.new 2 } 5000000000 3 1 1 0 0 0 (Whole.busy 90)
    (∀ c ∈ p.calls, c.over = true) ∧ p.calls.length = 5 ∧ p.shared.marks.shared.total.getCount = 3 ∧
      p.shared.marks.shared.success.getCount = 1 ∧ (p.shared.marks.shared.lab false).counters.keys = ["e"] ∧
      (p.shared.ticks.shared.fed1, p.shared.ticks.shared.uncounted) = ([2, 0, 0], 1) ∧ p.shared.res.shared.obj.values = [9, 5] := by
  decide +kernel

/-- `C86_uniform_no_panic`: its hypotheses hold of this schedule. -/
example : (∀ i x, Ev.step i x ∈ Whole.busy 90 → 0 ≤ x.res) ∧
    (used .exact uniform { obj := UniformReservoir.new 2 } 5000000000 3 1 1 0 0 0 (Whole.busy 90)).calls.length < 2 ^ 63 := by
  constructor
  · intro i x hx
    simp only [Whole.busy, Whole.busy1, Whole.busy2, List.mem_append, List.mem_cons, List.not_mem_nil, List.mem_flatMap, reduceCtorEq, Ev.step.injEq, or_false, false_or] at hx
    rcases hx with ⟨t, -, ⟨-, rfl⟩ | ⟨-, rfl⟩⟩ | ⟨t, -, ⟨-, rfl⟩ | ⟨-, rfl⟩ | ⟨-, rfl⟩⟩ <;> exact Int.one_nonneg
  · decide +kernel

/-- `C86_uniform`: the snapshot of the same schedule, call 3, is begun when the first two updates are over. -/
example :
    Whole.busy 90 = Whole.busy1 90 ++ .spawn .snapshot :: Whole.busy2 90 ∧
    (finished (used .exact uniform { obj := UniformReservoir.new 2 } 5000000000 3 1 1 0 0 0 (Whole.busy1 90))).map Prod.fst = [7, 9] :=
  ⟨rfl, by decide +kernel⟩

/-- Two updates and a snapshot on a compass with a decaying reservoir. -/
def Whole.decayed : List (Ev Use (In EDRConc.In)) :=
  [.spawn (.update 7 ⟨true, "", ""⟩), .spawn (.update 9 ⟨false, "", ""⟩), .spawn .snapshot] ++
    (List.range 45).flatMap (fun _ => [.step 0 ⟨0, 0, {}⟩, .step 1 ⟨0, 0, { u := .fin (1 / 3) }⟩]) ++ List.replicate 12 (.step 2 ⟨0, 0, {}⟩)

/-- `C86_decaying`: all calls are over and both values are kept in a reservoir of two. -/
example :
    let p := used .exact (decaying EDR.demoExact) ⟨EDR.new 2 (.fin 1) 0 0, []⟩ 5000000000 3 1 1 0 0 0 Whole.decayed
    (∀ c ∈ p.calls, c.over = true) ∧ p.shared.res.shared.rsv.getValues.length = 2 := by
  decide +kernel

theorem Whole.decayed_inputs (i : Nat) (x : In EDRConc.In) (h : Ev.step i x ∈ Whole.decayed) :
    (∃ q : ℚ, x.res.u = .fin q ∧ 0 < q ∧ q < 1) ∧ x.res.time = 0 := by
  simp only [Whole.decayed, List.mem_append, List.mem_cons, List.not_mem_nil, List.mem_flatMap, List.mem_replicate, reduceCtorEq, Ev.step.injEq, or_false, false_or] at h
  rcases h with ⟨t, -, ⟨-, rfl⟩ | ⟨-, rfl⟩⟩ | ⟨-, -, rfl⟩
  · exact ⟨⟨1 / 2, rfl, by norm_num, by norm_num⟩, rfl⟩
  · exact ⟨⟨1 / 3, rfl, by norm_num, by norm_num⟩, rfl⟩
  · exact ⟨⟨1 / 2, rfl, by norm_num, by norm_num⟩, rfl⟩

/-- `C86_decaying_kept`: its hypotheses hold; a reservoir of one keeps the value with the higher priority (1 / (1 / 3) against 1 / (1 / 2)). -/
example :
    let p := used .exact (decaying EDR.demoExact) ⟨EDR.new 1 (.fin 1) 0 0, []⟩ 5000000000 3 1 1 0 0 0 Whole.decayed
    (∀ i x, Ev.step i x ∈ Whole.decayed → (∃ q : ℚ, x.res.u = .fin q ∧ 0 < q) ∧ InI64 x.res.time) ∧
    ((0 : Int) :: resTimes Whole.decayed).Pairwise (· ≤ ·) ∧ (∀ c ∈ p.calls, c.over = true) ∧
    EDRConc.counted p.shared.res = [⟨0, 1 / 3, 9⟩, ⟨0, 1 / 2, 7⟩] ∧
    p.shared.res.shared.rsv.getValues.map (·.value) = [9] := by
  refine ⟨fun i x h => ?_, ?_, ?_, ?_, ?_⟩
  · obtain ⟨⟨q, h1, h2, -⟩, h3⟩ := Whole.decayed_inputs i x h
    exact ⟨⟨q, h1, h2⟩, by rw [h3]; unfold InI64; omega⟩
  all_goals decide +kernel

end GoMetrics
