import Verif.Props.Progress
import Verif.Props.WholeCompassRes
/-! # C87 — every call of a compass can come to its end -/
namespace GoMetrics
open Machine Whole
open CompassConc (MarkArg Mark Marks marking)

namespace CompassConc

/-- Left alone, a call gets through the tick part. -/
theorem ends (bi : Int) (s : Shared) (c : PC) : (conc bi).Ends tickOver s c := by
  have hd : ∀ s u, (conc bi).Ends tickOver s (.done u) := fun s u => .now _ rfl
  have ha : ∀ s, (conc bi).Ends tickOver s .add := fun s => .step _ 0 rfl (hd _ _)
  have haf : ∀ s u, (conc bi).Ends tickOver s (after u) := by
    intro s u; cases u
    · exact hd _ _
    · exact ha _
  have hl : ∀ left s u, (conc bi).Ends tickOver s (loop u left) ∧ (∀ n, (conc bi).Ends tickOver s (.tick15 u left n)) ∧
      (∀ n, (conc bi).Ends tickOver s (.tick5 u left n)) ∧ (∀ n, (conc bi).Ends tickOver s (.tick1 u left n)) ∧
      (∀ n, (conc bi).Ends tickOver s (.take u left n)) ∧ (conc bi).Ends tickOver s (.load u left) := by
    have body : ∀ left, (∀ s u, (conc bi).Ends tickOver s (loop u left)) → ∀ s u,
        (∀ n, (conc bi).Ends tickOver s (.tick15 u left n)) ∧
        (∀ n, (conc bi).Ends tickOver s (.tick5 u left n)) ∧ (∀ n, (conc bi).Ends tickOver s (.tick1 u left n)) ∧
        (∀ n, (conc bi).Ends tickOver s (.take u left n)) ∧ (conc bi).Ends tickOver s (.load u left) := by
      intro left hloop s u
      have h15 : ∀ s n, (conc bi).Ends tickOver s (.tick15 u left n) := fun s n => .step _ 0 rfl (hloop _ u)
      have h5 : ∀ s n, (conc bi).Ends tickOver s (.tick5 u left n) := fun s n => .step _ 0 rfl (h15 _ n)
      have h1 : ∀ s n, (conc bi).Ends tickOver s (.tick1 u left n) := fun s n => .step _ 0 rfl (h5 _ n)
      have ht : ∀ s : Shared, (conc bi).Ends tickOver s (.take u left s.uncounted) := fun s =>
        .step _ 0 (s' := { s with uncounted := 0, taken := s.taken ++ [s.uncounted] }) (c' := .tick1 u left s.uncounted)
          (by simp [conc, callStep]) (h1 _ _)
      have hload : ∀ s : Shared, (conc bi).Ends tickOver s (.load u left) := fun s => .step _ 0 rfl (ht s)
      refine ⟨h15 s, h5 s, h1 s, ?_, hload s⟩
      intro n
      by_cases h : s.uncounted = n
      · exact h ▸ ht s
      · exact .step _ 0 (s' := s) (c' := .load u left) (by simp [conc, callStep, h]) (hload s)
    intro left
    induction left with
    | zero => intro s u; exact ⟨haf s u, body 0 (fun s u => haf s u) s u⟩
    | succ left ih =>
      have hloop : ∀ s u, (conc bi).Ends tickOver s (loop u (left + 1)) := fun s u => (ih s u).2.2.2.2.2
      intro s u; exact ⟨hloop s u, body (left + 1) hloop s u⟩
  have hsw : ∀ s u o n k, (conc bi).Ends tickOver s (.swap u o n k) := by
    intro s u o n k
    by_cases h : s.lastTick = o
    · exact .step _ 0 (s' := { s with lastTick := n, wins := s.wins ++ [(o, n, k)] }) (c' := loop u k) (by simp [conc, callStep, h]) (hl k _ u).1
    · exact .step _ 0 (s' := s) (c' := after u) (by simp [conc, callStep, h]) (haf _ u)
  have hrc : ∀ s u o, (conc bi).Ends tickOver s (.readClock u o) := by
    intro s u o
    by_cases h : i64 (0 - o) > Compass.tickInterval
    · exact .step _ 0 (s' := s) (c' := .swap u o (i64 (0 - (i64 (0 - o)).tmod bi)) ((i64 (0 - o)).tdiv Compass.tickInterval).toNat)
        (by simp only [conc, callStep, if_pos h]) (hsw _ _ _ _ _)
    · exact .step _ 0 (s' := s) (c' := after u) (by simp only [conc, callStep, if_neg h]) (haf _ u)
  cases c with
  | readOld u => exact .step _ 0 rfl (hrc _ _ _)
  | readClock u o => exact hrc _ _ _
  | swap u o n k => exact hsw _ _ _ _ _
  | load u l => exact (hl l s u).2.2.2.2.2
  | take u l n => exact (hl l s u).2.2.2.2.1 n
  | tick1 u l n => exact (hl l s u).2.2.2.1 n
  | tick5 u l n => exact (hl l s u).2.2.1 n
  | tick15 u l n => exact (hl l s u).2.1 n
  | add => exact ha _
  | done u => exact hd _ _

end CompassConc

namespace Whole
variable {S C A I : Type}

/-- The call is over, one way or another. -/
def Call.ended (c : Call) : Bool :=
  match c.pc with
  | .done _ _ _ | .resPanicked _ _ _ | .crashed _ _ | .got _ _ | .snapped _ => true
  | _ => false

/-- What is needed of a reservoir: its calls are free of deadlock, and a call that is over does nothing. -/
structure Stepped.Live (T : Stepped S C A I) (s0 : S) : Prop where
  idle : ∀ s x c b, T.over c = some b → T.machine.step s x c = (s, c)
  live : T.machine.NeverStuck s0 (fun c => (T.over c).isSome)

section
variable {R : Rounding} {T : Stepped S C A I} {arg : C → Option Int} (hT : T.Ok arg) {bi : Int} (hbi : 1000000000 ≤ bi) {s0 : S} (hL : T.Live s0)
  {n : Nat} {maxErr maxAdd now t1 t2 : Int} (x0 : I)

/-- `P` can be reached from `p` without new calls. -/
def Can (R : Rounding) (T : Stepped S C A I) (bi : Int) (p : Pool (Parts S C) Call) (P : Pool (Parts S C) Call → Prop) : Prop :=
  ∃ es, NoSpawn es ∧ P ((machine R T bi).run p es)

theorem Can.ref {p : Pool (Parts S C) Call} {P : Pool (Parts S C) Call → Prop} (h : P p) : Can R T bi p P := ⟨[], by intro a; simp, h⟩

theorem Can.mono {p : Pool (Parts S C) Call} {P Q : Pool (Parts S C) Call → Prop} (h : Can R T bi p P) (hq : ∀ q, P q → Q q) : Can R T bi p Q := by
  obtain ⟨es, h1, h2⟩ := h
  exact ⟨es, h1, hq _ h2⟩

/-- A pool that some schedule leads to. -/
def Rch (R : Rounding) (T : Stepped S C A I) (s0 : S) (bi : Int) (n : Nat) (maxErr maxAdd now t1 t2 : Int) (p : Pool (Parts S C) Call) : Prop :=
  ∃ es, p = used R T s0 bi n maxErr maxAdd now t1 t2 es

theorem Rch.run {p : Pool (Parts S C) Call} (h : Rch R T s0 bi n maxErr maxAdd now t1 t2 p) (es : List (Ev Use (In I))) :
    Rch R T s0 bi n maxErr maxAdd now t1 t2 ((machine R T bi).run p es) := by
  obtain ⟨es0, rfl⟩ := h
  exact ⟨es0 ++ es, by unfold used; rw [Machine.run_append]⟩

theorem Can.bind {p : Pool (Parts S C) Call} {P Q : Pool (Parts S C) Call → Prop} (hp : Rch R T s0 bi n maxErr maxAdd now t1 t2 p) (h : Can R T bi p P)
    (hq : ∀ q, Rch R T s0 bi n maxErr maxAdd now t1 t2 q → P q → Can R T bi q Q) : Can R T bi p Q := by
  obtain ⟨es, h1, h2⟩ := h
  obtain ⟨es', h3, h4⟩ := hq _ (hp.run es) h2
  exact ⟨es ++ es', h1.append h3, by rw [Machine.run_append]; exact h4⟩

theorem Can.step {p : Pool (Parts S C) Call} {P : Pool (Parts S C) Call → Prop} {i : Nat} {c c' : Call} {s' : Parts S C} (x : In I)
    (hi : p.calls[i]? = some c) (hs : callStep R T bi p.shared x c = (s', c')) (h : P ⟨s', p.calls.set i c'⟩) : Can R T bi p P := by
  refine ⟨[.step i x], by intro a; simp, ?_⟩
  change P ((machine R T bi).apply p (.step i x))
  simp only [Machine.apply, hi]
  change P ⟨(callStep R T bi p.shared x c).1, p.calls.set i (callStep R T bi p.shared x c).2⟩
  rw [hs]; exact h

theorem Rch.inv (hT : T.Ok arg) {p : Pool (Parts S C) Call} (h : Rch R T s0 bi n maxErr maxAdd now t1 t2 p) :
    Inv R T arg bi (fun _ => True) (fun _ => True) (init s0 bi n maxErr maxAdd now t1 t2) p := by
  obtain ⟨es, rfl⟩ := h
  exact inv_all hT s0 n maxErr maxAdd now t1 t2 es (fun _ _ _ => ⟨trivial, trivial⟩)

theorem set_same {α : Type} {l : List α} {i : Nat} {c : α} (h : l[i]? = some c) : l.set i c = l := by
  obtain ⟨hi, rfl⟩ := List.getElem?_eq_some_iff.1 h
  exact List.set_getElem_self hi

/-! ### The reservoir -/

theorem res_owner (hT : T.Ok arg) {p : Pool (Parts S C) Call} (hp : Rch R T s0 bi n maxErr maxAdd now t1 t2 p) {r : Nat} {q : C}
    (hq : p.shared.res.calls[r]? = some q) (ho : T.over q = none) :
    ∃ (k : Nat) (c : Call), p.calls[k]? = some c ∧ ((∃ i m, c.pc = .res i m r) ∨ c.pc = .snap r) := by
  have h := hp.inv hT
  obtain ⟨hr, -⟩ := List.getElem?_eq_some_iff.1 hq
  obtain ⟨c, hc, hix⟩ := owner h.resIx hr
  obtain ⟨k, hk, hck⟩ := List.getElem_of_mem hc
  refine ⟨k, c, by rw [List.getElem?_eq_getElem hk, hck], ?_⟩
  have hh := h.here c hc
  have no : ∀ P : C → Prop, At p.shared.res r P → (∀ q, P q → T.over q ≠ none) → False := by
    rintro P ⟨q', g1, g2⟩ hP
    rw [hq] at g1
    obtain rfl := Option.some.inj g1
    exact hP _ g2 ho
  obtain ⟨use, pc⟩ := c
  cases pc <;> simp only [Call.resIx, Option.some.injEq, reduceCtorEq] at hix
  · subst hix; exact .inl ⟨_, _, rfl⟩
  · subst hix; obtain ⟨d, a, -, -, -, g⟩ := hh
    exact (no _ g (fun q hq => by rw [hq.2]; simp)).elim
  · subst hix; exact .inr rfl
  · subst hix; obtain ⟨d, a, -, -, -, g⟩ := hh
    exact (no _ g (fun q hq => by rw [hq.2]; simp)).elim
  · subst hix; obtain ⟨d, a, -, -, -, g⟩ := hh
    exact (no _ g (fun q hq => by rw [hq.2]; simp)).elim
  · subst hix; obtain ⟨-, g⟩ := hh
    exact (no _ g (fun q hq e => by rw [e] at hq; simp at hq)).elim

/-- What calls of the reservoir can do, the calls of the compass can do. -/
theorem lift_res (hT : T.Ok arg) (hL : T.Live s0) (es' : List (Ev A I)) : NoSpawn es' → ∀ {p : Pool (Parts S C) Call},
    Rch R T s0 bi n maxErr maxAdd now t1 t2 p → Can R T bi p (fun q => q = ⟨{ p.shared with res := T.machine.run p.shared.res es' }, p.calls⟩) := by
  induction es' with
  | nil => intro _ p _; exact Can.ref rfl
  | cons e es' ih =>
    intro hns p hp
    have hns' : NoSpawn es' := fun a ha => hns a (by simp [ha])
    cases e with
    | spawn a => exact absurd (by simp) (hns a)
    | step r x =>
      have skip : T.machine.apply p.shared.res (.step r x) = p.shared.res →
          Can R T bi p (fun q => q = ⟨{ p.shared with res := T.machine.run p.shared.res (.step r x :: es') }, p.calls⟩) := by
        intro e
        rw [Machine.run_cons, e]
        exact ih hns' hp
      cases hq : p.shared.res.calls[r]? with
      | none => exact skip (by simp only [Machine.apply, hq])
      | some q =>
        cases ho : T.over q with
        | some b => exact skip (by simp only [Machine.apply, hq, hL.idle _ _ _ _ ho, set_same hq])
        | none =>
          obtain ⟨k, c, hk, hpc⟩ := res_owner hT hp hq ho
          refine Can.bind hp (P := fun q => q = ⟨{ p.shared with res := T.machine.apply p.shared.res (.step r x) }, p.calls⟩) ?_ ?_
          · refine Can.step ⟨0, 0, x⟩ (s' := { p.shared with res := T.machine.apply p.shared.res (.step r x) }) (c' := c) hk ?_ ?_
            · obtain ⟨use, pc⟩ := c
              rcases hpc with ⟨i, m, rfl⟩ | rfl
              · simp only [callStep, hq, ho]
              · simp [callStep, hq, ho]
            · rw [set_same hk]
          · rintro q hq rfl
            exact ih hns' hq

/-- The reservoir can be brought to rest. -/
theorem can_res (hT : T.Ok arg) (hL : T.Live s0) {p : Pool (Parts S C) Call} (hp : Rch R T s0 bi n maxErr maxAdd now t1 t2 p) :
    Can R T bi p (fun q => ∃ res, q = ⟨{ p.shared with res := res }, p.calls⟩ ∧ ∀ c ∈ res.calls, (T.over c).isSome = true) := by
  obtain ⟨es, h1, -⟩ := (hp.inv hT).res
  obtain ⟨after, a1, a2⟩ := hL.live es
  refine (lift_res hT hL after a1 hp).mono ?_
  rintro q rfl
  refine ⟨_, rfl, ?_⟩
  rw [h1, ← Machine.run_append]
  exact a2

/-! ### The averages -/

/-- What calls of an average can do, the calls of the compass can do. -/
theorem lift_avg (hT : T.Ok arg) (x0 : I) (w : Which) (es' : List (Ev EWMA.Op Unit)) : NoSpawn es' → ∀ {p : Pool (Parts S C) Call},
    Rch R T s0 bi n maxErr maxAdd now t1 t2 p → Can R T bi p (fun q => q = ⟨p.shared.setAvg w ((EWMA.conc R).run (p.shared.avg w) es'), p.calls⟩) := by
  have hself : ∀ p : Pool (Parts S C) Call, p.shared.setAvg w (p.shared.avg w) = p.shared := by
    intro p; simp [Parts.setAvg]
  induction es' with
  | nil => intro _ p _; exact Can.ref (by rw [Machine.run_nil, hself])
  | cons e es' ih =>
    intro hns p hp
    have hns' : NoSpawn es' := fun a ha => hns a (by simp [ha])
    cases e with
    | spawn a => exact absurd (by simp) (hns a)
    | step j x =>
      have skip : (EWMA.conc R).apply (p.shared.avg w) (.step j x) = p.shared.avg w →
          Can R T bi p (fun q => q = ⟨p.shared.setAvg w ((EWMA.conc R).run (p.shared.avg w) (.step j x :: es')), p.calls⟩) := by
        intro e
        rw [Machine.run_cons, e]
        exact ih hns' hp
      cases hq : (p.shared.avg w).calls[j]? with
      | none => exact skip (by simp only [Machine.apply, hq])
      | some q =>
        by_cases ho : avgOver q = true
        · refine skip ?_
          have : (EWMA.conc R).step (p.shared.avg w).shared x q = ((p.shared.avg w).shared, q) := by
            cases q <;> simp [avgOver] at ho
            rfl
          simp only [Machine.apply, hq, this, set_same hq]
        · obtain ⟨c, hc, i, hpc⟩ := ((hp.inv hT).owned w j q hq).resolve_left ho
          obtain ⟨k, hk, hck⟩ := List.getElem_of_mem hc
          have hk : p.calls[k]? = some c := by rw [List.getElem?_eq_getElem hk, hck]
          refine Can.bind hp (P := fun q => q = ⟨p.shared.setAvg w ((EWMA.conc R).apply (p.shared.avg w) (.step j x)), p.calls⟩) ?_ ?_
          · refine Can.step ⟨0, 0, x0⟩ (s' := p.shared.setAvg w ((EWMA.conc R).apply (p.shared.avg w) (.step j x))) (c' := c) hk ?_ ?_
            · obtain ⟨use, pc⟩ := c
              simp only at hpc
              subst hpc
              simp only [callStep, hq, if_neg ho]
            · rw [set_same hk]
          · rintro q hq rfl
            refine (ih hns' hq).mono ?_
            rintro q rfl
            simp [Parts.setAvg, Machine.run_cons]

/-- A call inside `TickN` can return from it. -/
theorem can_avg (hT : T.Ok arg) (x0 : I) {p : Pool (Parts S C) Call} (hp : Rch R T s0 bi n maxErr maxAdd now t1 t2 p) {i t j : Nat} {w : Which} {use : Use}
    (hi : p.calls[i]? = some ⟨use, .avg t w j⟩) :
    Can R T bi p (fun q => q.calls[i]? = some ⟨use, .tick t⟩ ∧ q.shared.ticks = p.shared.ticks) := by
  obtain ⟨es, h1, -⟩ := (hp.inv hT).avg w
  obtain ⟨after, a1, a2⟩ := C87_ewma R EWMA.zeroValue es
  rw [Machine.run_append, show (EWMA.conc R).run (Machine.start ⟨EWMA.zeroValue, false⟩) es = p.shared.avg w from h1.symm] at a2
  refine Can.bind hp (lift_avg hT x0 w after a1 hp) ?_
  rintro q hq rfl
  have hinv := hq.inv hT
  have hh := hinv.here _ (List.mem_of_getElem? hi)
  obtain ⟨-, -, e, he, -⟩ := hh
  have hea : ((EWMA.conc R).run (p.shared.avg w) after).calls[j]? = some e := by simpa [Parts.setAvg] using he
  have hov : avgOver e = true := by
    have g1 := a2 e (List.mem_of_getElem? hea)
    have g2 := hinv.fed w
    have g3 : countOf e ∈ (fedOf p.shared.ticks.shared w).map some := by
      have : e ∈ ((p.shared.setAvg w ((EWMA.conc R).run (p.shared.avg w) after)).avg w).calls := List.mem_of_getElem? he
      have := List.mem_map_of_mem (f := countOf) this
      rw [g2] at this
      exact this
    obtain ⟨a, -, g3⟩ := List.mem_map.1 g3
    cases e <;> simp [EWMA.PC.ended, countOf] at g1 g3 ⊢
    rfl
  refine Can.step ⟨0, 0, x0⟩ (s' := p.shared.setAvg w ((EWMA.conc R).run (p.shared.avg w) after)) (c' := ⟨use, .tick t⟩) hi
    (by simp only [callStep, he, if_pos hov]) ?_
  refine ⟨?_, rfl⟩
  simp only
  rw [List.getElem?_set_self (List.getElem?_eq_some_iff.1 hi).1]

/-! ### The ticks -/

theorem can_tick (hT : T.Ok arg) (x0 : I) {i t : Nat} {use : Use} (xs : List Int) : ∀ {p : Pool (Parts S C) Call} {c0 : CompassConc.PC},
    Rch R T s0 bi n maxErr maxAdd now t1 t2 p → p.calls[i]? = some ⟨use, .tick t⟩ → p.shared.ticks.calls[t]? = some c0 →
    tickOver ((CompassConc.conc bi).alone p.shared.ticks.shared c0 xs).2 = true →
    Can R T bi p (fun q => q.calls[i]? = some ⟨use, .tick t⟩ ∧ ∃ c, q.shared.ticks.calls[t]? = some c ∧ tickOver c = true) := by
  induction xs with
  | nil => intro p c0 _ hi ht ho; exact Can.ref ⟨hi, c0, ht, ho⟩
  | cons x xs ih =>
    intro p c0 hp hi ht ho
    by_cases hov : tickOver c0 = true
    · exact Can.ref ⟨hi, c0, ht, hov⟩
    have htl := (List.getElem?_eq_some_iff.1 ht).1
    have hil := (List.getElem?_eq_some_iff.1 hi).1
    let tk := (CompassConc.conc bi).apply p.shared.ticks (.step t x)
    have htk : tk = ⟨((CompassConc.conc bi).step p.shared.ticks.shared x c0).1,
        p.shared.ticks.calls.set t ((CompassConc.conc bi).step p.shared.ticks.shared x c0).2⟩ := by
      simp only [tk, Machine.apply, ht]
    have hnext : ∀ q, Rch R T s0 bi n maxErr maxAdd now t1 t2 q → q.calls[i]? = some ⟨use, .tick t⟩ → q.shared.ticks = tk →
        Can R T bi q (fun q => q.calls[i]? = some ⟨use, .tick t⟩ ∧ ∃ c, q.shared.ticks.calls[t]? = some c ∧ tickOver c = true) := by
      intro q hq h1 h2
      refine ih (c0 := ((CompassConc.conc bi).step p.shared.ticks.shared x c0).2) hq h1 ?_ ?_
      · rw [h2, htk]; simp only; rw [List.getElem?_set_self htl]
      · rw [h2, htk]; exact ho
    cases hf : feeds c0 with
    | none =>
      refine Can.bind hp (P := fun q => q.calls[i]? = some ⟨use, .tick t⟩ ∧ q.shared.ticks = tk)
        (Can.step ⟨x, 0, x0⟩ (s' := { p.shared with ticks := tk }) (c' := ⟨use, .tick t⟩) hi ?_ ?_) (fun q hq h => hnext q hq h.1 h.2)
      · simp only [callStep, ht, if_neg hov, hf]; rfl
      · exact ⟨by simp only; rw [List.getElem?_set_self hil], rfl⟩
    | some wn =>
      obtain ⟨w, k⟩ := wn
      refine Can.bind hp (P := fun q => q.calls[i]? = some ⟨use, .avg t w (p.shared.avg w).calls.length⟩ ∧ q.shared.ticks = tk)
        (Can.step ⟨x, 0, x0⟩ (s' := ({ p.shared with ticks := tk } : Parts S C).setAvg w ((EWMA.conc R).apply (p.shared.avg w) (.spawn (.tickN k))))
          (c' := ⟨use, .avg t w (p.shared.avg w).calls.length⟩) hi ?_ ?_) ?_
      · simp only [callStep, ht, if_neg hov, hf]; rfl
      · exact ⟨by simp only; rw [List.getElem?_set_self hil], rfl⟩
      · rintro q hq ⟨h1, h2⟩
        exact Can.bind hq (can_avg hT x0 hq h1) (fun q' hq' h => hnext q' hq' h.1 (h.2.trans h2))

/-! ### The counters -/

/-- A mutex is held only by a call that is past the reservoir. -/
def Deep (p : Pool (Parts S C) Call) : Prop :=
  ∀ (m : Nat) (k : Mark) (w : Bool), p.shared.marks.calls[m]? = some k → (CompassConc.stage w k.pc).inLock = true →
    ∃ c ∈ p.calls, ∃ i r, c.pc = .rest i m r

theorem not_over_inLock {k : Mark} {w : Bool} (h : (CompassConc.stage w k.pc).inLock = true) : markOver k = false ∧ pastTotal k = true := by
  obtain ⟨a, pc⟩ := k
  cases w <;> cases pc <;> first | exact ⟨rfl, rfl⟩ | (rename_i w'; cases w' <;> cases h) | cases h

theorem total_not_inLock (s : Marks) (t : Int) (k : Mark) (h : pastTotal k = false) (w : Bool) :
    (CompassConc.stage w (marking.step s t k).2.pc).inLock = false := by
  obtain ⟨a, pc⟩ := k
  cases pc with
  | total c =>
    change (CompassConc.stage w (CompassConc.follow (BucketCounter.callStep s.total t c).2 .total (CompassConc.atSuccess a))).inLock = false
    unfold CompassConc.follow
    split
    · unfold CompassConc.atSuccess CompassConc.atError CompassConc.atAddon
      (repeat' split) <;> cases w <;> rfl
    · cases w <;> rfl
    · cases w <;> rfl
  | _ => cases h

/-- How the counters move when a call makes a step. -/
theorem marks_moved (R : Rounding) (T : Stepped S C A I) (bi : Int) (s : Parts S C) (x : In I) (c : Call) :
    let r := callStep R T bi s x c
    (r.1.marks = s.marks ∧ (∀ i m q, c.pc = .rest i m q → r.2.pc = c.pc ∨ ∃ k, s.marks.calls[m]? = some k ∧ markOver k = true)) ∨
    ((∀ i m q, c.pc ≠ .rest i m q) ∧ ∃ a, r.1.marks = marking.apply s.marks (.spawn a)) ∨
    (∃ i m k, c.pc = .total i m ∧ s.marks.calls[m]? = some k ∧ pastTotal k = false ∧ r.1.marks = marking.apply s.marks (.step m x.time)) ∨
    (∃ i m q, c.pc = .rest i m q ∧ r.2.pc = c.pc ∧ r.1.marks = marking.apply s.marks (.step m x.time)) := by
  obtain ⟨use, pc⟩ := c
  intro r
  cases pc with
  | start =>
    cases use <;> exact .inl ⟨by first | trivial | rfl, fun _ _ _ e => nomatch e⟩
  | tick i =>
    simp only [r, callStep]
    cases s.ticks.calls[i]? with
    | none => exact .inl ⟨by first | trivial | rfl, fun _ _ _ e => nomatch e⟩
    | some t =>
      simp only
      by_cases ho : tickOver t = true
      · simp only [if_pos ho]
        cases use
        · exact .inr (.inl ⟨by simp, _, rfl⟩)
        · exact .inl ⟨by first | trivial | rfl, fun _ _ _ e => nomatch e⟩
        · exact .inl ⟨by first | trivial | rfl, fun _ _ _ e => nomatch e⟩
      · simp only [if_neg ho]
        cases feeds t with
        | none => exact .inl ⟨by first | trivial | rfl, fun _ _ _ e => nomatch e⟩
        | some wn => exact .inl ⟨by first | trivial | rfl, fun _ _ _ e => nomatch e⟩
  | avg i w j =>
    simp only [r, callStep]
    cases (s.avg w).calls[j]? with
    | none => exact .inl ⟨by first | trivial | rfl, fun _ _ _ e => nomatch e⟩
    | some e =>
      simp only
      by_cases ho : avgOver e = true
      · simp only [if_pos ho]; exact .inl ⟨by first | trivial | rfl, fun _ _ _ e => nomatch e⟩
      · simp only [if_neg ho]; exact .inl ⟨by first | trivial | rfl, fun _ _ _ e => nomatch e⟩
  | total i m =>
    simp only [r, callStep]
    cases hk : s.marks.calls[m]? with
    | none => exact .inl ⟨by first | trivial | rfl, fun _ _ _ e => nomatch e⟩
    | some k =>
      simp only
      by_cases ho : pastTotal k = true
      · simp only [if_pos ho]
        by_cases hc : k.pc = .crashed
        · simp only [if_pos hc]; exact .inl ⟨by first | trivial | rfl, fun _ _ _ e => nomatch e⟩
        · simp only [if_neg hc]
          cases use <;> exact .inl ⟨by first | trivial | rfl, fun _ _ _ e => nomatch e⟩
      · simp only [if_neg ho]
        exact .inr (.inr (.inl ⟨i, m, k, rfl, hk, by simpa using ho, rfl⟩))
  | res i m q =>
    simp only [r, callStep]
    cases s.res.calls[q]? with
    | none => exact .inl ⟨by first | trivial | rfl, fun _ _ _ e => nomatch e⟩
    | some k =>
      simp only
      cases T.over k with
      | none => exact .inl ⟨by first | trivial | rfl, fun _ _ _ e => nomatch e⟩
      | some b => cases b <;> exact .inl ⟨by first | trivial | rfl, fun _ _ _ e => nomatch e⟩
  | rest i m q =>
    simp only [r, callStep]
    cases hk : s.marks.calls[m]? with
    | none => exact .inl ⟨by first | trivial | rfl, fun _ _ _ _ => .inl (by first | trivial | rfl)⟩
    | some k =>
      simp only
      by_cases ho : markOver k = true
      · simp only [if_pos ho]
        refine .inl ⟨by first | trivial | rfl, fun _ _ _ e => .inr ?_⟩
        cases e
        exact ⟨k, hk, ho⟩
      · simp only [if_neg ho]
        exact .inr (.inr (.inr ⟨i, m, q, by first | trivial | rfl, by first | trivial | rfl, by first | trivial | rfl⟩))
  | rate i =>
    cases use <;> exact .inl ⟨by first | trivial | rfl, fun _ _ _ e => nomatch e⟩
  | snap q =>
    simp only [r, callStep]
    cases s.res.calls[q]? with
    | none => exact .inl ⟨by first | trivial | rfl, fun _ _ _ e => nomatch e⟩
    | some k =>
      simp only
      by_cases ho : (T.over k).isSome = true
      · simp only [if_pos ho]; exact .inl ⟨by first | trivial | rfl, fun _ _ _ e => nomatch e⟩
      · simp only [if_neg ho]; exact .inl ⟨by first | trivial | rfl, fun _ _ _ e => nomatch e⟩
  | _ => exact .inl ⟨by first | trivial | rfl, fun _ _ _ e => nomatch e⟩

theorem deep_apply {p : Pool (Parts S C) Call} (h : Deep p) (e : Ev Use (In I)) : Deep ((machine R T bi).apply p e) := by
  cases e with
  | spawn u =>
    intro m k w hm hl
    obtain ⟨c, hc, hpc⟩ := h m k w hm hl
    exact ⟨c, by simp only [Machine.apply]; exact List.mem_append_left _ hc, hpc⟩
  | step j x =>
    cases hj : p.calls[j]? with
    | none => simp only [Machine.apply, hj]; exact h
    | some c =>
      have hjl := (List.getElem?_eq_some_iff.1 hj).1
      simp only [Machine.apply, hj]
      change Deep ⟨(callStep R T bi p.shared x c).1, p.calls.set j (callStep R T bi p.shared x c).2⟩
      have hself : (callStep R T bi p.shared x c).2 ∈ p.calls.set j (callStep R T bi p.shared x c).2 :=
        List.mem_of_getElem? (List.getElem?_set_self hjl)
      -- an owner other than `c`, or `c` unmoved, stays an owner
      have keep : ∀ d ∈ p.calls, ∀ i m r, d.pc = .rest i m r → (c.pc = d.pc → (callStep R T bi p.shared x c).2.pc = c.pc) →
          ∃ d ∈ p.calls.set j (callStep R T bi p.shared x c).2, ∃ i r, d.pc = .rest i m r := by
        intro d hd i m r hpc hcd
        obtain ⟨l, hl, hdl⟩ := List.getElem_of_mem hd
        by_cases hjl' : j = l
        · subst hjl'
          have : c = d := by rw [List.getElem?_eq_getElem hl, hdl] at hj; exact (Option.some.inj hj).symm
          subst this
          exact ⟨_, hself, i, r, by rw [hcd rfl]; exact hpc⟩
        · refine ⟨d, List.mem_of_getElem? (i := l) ?_, i, r, hpc⟩
          rw [List.getElem?_set_ne hjl', List.getElem?_eq_getElem hl, hdl]
      intro m k w hm hl
      rcases marks_moved R T bi p.shared x c with ⟨h1, h2⟩ | ⟨h1, a, h2⟩ | ⟨i, m', k', h1, h2, h3, h4⟩ | ⟨i, m', r, h1, h2, h3⟩
      · simp only at hm
        rw [h1] at hm
        obtain ⟨d, hd, i, r, hpc⟩ := h m k w hm hl
        refine keep d hd i m r hpc fun e => ?_
        rcases h2 i m r (e.trans hpc) with g | ⟨k', g1, g2⟩
        · exact g
        · rw [hm] at g1
          obtain rfl := Option.some.inj g1
          rw [(not_over_inLock hl).1] at g2
          cases g2
      · simp only at hm
        rw [h2] at hm
        simp only [Machine.apply] at hm
        by_cases hml : m < p.shared.marks.calls.length
        · rw [List.getElem?_append_left hml] at hm
          obtain ⟨d, hd, i, r, hpc⟩ := h m k w hm hl
          exact keep d hd i m r hpc fun e => absurd (e.trans hpc) (h1 i m r)
        · rw [List.getElem?_append_right (by omega)] at hm
          obtain ⟨g1, g2⟩ := List.getElem?_eq_some_iff.1 hm
          have : k = marking.call a := by rw [← g2]; simp
          subst this
          cases w <;> cases hl
      · simp only at hm
        rw [h4] at hm
        simp only [Machine.apply, h2] at hm
        by_cases hmm : m' = m
        · subst hmm
          rw [List.getElem?_set_self (List.getElem?_eq_some_iff.1 h2).1] at hm
          obtain rfl := Option.some.inj hm
          rw [total_not_inLock _ _ _ h3] at hl
          cases hl
        · rw [List.getElem?_set_ne hmm] at hm
          obtain ⟨d, hd, i', r, hpc⟩ := h m k w hm hl
          exact keep d hd i' m r hpc fun e => by rw [← e, h1] at hpc; cases hpc
      · simp only at hm
        rw [h3] at hm
        by_cases hmm : m' = m
        · subst hmm
          exact ⟨_, hself, i, r, by rw [h2]; exact h1⟩
        · have hm' : p.shared.marks.calls[m]? = some k := by
            cases hk : p.shared.marks.calls[m']? with
            | none => simpa only [Machine.apply, hk] using hm
            | some k' => simp only [Machine.apply, hk] at hm; rwa [List.getElem?_set_ne hmm] at hm
          obtain ⟨d, hd, i', r', hpc⟩ := h m k w hm' hl
          exact keep d hd i' m r' hpc fun _ => h2

theorem Rch.deep {p : Pool (Parts S C) Call} (h : Rch R T s0 bi n maxErr maxAdd now t1 t2 p) : Deep p := by
  obtain ⟨es, rfl⟩ := h
  induction es using List.reverseRecOn with
  | nil => intro m k w hm; cases hm
  | append_singleton es e ih => unfold used at ih ⊢; rw [Machine.run_snoc]; exact deep_apply ih e

/-- Whoever holds a mutex gives it back after a few steps. -/
theorem holder_step (s : Marks) (t : Int) (k : Mark) (w : Bool) (h : (CompassConc.stage w k.pc).inLock = true) :
    ((marking.step s t k).1.lab w).held = false ∨
    ((CompassConc.stage w (marking.step s t k).2.pc).inLock = true ∧ CompassConc.markRank (marking.step s t k).2.pc < CompassConc.markRank k.pc) := by
  have hr : CompassConc.markRank (marking.step s t k).2.pc < CompassConc.markRank k.pc := by
    refine CompassConc.markStep_rank s t k ?_ ?_ ?_
    · obtain ⟨a, pc⟩ := k
      cases w <;> cases pc <;> first | rfl | (rename_i w'; cases w' <;> cases h) | cases h
    · intro e; rw [e] at h; cases w <;> cases h
    · intro w' e; rw [e] at h; cases w <;> cases w' <;> cases h
  obtain ⟨a, pc⟩ := k
  have hcase : (pc = .find w) ∨ (pc = .make w) ∨ (∃ b, pc = .insert w b) ∨ (∃ f, pc = .unlock w f) := by
    cases w <;> cases pc <;> first | (cases h; done) | (rename_i w'; cases w' <;> first | (cases h; done) | (simp; done)) |
      (rename_i w' _; cases w' <;> first | (cases h; done) | (simp; done))
  rcases hcase with rfl | rfl | ⟨b, rfl⟩ | ⟨f, rfl⟩
  · refine .inr ⟨?_, hr⟩
    change (CompassConc.stage w (CompassConc.markStep s t ⟨a, .find w⟩).2.pc).inLock = true
    simp only [CompassConc.markStep]
    (repeat' split) <;> cases w <;> rfl
  · refine .inr ⟨?_, hr⟩
    cases w <;> rfl
  · refine .inr ⟨?_, hr⟩
    cases w <;> rfl
  · refine .inl ?_
    change ((s.setLab w { s.lab w with held := false }).lab w).held = false
    rw [CompassConc.setLab_same]

/-- A held mutex can be released by others than `i`, which waits. -/
theorem can_release (x0 : I) {w : Bool} {i m : Nat} {k : Mark} {use : Use} {ti r : Nat} (N : Nat) : ∀ {p : Pool (Parts S C) Call} {m' : Nat} {k' : Mark},
    Rch R T s0 bi n maxErr maxAdd now t1 t2 p → p.calls[i]? = some ⟨use, .rest ti m r⟩ → p.shared.marks.calls[m]? = some k → k.pc = .lock w →
    p.shared.marks.calls[m']? = some k' → (CompassConc.stage w k'.pc).inLock = true → CompassConc.markRank k'.pc ≤ N →
    Can R T bi p (fun q => q.calls[i]? = some ⟨use, .rest ti m r⟩ ∧ q.shared.marks.calls[m]? = some k ∧ (q.shared.marks.shared.lab w).held = false) := by
  induction N with
  | zero =>
    intro p m' k' hp hi hm hk hm' hl hN
    obtain ⟨a, pc⟩ := k'
    cases w <;> cases pc <;> first | (cases hl; done) | (rename_i w'; cases w' <;> first | (cases hl; done) | (cases hN; done)) |
      (rename_i w' _; cases w' <;> first | (cases hl; done) | (cases hN; done))
  | succ N ih =>
    intro p m' k' hp hi hm hk hm' hl hN
    obtain ⟨c, hc, ti', r', hpc⟩ := hp.deep m' k' w hm' hl
    obtain ⟨o, hol, hoc⟩ := List.getElem_of_mem hc
    have ho : p.calls[o]? = some c := by rw [List.getElem?_eq_getElem hol, hoc]
    have hmm : m' ≠ m := by
      rintro rfl
      rw [hm] at hm'
      obtain rfl := Option.some.inj hm'
      rw [hk] at hl
      cases w <;> cases hl
    have hio : o ≠ i := by
      rintro rfl
      rw [hi] at ho
      obtain rfl := Option.some.inj ho
      injection hpc with _ h2 _
      exact hmm h2.symm
    obtain ⟨use', pc'⟩ := c
    simp only at hpc
    subst hpc
    have hml := (List.getElem?_eq_some_iff.1 hm').1
    refine Can.bind hp (P := fun q => q.calls[i]? = some ⟨use, .rest ti m r⟩ ∧ q.shared.marks.calls[m]? = some k ∧
        q.shared.marks.shared = (marking.step p.shared.marks.shared 0 k').1 ∧
        q.shared.marks.calls[m']? = some (marking.step p.shared.marks.shared 0 k').2) ?_ ?_
    · refine Can.step ⟨0, 0, x0⟩ (s' := { p.shared with marks := marking.apply p.shared.marks (.step m' 0) }) (c' := ⟨use', .rest ti' m' r'⟩) ho ?_ ?_
      · simp [callStep, hm', (not_over_inLock hl).1]
      · refine ⟨?_, ?_, ?_, ?_⟩
        · simp only; rw [List.getElem?_set_ne hio]; exact hi
        · simp only [Machine.apply, hm']; rw [List.getElem?_set_ne hmm]; exact hm
        · simp only [Machine.apply, hm']
        · simp only [Machine.apply, hm']; rw [List.getElem?_set_self hml]
    · rintro q hq ⟨g1, g2, g3, g4⟩
      rcases holder_step p.shared.marks.shared 0 k' w hl with h | ⟨h1, h2⟩
      · exact Can.ref ⟨g1, g2, by rw [g3]; exact h⟩
      · exact ih hq g1 g2 hk g4 h1 (by omega)

theorem holder (hT : T.Ok arg) {p : Pool (Parts S C) Call} (hp : Rch R T s0 bi n maxErr maxAdd now t1 t2 p) {w : Bool}
    (h : (p.shared.marks.shared.lab w).held = true) : ∃ (m' : Nat) (k' : Mark), p.shared.marks.calls[m']? = some k' ∧ (CompassConc.stage w k'.pc).inLock = true := by
  obtain ⟨es, h1, -⟩ := (hp.inv hT).marks
  have hinv := CompassConc.minv_run bi n maxErr maxAdd t1 t2 es
  change p.shared.marks = marking.run (Machine.start (Marks.new bi n maxErr maxAdd t1 t2)) es at h1
  rw [← h1] at hinv
  have hh := (hinv.lab w).held
  rw [if_pos h] at hh
  obtain ⟨m', hm', hl⟩ := List.countP_pos_iff (p := fun m : Mark => (CompassConc.stage w m.pc).inLock).1 (by rw [hh]; omega)
  obtain ⟨j, hj, hjm⟩ := List.getElem_of_mem hm'
  exact ⟨j, m', by rw [List.getElem?_eq_getElem hj, hjm], hl⟩

/-! ### One call -/

/-- Call `i` is over. -/
def Done (i : Nat) (p : Pool (Parts S C) Call) : Prop := ∃ c, p.calls[i]? = some c ∧ c.ended = true

theorem fin_now {p : Pool (Parts S C) Call} {i : Nat} {c c' : Call} {s' : Parts S C} (x0 : I)
    (hi : p.calls[i]? = some c) (hs : callStep R T bi p.shared ⟨0, 0, x0⟩ c = (s', c')) (h : c'.ended = true) : Can R T bi p (Done i) :=
  Can.step ⟨0, 0, x0⟩ hi hs ⟨c', by simp only; rw [List.getElem?_set_self (List.getElem?_eq_some_iff.1 hi).1], h⟩

theorem finished_over (k : Mark) (h : markOver k = false) : k.finished = false ∧ k.pc ≠ .crashed := by
  obtain ⟨a, pc⟩ := k
  cases pc <;> first | (cases h; done) | exact ⟨rfl, by simp⟩

theorem fin_rest (hT : T.Ok arg) (x0 : I) {use : Use} {i ti m r : Nat} (N : Nat) : ∀ {p : Pool (Parts S C) Call} {k : Mark},
    Rch R T s0 bi n maxErr maxAdd now t1 t2 p → p.calls[i]? = some ⟨use, .rest ti m r⟩ → p.shared.marks.calls[m]? = some k →
    CompassConc.markRank k.pc ≤ N → Can R T bi p (Done i) := by
  induction N with
  | zero =>
    intro p k hp hi hm hN
    have : markOver k = true := by
      obtain ⟨a, pc⟩ := k
      cases pc <;> first | rfl | (exfalso; simp [CompassConc.markRank] at hN; done) |
        (exfalso; rename_i w'; cases w' <;> simp [CompassConc.markRank] at hN; done) | (exfalso; rename_i w' _; cases w' <;> simp [CompassConc.markRank] at hN; done)
    exact fin_now x0 hi (by simp only [callStep, hm, if_pos this]; rfl) rfl
  | succ N ih =>
    intro p k hp hi hm hN
    by_cases ho : markOver k = true
    · exact fin_now x0 hi (by simp only [callStep, hm, if_pos ho]; rfl) rfl
    obtain ⟨f1, f2⟩ := finished_over k (by simpa using ho)
    have go : ∀ {p : Pool (Parts S C) Call}, Rch R T s0 bi n maxErr maxAdd now t1 t2 p → p.calls[i]? = some ⟨use, .rest ti m r⟩ → p.shared.marks.calls[m]? = some k →
        (∀ w, k.pc = .lock w → (p.shared.marks.shared.lab w).held = false) → Can R T bi p (Done i) := by
      intro p hp hi hm hw
      refine Can.bind hp (P := fun q => q.calls[i]? = some ⟨use, .rest ti m r⟩ ∧
          q.shared.marks.calls[m]? = some (marking.step p.shared.marks.shared 0 k).2) ?_ ?_
      · refine Can.step ⟨0, 0, x0⟩ (s' := { p.shared with marks := marking.apply p.shared.marks (.step m 0) }) (c' := ⟨use, .rest ti m r⟩) hi ?_ ?_
        · simp [callStep, hm, ho]
        · refine ⟨?_, ?_⟩
          · simp only; rw [List.getElem?_set_self (List.getElem?_eq_some_iff.1 hi).1]
          · simp only [Machine.apply, hm]; rw [List.getElem?_set_self (List.getElem?_eq_some_iff.1 hm).1]
      · rintro q hq ⟨g1, g2⟩
        have := CompassConc.markStep_rank p.shared.marks.shared 0 k f1 f2 hw
        exact ih hq g1 g2 (by change CompassConc.markRank (CompassConc.markStep p.shared.marks.shared 0 k).2.pc ≤ N; omega)
    by_cases hw : ∃ w, k.pc = .lock w ∧ (p.shared.marks.shared.lab w).held = true
    · obtain ⟨w, hw1, hw2⟩ := hw
      obtain ⟨m', k', h1, h2⟩ := holder hT hp hw2
      refine Can.bind hp (can_release x0 _ hp hi hm hw1 h1 h2 (le_refl _)) ?_
      rintro q hq ⟨g1, g2, g3⟩
      refine go hq g1 g2 fun w' hw' => ?_
      rw [hw1] at hw'
      injection hw' with hw'
      rw [← hw']; exact g3
    · exact go hp hi hm fun w h => by by_contra hc; exact hw ⟨w, h, by simpa using hc⟩

theorem fin_res (hT : T.Ok arg) (hL : T.Live s0) (x0 : I) {use : Use} {i ti m r : Nat} {p : Pool (Parts S C) Call}
    (hp : Rch R T s0 bi n maxErr maxAdd now t1 t2 p) (hi : p.calls[i]? = some ⟨use, .res ti m r⟩) : Can R T bi p (Done i) := by
  refine Can.bind hp (can_res hT hL hp) ?_
  rintro q hq ⟨res, rfl, hres⟩
  obtain ⟨d, a, -, -, ⟨k, hk, -⟩, ⟨c, hc, -⟩⟩ := (hq.inv hT).here _ (List.mem_of_getElem? hi)
  have hov := hres c (List.mem_of_getElem? hc)
  obtain ⟨b, hb⟩ := Option.isSome_iff_exists.1 hov
  have hil := (List.getElem?_eq_some_iff.1 hi).1
  cases b
  · refine Can.bind hq (P := fun q => q.calls[i]? = some ⟨use, .rest ti m r⟩ ∧ q.shared.marks.calls[m]? = some k)
      (Can.step ⟨0, 0, x0⟩ (s' := { p.shared with res := res }) (c' := ⟨use, .rest ti m r⟩) hi ?_ ?_) ?_
    · simp only [callStep, hc, hb]
    · exact ⟨by simp only; rw [List.getElem?_set_self hil], hk⟩
    · rintro q hq ⟨g1, g2⟩
      exact fin_rest hT x0 _ hq g1 g2 (le_refl _)
  · exact fin_now x0 hi (by simp only [callStep, hc, hb]; rfl) rfl

theorem fin_total (hT : T.Ok arg) (hL : T.Live s0) (x0 : I) {use : Use} {i ti m : Nat} (N : Nat) : ∀ {p : Pool (Parts S C) Call} {k : Mark},
    Rch R T s0 bi n maxErr maxAdd now t1 t2 p → p.calls[i]? = some ⟨use, .total ti m⟩ → p.shared.marks.calls[m]? = some k →
    CompassConc.markRank k.pc ≤ N → Can R T bi p (Done i) := by
  have past : ∀ {p : Pool (Parts S C) Call} {k : Mark}, Rch R T s0 bi n maxErr maxAdd now t1 t2 p → p.calls[i]? = some ⟨use, .total ti m⟩ →
      p.shared.marks.calls[m]? = some k → pastTotal k = true → Can R T bi p (Done i) := by
    intro p k hp hi hm ho
    by_cases hc : k.pc = .crashed
    · exact fin_now x0 hi (by simp only [callStep, hm, if_pos ho, if_pos hc]; rfl) rfl
    · obtain ⟨d, a, hu, -, -⟩ := (hp.inv hT).here _ (List.mem_of_getElem? hi)
      simp only at hu
      subst hu
      refine Can.bind hp (P := fun q => q.calls[i]? = some ⟨.update d a, .res ti m p.shared.res.calls.length⟩)
        (Can.step ⟨0, 0, x0⟩ (s' := { p.shared with res := T.machine.apply p.shared.res (.spawn (T.updateN d)) })
          (c' := ⟨.update d a, .res ti m p.shared.res.calls.length⟩) hi ?_ ?_) (fun q hq h => fin_res hT hL x0 hq h)
      · simp only [callStep, hm, if_pos ho, if_neg hc]
      · simp only; rw [List.getElem?_set_self (List.getElem?_eq_some_iff.1 hi).1]
  induction N with
  | zero =>
    intro p k hp hi hm hN
    refine past hp hi hm ?_
    obtain ⟨a, pc⟩ := k
    cases pc <;> first | rfl | (exfalso; simp [CompassConc.markRank] at hN)
  | succ N ih =>
    intro p k hp hi hm hN
    by_cases ho : pastTotal k = true
    · exact past hp hi hm ho
    have hk : ∃ c, k.pc = .total c := by
      obtain ⟨a, pc⟩ := k
      cases pc <;> first | exact ⟨_, rfl⟩ | exact absurd rfl ho
    obtain ⟨c, hk⟩ := hk
    refine Can.bind hp (P := fun q => q.calls[i]? = some ⟨use, .total ti m⟩ ∧
        q.shared.marks.calls[m]? = some (marking.step p.shared.marks.shared 0 k).2) ?_ ?_
    · refine Can.step ⟨0, 0, x0⟩ (s' := { p.shared with marks := marking.apply p.shared.marks (.step m 0) }) (c' := ⟨use, .total ti m⟩) hi ?_ ?_
      · simp [callStep, hm, ho]
      · refine ⟨?_, ?_⟩
        · simp only; rw [List.getElem?_set_self (List.getElem?_eq_some_iff.1 hi).1]
        · simp only [Machine.apply, hm]; rw [List.getElem?_set_self (List.getElem?_eq_some_iff.1 hm).1]
    · rintro q hq ⟨g1, g2⟩
      have := CompassConc.markStep_rank p.shared.marks.shared 0 k (by simp [CompassConc.Mark.finished, hk]) (by simp [hk]) (by simp [hk])
      exact ih hq g1 g2 (by change CompassConc.markRank (CompassConc.markStep p.shared.marks.shared 0 k).2.pc ≤ N; omega)

theorem fin_snap (hT : T.Ok arg) (hL : T.Live s0) (x0 : I) {use : Use} {i r : Nat} {p : Pool (Parts S C) Call}
    (hp : Rch R T s0 bi n maxErr maxAdd now t1 t2 p) (hi : p.calls[i]? = some ⟨use, .snap r⟩) : Can R T bi p (Done i) := by
  refine Can.bind hp (can_res hT hL hp) ?_
  rintro q hq ⟨res, rfl, hres⟩
  obtain ⟨-, ⟨c, hc, -⟩⟩ := (hq.inv hT).here _ (List.mem_of_getElem? hi)
  have hov := hres c (List.mem_of_getElem? hc)
  exact fin_now x0 hi (by simp only [callStep, hc, if_pos hov]; rfl) rfl

theorem fin_tick (hT : T.Ok arg) (hL : T.Live s0) (x0 : I) {use : Use} {i t : Nat} {p : Pool (Parts S C) Call}
    (hp : Rch R T s0 bi n maxErr maxAdd now t1 t2 p) (hi : p.calls[i]? = some ⟨use, .tick t⟩) : Can R T bi p (Done i) := by
  obtain ⟨hu, ⟨c0, hc0, -⟩⟩ := (hp.inv hT).here _ (List.mem_of_getElem? hi)
  obtain ⟨xs, hxs⟩ := CompassConc.ends bi p.shared.ticks.shared c0
  refine Can.bind hp (can_tick hT x0 xs hp hi hc0 hxs) ?_
  rintro q hq ⟨g1, c, g2, g3⟩
  have hil := (List.getElem?_eq_some_iff.1 g1).1
  cases use with
  | update d a =>
    refine Can.bind hq (P := fun q' => q'.calls[i]? = some ⟨.update d a, .total t q.shared.marks.calls.length⟩ ∧
        q'.shared.marks.calls[q.shared.marks.calls.length]? = some (marking.call a))
      (Can.step ⟨0, 0, x0⟩ (s' := { q.shared with marks := marking.apply q.shared.marks (.spawn a) })
        (c' := ⟨.update d a, .total t q.shared.marks.calls.length⟩) g1 ?_ ?_) (fun q' hq' h => fin_total hT hL x0 _ hq' h.1 h.2 (le_refl _))
    · simp only [callStep, g2, if_pos g3]
    · exact ⟨by simp only; rw [List.getElem?_set_self hil], by simp [Machine.apply]⟩
  | rate w =>
    refine Can.bind hq (P := fun q' => q'.calls[i]? = some ⟨.rate w, .rate t⟩)
      (Can.step ⟨0, 0, x0⟩ (s' := q.shared) (c' := ⟨.rate w, .rate t⟩) g1 ?_ ?_) (fun q' hq' h => fin_now x0 h rfl rfl)
    · simp only [callStep, g2, if_pos g3]
    · simp only; rw [List.getElem?_set_self hil]
  | snapshot => exact absurd rfl hu

/-- Every call can be brought to its end. -/
theorem fin (hT : T.Ok arg) (hL : T.Live s0) (x0 : I) {i : Nat} {c : Call} {p : Pool (Parts S C) Call}
    (hp : Rch R T s0 bi n maxErr maxAdd now t1 t2 p) (hi : p.calls[i]? = some c) : Can R T bi p (Done i) := by
  obtain ⟨use, pc⟩ := c
  have hil := (List.getElem?_eq_some_iff.1 hi).1
  have hh := (hp.inv hT).here _ (List.mem_of_getElem? hi)
  cases pc with
  | start =>
    have go : use ≠ .snapshot → Can R T bi p (Done i) := by
      intro hu
      refine Can.bind hp (P := fun q' => q'.calls[i]? = some ⟨use, .tick p.shared.ticks.calls.length⟩)
        (Can.step ⟨0, 0, x0⟩ (s' := { p.shared with ticks := (CompassConc.conc bi).apply p.shared.ticks (.spawn use.records) })
          (c' := ⟨use, .tick p.shared.ticks.calls.length⟩) hi ?_ ?_) (fun q' hq' h => fin_tick hT hL x0 hq' h)
      · cases use <;> first | rfl | exact absurd rfl hu
      · simp only; rw [List.getElem?_set_self hil]
    by_cases hu : use = .snapshot
    · subst hu
      refine Can.bind hp (P := fun q' => q'.calls[i]? = some ⟨.snapshot, .snap p.shared.res.calls.length⟩)
        (Can.step ⟨0, 0, x0⟩ (s' := { p.shared with res := T.machine.apply p.shared.res (.spawn T.snapshot) })
          (c' := ⟨.snapshot, .snap p.shared.res.calls.length⟩) hi rfl ?_) (fun q' hq' h => fin_snap hT hL x0 hq' h)
      simp only; rw [List.getElem?_set_self hil]
    · exact go hu
  | tick t => exact fin_tick hT hL x0 hp hi
  | avg t w j => exact Can.bind hp (can_avg hT x0 hp hi) (fun q hq h => fin_tick hT hL x0 hq h.1)
  | total t m =>
    obtain ⟨d, a, -, -, ⟨k, hk, -⟩⟩ := hh
    exact fin_total hT hL x0 _ hp hi hk (le_refl _)
  | res t m r => exact fin_res hT hL x0 hp hi
  | rest t m r =>
    obtain ⟨d, a, -, -, ⟨k, hk, -⟩, -⟩ := hh
    exact fin_rest hT x0 _ hp hi hk (le_refl _)
  | rate t =>
    obtain ⟨⟨w, hu⟩, -⟩ := hh
    simp only at hu
    subst hu
    exact fin_now x0 hi rfl rfl
  | snap r => exact fin_snap hT hL x0 hp hi
  | _ => exact Can.ref ⟨_, hi, rfl⟩

/-! ### All calls -/

theorem done_apply {p : Pool (Parts S C) Call} {i : Nat} (h : Done i p) (e : Ev Use (In I)) : Done i ((machine R T bi).apply p e) := by
  obtain ⟨c, hi, ho⟩ := h
  have hil := (List.getElem?_eq_some_iff.1 hi).1
  cases e with
  | spawn u => exact ⟨c, by simp only [Machine.apply]; rw [List.getElem?_append_left hil]; exact hi, ho⟩
  | step j x =>
    cases hj : p.calls[j]? with
    | none => simp only [Machine.apply, hj]; exact ⟨c, hi, ho⟩
    | some d =>
      simp only [Machine.apply, hj]
      by_cases hji : j = i
      · subst hji
        rw [hi] at hj
        obtain rfl := Option.some.inj hj
        have : (machine R T bi).step p.shared x c = (p.shared, c) := by
          obtain ⟨use, pc⟩ := c
          cases pc <;> first | rfl | cases ho
        rw [this]
        exact ⟨c, by simp only; rw [List.getElem?_set_self hil], ho⟩
      · exact ⟨c, by simp only; rw [List.getElem?_set_ne hji]; exact hi, ho⟩

theorem done_run {p : Pool (Parts S C) Call} {i : Nat} (h : Done i p) (es : List (Ev Use (In I))) : Done i ((machine R T bi).run p es) := by
  induction es generalizing p with
  | nil => exact h
  | cons e es ih => rw [Machine.run_cons]; exact ih (done_apply h e)

theorem length_run {p : Pool (Parts S C) Call} {es : List (Ev Use (In I))} (h : NoSpawn es) : ((machine R T bi).run p es).calls.length = p.calls.length := by
  induction es generalizing p with
  | nil => rfl
  | cons e es ih =>
    rw [Machine.run_cons, ih (fun a ha => h a (by simp [ha]))]
    cases e with
    | spawn a => exact absurd (by simp) (h a)
    | step j x => exact apply_length _ _

theorem all_done (hT : T.Ok arg) (hL : T.Live s0) (x0 : I) {p : Pool (Parts S C) Call} (hp : Rch R T s0 bi n maxErr maxAdd now t1 t2 p) (j : Nat)
    (hj : j ≤ p.calls.length) : ∃ es, NoSpawn es ∧ ∀ i < j, Done i ((machine R T bi).run p es) := by
  induction j with
  | zero => exact ⟨[], by intro a; simp, by intro i hi; omega⟩
  | succ j ih =>
    obtain ⟨es, h1, h2⟩ := ih (by omega)
    have hl : j < ((machine R T bi).run p es).calls.length := by rw [length_run h1]; omega
    obtain ⟨es', h3, h4⟩ := fin hT hL x0 (hp.run es) (List.getElem?_eq_getElem hl)
    refine ⟨es ++ es', h1.append h3, ?_⟩
    intro i hi
    rw [Machine.run_append]
    by_cases hij : i = j
    · subst hij; exact h4
    · exact done_run (h2 i (by omega)) es'

end
end Whole

/-- **C87.** A compass is never stuck: whatever `Update`, `UpdateWithError`, rate and `GetSnapshot` calls are under way, wherever they are,
they can all be brought to their end. -/
theorem C87_compass {S C A I : Type} (R : Rounding) (T : Stepped S C A I) (arg : C → Option Int) (hT : T.Ok arg) (s0 : S) (hL : T.Live s0) (x0 : I)
    (bi : Int) (n : Nat) (maxErr maxAdd now t1 t2 : Int) :
    (machine R T bi).NeverStuck (init s0 bi n maxErr maxAdd now t1 t2 : Pool (Parts S C) Call).shared Call.ended := by
  intro before
  have hp : Rch R T s0 bi n maxErr maxAdd now t1 t2 ((machine R T bi).run (init s0 bi n maxErr maxAdd now t1 t2) before) := ⟨before, rfl⟩
  obtain ⟨es, h1, h2⟩ := all_done hT hL x0 hp _ (le_refl _)
  refine ⟨es, h1, ?_⟩
  intro c hc
  rw [Machine.run_append] at hc
  change c ∈ ((machine R T bi).run ((machine R T bi).run (init s0 bi n maxErr maxAdd now t1 t2) before) es).calls at hc
  obtain ⟨i, hi, hic⟩ := List.getElem_of_mem hc
  obtain ⟨d, hd, ho⟩ := h2 i (by rw [length_run h1] at hi; exact hi)
  rw [List.getElem?_eq_getElem hi, hic] at hd
  obtain rfl := Option.some.inj hd
  exact ho

theorem Whole.uniform_live (u : UniformReservoir) : uniform.Live { obj := u } where
  idle s x c b h := by
    cases c <;> first | rfl | cases h
  live := by
    intro before
    obtain ⟨after, h1, h2⟩ := C87_uniform u before
    refine ⟨after, h1, fun c hc => ?_⟩
    have := h2 c hc
    cases c <;> first | rfl | cases this

theorem Whole.decaying_live (A : EDR.Arith) (s : EDRConc.Shared) : (decaying A).Live s where
  idle s x c b h := by
    cases c <;> first | rfl | cases h
  live := by
    intro before
    obtain ⟨after, h1, h2⟩ := (C87_decaying A s).neverStuck _ {} before
    refine ⟨after, h1, fun c hc => ?_⟩
    have := h2 c hc
    cases c <;> first | rfl | cases this

/-- **C87.** A compass with a uniform reservoir is never stuck. -/
theorem C87_compass_uniform (R : Rounding) (u : UniformReservoir) (bi : Int) (n : Nat) (maxErr maxAdd now t1 t2 : Int) (before : List (Ev Use (In Int))) :
    ∃ after, NoSpawn after ∧ ∀ c ∈ (used R uniform { obj := u } bi n maxErr maxAdd now t1 t2 (before ++ after)).calls, c.ended = true :=
  C87_compass R uniform uniformArg uniform_ok _ (uniform_live u) 0 bi n maxErr maxAdd now t1 t2 before

/-- **C87.** A compass with a decaying reservoir is never stuck. -/
theorem C87_compass_decaying (R : Rounding) (A : EDR.Arith) (s : EDRConc.Shared) (bi : Int) (n : Nat) (maxErr maxAdd now t1 t2 : Int)
    (before : List (Ev Use (In EDRConc.In))) :
    ∃ after, NoSpawn after ∧ ∀ c ∈ (used R (decaying A) s bi n maxErr maxAdd now t1 t2 (before ++ after)).calls, c.ended = true :=
  C87_compass R (decaying A) EDRConc.PC.arg (decaying_ok A) _ (decaying_live A s) {} bi n maxErr maxAdd now t1 t2 before

/-- Two updates with the same error code, both under way: the first holds the mutex of the error codes, the second waits for it and cannot move;
let the first go on, and both come to their end. -/
example :
    let one (i k : Nat) : List (Ev Use (In Int)) := List.replicate k (.step i ⟨0, 0, 1⟩)
    let before := [.spawn (.update 7 ⟨false, "e", ""⟩), .spawn (.update 9 ⟨false, "e", ""⟩)] ++ one 0 22 ++ one 1 100
    let p := used .exact uniform { obj := UniformReservoir.new 2 } 5000000000 3 1 1 0 0 0 before
    let q := used .exact uniform { obj := UniformReservoir.new 2 } 5000000000 3 1 1 0 0 0 (before ++ (one 0 100 ++ one 1 100))
    (p.shared.marks.shared.lab false).held = true ∧ (∀ c ∈ p.calls, c.ended = false) ∧
      p.shared.marks.calls.map Mark.pc = [.find false, .lock false] ∧ ∀ c ∈ q.calls, c.ended = true := by
  decide +kernel

end GoMetrics
