import Verif.Props.FairWhole
import Verif.Props.FairBucket
import Verif.Props.WholeWild
import Verif.Props.WholeBucketWild
/-! # C110 — with such loads too, under a fair scheduler every call of a compass ends

The proofs are those of Props/WholeProgress.lean and Props/FairWhole.lean, for the machines of Model/CompassWild.lean. -/
namespace GoMetrics
open Machine Whole
open CompassConc (MarkArg Mark Marks markRank TickSeen)
open BucketCounter (Seen)

namespace CompassConc
open BucketCounter (wildStep)

/-- What a step of a tick does, if not a load of `lastTick`, does not depend on plain loads. -/
theorem wildTick_eq (bi : Int) (s : Shared) (x : TickSeen) (c : PC) (h : ∀ u, c ≠ .readOld u) : (wildConc bi).step s x c = (conc bi).step s x.clock c := by
  cases c <;> first | rfl | exact absurd rfl (h _)

/-- Why calls get through the tick part: every step brings a call forward. -/
def wildRanked (bi : Int) (s0 : Shared) : (wildConc bi).Ranked s0 tickOver (fun _ => True) where
  ok _ _ := True
  ok_run _ _ _ := trivial
  b := 2
  ch := PC.changes
  r := fun s c => c.left s
  help _ c := tickOver c = false
  move s x c _ := by
    by_cases h : ∃ u, c = .readOld u
    · obtain ⟨u, rfl⟩ := h
      exact .on (s' := s) (c' := .readClock u x.last) rfl (by simp [PC.changes]) (fun _ => le_refl _) (by simp only [PC.left]; omega)
    · have := (ranked bi s0).move s x.clock c trivial
      rw [wildTick_eq bi s x c (fun u hu => h ⟨u, hu⟩)]
      exact this
  some es := by
    rintro ⟨c, hc, ho⟩
    exact ⟨c, hc, ho, ho⟩
  idle s x c h := by cases c <;> first | rfl | cases h

theorem wildStep_rank (b : BucketCounter) (t : Seen) (c : BucketCounter.Call) : callRank (wildStep b t c).2.pc ≤ callRank c.pc - 1 := by
  unfold wildStep
  split
  · exact callStep_rank _ _ _
  · exact callStep_rank _ _ _

theorem wildStep_rank_lt (b : BucketCounter) (t : Seen) (c : BucketCounter.Call) (go : BucketCounter.Call → MarkPC) (next : MarkPC) (K : Nat)
    (hgo : ∀ c, markRank (go c) = K + callRank c.pc) (hK : markRank next < K) :
    markRank (follow (wildStep b t c).2 go next) < K + callRank c.pc := by
  have h := wildStep_rank b t c
  unfold follow
  split
  · omega
  · simp only [markRank]; omega
  · rename_i h1 h2
    rw [hgo]
    have : callRank (wildStep b t c).2.pc ≠ 0 ∨ callRank c.pc ≠ 0 := by
      left
      cases hp : (wildStep b t c).2.pc <;> simp_all [callRank]
    omega

end CompassConc

namespace WholeWild
variable {S C A I : Type}

/-- A step of an unfinished call brings it nearer its end, unless it waits for a mutex that is held. -/
theorem mark_rank (s : Marks) (t : Seen) (m : Mark) (hf : m.finished = false) (hc : m.pc ≠ .crashed)
    (hw : ∀ w, m.pc = .lock w → (s.lab w).held = false) : markRank (CompassConc.wildMarking.step s t m).2.pc < markRank m.pc := by
  simp only [CompassConc.wildMarking]
  unfold CompassConc.markStepBy
  cases hpc : m.pc with
  | total c =>
    exact CompassConc.wildStep_rank_lt s.total t c _ (CompassConc.atSuccess m.arg) 42 (fun _ => rfl) (by have := CompassConc.rank_atSuccess m.arg; omega)
  | success c =>
    exact CompassConc.wildStep_rank_lt s.success t c _ (CompassConc.atError m.arg) 32 (fun _ => rfl) (by have := CompassConc.rank_atError m.arg; omega)
  | lock w =>
    simp only [hw w hpc, Bool.false_eq_true, if_false]
    cases w <;> simp [markRank]
  | find w =>
    simp only
    (repeat' split) <;> cases w <;> simp [markRank]
  | make w => cases w <;> simp [markRank]
  | insert w b => cases w <;> simp [markRank]
  | unlock w f => cases f <;> cases w <;> simp [markRank, CompassConc.callRank]
  | hit w c =>
    simp only
    split
    · cases w <;> simp [markRank]
    · cases w
      · exact CompassConc.wildStep_rank_lt _ t c _ (CompassConc.atAddon m.arg) 16 (fun _ => rfl) (by have := CompassConc.rank_atAddon m.arg; omega)
      · exact CompassConc.wildStep_rank_lt _ t c _ .done 1 (fun _ => rfl) (by simp [markRank])
  | done => simp [Mark.finished, hpc] at hf
  | panicked w => simp [Mark.finished, hpc] at hf
  | crashed => exact absurd hpc hc

/-- A call that is over, or waits for a held mutex, does nothing. -/
theorem mark_stuck (s : Marks) (t : Seen) (m : Mark)
    (h : m.finished = true ∨ m.pc = .crashed ∨ ∃ w, m.pc = .lock w ∧ (s.lab w).held = true) : CompassConc.wildMarking.step s t m = (s, m) := by
  simp only [CompassConc.wildMarking]
  unfold CompassConc.markStepBy
  rcases h with h | h | ⟨w, h, h'⟩
  · cases hpc : m.pc <;> simp [Mark.finished, hpc] at h <;> rfl
  · rw [h]
  · rw [h]; simp only [h', if_true]

/-- A step of a call. -/
abbrev step (R : Rounding) (T : Stepped S C A I) (bi : Int) (s : Parts S C) (x : InBy TickSeen Seen I) (c : Call) : Parts S C × Call :=
  callStepBy R T (CompassConc.wildConc bi) CompassConc.wildMarking (fun any r => any.getD r) s x c

section
variable {R : Rounding} {T : Stepped S C A I} {arg : C → Option Int} {bi : Int} {s0 : S}
  {n : Nat} {maxErr maxAdd now t1 t2 : Int}

/-- A pool that some schedule leads to. -/
def Rch (R : Rounding) (T : Stepped S C A I) (s0 : S) (bi : Int) (n : Nat) (maxErr maxAdd now t1 t2 : Int) (p : Pool (Parts S C) Call) : Prop :=
  ∃ es, p = wildlyUsed R T s0 bi n maxErr maxAdd now t1 t2 es

theorem Rch.run {p : Pool (Parts S C) Call} (h : Rch R T s0 bi n maxErr maxAdd now t1 t2 p) (es : List (Ev Use (InBy TickSeen Seen I))) :
    Rch R T s0 bi n maxErr maxAdd now t1 t2 ((wildMachine R T bi).run p es) := by
  obtain ⟨es0, rfl⟩ := h
  exact ⟨es0 ++ es, by unfold wildlyUsed; rw [Machine.run_append]⟩

theorem Rch.inv (hT : T.Ok arg) {p : Pool (Parts S C) Call} (h : Rch R T s0 bi n maxErr maxAdd now t1 t2 p) :
    Inv R T arg bi (fun _ => True) (fun _ => True) (init s0 bi n maxErr maxAdd now t1 t2) p := by
  obtain ⟨es, rfl⟩ := h
  exact inv_all hT s0 n maxErr maxAdd now t1 t2 es (fun _ _ _ => ⟨trivial, trivial⟩)

theorem res_owner (hT : T.Ok arg) {p : Pool (Parts S C) Call} (hp : Rch R T s0 bi n maxErr maxAdd now t1 t2 p) {r : Nat} {q : C}
    (hq : p.shared.res.calls[r]? = some q) (ho : T.over q = none) :
    ∃ (k : Nat) (c : Call), p.calls[k]? = some c ∧ ((∃ i m, c.pc = .res i m r) ∨ c.pc = .snap r) := by
  have h := hp.inv hT
  obtain ⟨hr, -⟩ := List.getElem?_eq_some_iff.1 hq
  obtain ⟨c, hc, hix⟩ := owner h.resIx hr
  obtain ⟨k, hk, hck⟩ := List.getElem_of_mem hc
  refine ⟨k, c, by rw [List.getElem?_eq_getElem hk, hck], ?_⟩
  have hh := h.here c hc
  have no : ∀ P : C → Prop, At p.shared.res r P → (∀ q, P q → T.over q ≠ none) → False := by
    rintro P ⟨q', g1, g2⟩ hP
    rw [hq] at g1
    obtain rfl := Option.some.inj g1
    exact hP _ g2 ho
  obtain ⟨use, pc⟩ := c
  cases pc <;> simp only [Call.resIx, Option.some.injEq, reduceCtorEq] at hix
  · subst hix; exact .inl ⟨_, _, rfl⟩
  · subst hix; obtain ⟨d, a, -, -, -, g⟩ := hh
    exact (no _ g (fun q hq => by rw [hq.2]; simp)).elim
  · subst hix; exact .inr rfl
  · subst hix; obtain ⟨d, a, -, -, -, g⟩ := hh
    exact (no _ g (fun q hq => by rw [hq.2]; simp)).elim
  · subst hix; obtain ⟨d, a, -, -, -, g⟩ := hh
    exact (no _ g (fun q hq => by rw [hq.2]; simp)).elim
  · subst hix; obtain ⟨-, g⟩ := hh
    exact (no _ g (fun q hq e => by rw [e] at hq; simp at hq)).elim

theorem total_not_inLock (s : Marks) (t : Seen) (k : Mark) (h : pastTotal k = false) (w : Bool) :
    (CompassConc.stage w (CompassConc.wildMarking.step s t k).2.pc).inLock = false := by
  obtain ⟨a, pc⟩ := k
  cases pc with
  | total c =>
    change (CompassConc.stage w (CompassConc.follow (BucketCounter.wildStep s.total t c).2 .total (CompassConc.atSuccess a))).inLock = false
    unfold CompassConc.follow
    split
    · unfold CompassConc.atSuccess CompassConc.atError CompassConc.atAddon
      (repeat' split) <;> cases w <;> rfl
    · cases w <;> rfl
    · cases w <;> rfl
  | _ => cases h

/-- How the counters move when a call makes a step. -/
theorem marks_moved (R : Rounding) (T : Stepped S C A I) (bi : Int) (s : Parts S C) (x : InBy TickSeen Seen I) (c : Call) :
    let r := step R T bi s x c
    (r.1.marks = s.marks ∧ (∀ i m q, c.pc = .rest i m q → r.2.pc = c.pc ∨ ∃ k, s.marks.calls[m]? = some k ∧ markOver k = true)) ∨
    ((∀ i m q, c.pc ≠ .rest i m q) ∧ ∃ a, r.1.marks = CompassConc.wildMarking.apply s.marks (.spawn a)) ∨
    (∃ i m k, c.pc = .total i m ∧ s.marks.calls[m]? = some k ∧ pastTotal k = false ∧ r.1.marks = CompassConc.wildMarking.apply s.marks (.step m x.time)) ∨
    (∃ i m q, c.pc = .rest i m q ∧ r.2.pc = c.pc ∧ r.1.marks = CompassConc.wildMarking.apply s.marks (.step m x.time)) := by
  obtain ⟨use, pc⟩ := c
  intro r
  cases pc with
  | start =>
    cases use <;> exact .inl ⟨by first | trivial | rfl, fun _ _ _ e => nomatch e⟩
  | tick i =>
    simp only [r, step, callStepBy]
    cases s.ticks.calls[i]? with
    | none => exact .inl ⟨by first | trivial | rfl, fun _ _ _ e => nomatch e⟩
    | some t =>
      simp only
      by_cases ho : tickOver t = true
      · simp only [if_pos ho]
        cases use
        · exact .inr (.inl ⟨by simp, _, rfl⟩)
        · exact .inl ⟨by first | trivial | rfl, fun _ _ _ e => nomatch e⟩
        · exact .inl ⟨by first | trivial | rfl, fun _ _ _ e => nomatch e⟩
      · simp only [if_neg ho]
        cases feeds t with
        | none => exact .inl ⟨by first | trivial | rfl, fun _ _ _ e => nomatch e⟩
        | some wn => exact .inl ⟨by first | trivial | rfl, fun _ _ _ e => nomatch e⟩
  | avg i w j =>
    simp only [r, step, callStepBy]
    cases (s.avg w).calls[j]? with
    | none => exact .inl ⟨by first | trivial | rfl, fun _ _ _ e => nomatch e⟩
    | some e =>
      simp only
      by_cases ho : avgOver e = true
      · simp only [if_pos ho]; exact .inl ⟨by first | trivial | rfl, fun _ _ _ e => nomatch e⟩
      · simp only [if_neg ho]; exact .inl ⟨by first | trivial | rfl, fun _ _ _ e => nomatch e⟩
  | total i m =>
    simp only [r, step, callStepBy]
    cases hk : s.marks.calls[m]? with
    | none => exact .inl ⟨by first | trivial | rfl, fun _ _ _ e => nomatch e⟩
    | some k =>
      simp only
      by_cases ho : pastTotal k = true
      · simp only [if_pos ho]
        by_cases hc : k.pc = .crashed
        · simp only [if_pos hc]; exact .inl ⟨by first | trivial | rfl, fun _ _ _ e => nomatch e⟩
        · simp only [if_neg hc]
          cases use <;> exact .inl ⟨by first | trivial | rfl, fun _ _ _ e => nomatch e⟩
      · simp only [if_neg ho]
        exact .inr (.inr (.inl ⟨i, m, k, rfl, hk, by simpa using ho, rfl⟩))
  | res i m q =>
    simp only [r, step, callStepBy]
    cases s.res.calls[q]? with
    | none => exact .inl ⟨by first | trivial | rfl, fun _ _ _ e => nomatch e⟩
    | some k =>
      simp only
      cases T.over k with
      | none => exact .inl ⟨by first | trivial | rfl, fun _ _ _ e => nomatch e⟩
      | some b => cases b <;> exact .inl ⟨by first | trivial | rfl, fun _ _ _ e => nomatch e⟩
  | rest i m q =>
    simp only [r, step, callStepBy]
    cases hk : s.marks.calls[m]? with
    | none => exact .inl ⟨by first | trivial | rfl, fun _ _ _ _ => .inl (by first | trivial | rfl)⟩
    | some k =>
      simp only
      by_cases ho : markOver k = true
      · simp only [if_pos ho]
        refine .inl ⟨by first | trivial | rfl, fun _ _ _ e => .inr ?_⟩
        cases e
        exact ⟨k, hk, ho⟩
      · simp only [if_neg ho]
        exact .inr (.inr (.inr ⟨i, m, q, by first | trivial | rfl, by first | trivial | rfl, by first | trivial | rfl⟩))
  | rate i =>
    cases use <;> exact .inl ⟨by first | trivial | rfl, fun _ _ _ e => nomatch e⟩
  | snap q =>
    simp only [r, step, callStepBy]
    cases s.res.calls[q]? with
    | none => exact .inl ⟨by first | trivial | rfl, fun _ _ _ e => nomatch e⟩
    | some k =>
      simp only
      by_cases ho : (T.over k).isSome = true
      · simp only [if_pos ho]; exact .inl ⟨by first | trivial | rfl, fun _ _ _ e => nomatch e⟩
      · simp only [if_neg ho]; exact .inl ⟨by first | trivial | rfl, fun _ _ _ e => nomatch e⟩
  | _ => exact .inl ⟨by first | trivial | rfl, fun _ _ _ e => nomatch e⟩

theorem deep_apply {p : Pool (Parts S C) Call} (h : Deep p) (e : Ev Use (InBy TickSeen Seen I)) : Deep ((wildMachine R T bi).apply p e) := by
  cases e with
  | spawn u =>
    intro m k w hm hl
    obtain ⟨c, hc, hpc⟩ := h m k w hm hl
    exact ⟨c, by simp only [Machine.apply]; exact List.mem_append_left _ hc, hpc⟩
  | step j x =>
    cases hj : p.calls[j]? with
    | none => simp only [Machine.apply, hj]; exact h
    | some c =>
      have hjl := (List.getElem?_eq_some_iff.1 hj).1
      simp only [Machine.apply, hj]
      change Deep ⟨(step R T bi p.shared x c).1, p.calls.set j (step R T bi p.shared x c).2⟩
      have hself : (step R T bi p.shared x c).2 ∈ p.calls.set j (step R T bi p.shared x c).2 :=
        List.mem_of_getElem? (List.getElem?_set_self hjl)
      -- an owner other than `c`, or `c` unmoved, stays an owner
      have keep : ∀ d ∈ p.calls, ∀ i m r, d.pc = .rest i m r → (c.pc = d.pc → (step R T bi p.shared x c).2.pc = c.pc) →
          ∃ d ∈ p.calls.set j (step R T bi p.shared x c).2, ∃ i r, d.pc = .rest i m r := by
        intro d hd i m r hpc hcd
        obtain ⟨l, hl, hdl⟩ := List.getElem_of_mem hd
        by_cases hjl' : j = l
        · subst hjl'
          have : c = d := by rw [List.getElem?_eq_getElem hl, hdl] at hj; exact (Option.some.inj hj).symm
          subst this
          exact ⟨_, hself, i, r, by rw [hcd rfl]; exact hpc⟩
        · refine ⟨d, List.mem_of_getElem? (i := l) ?_, i, r, hpc⟩
          rw [List.getElem?_set_ne hjl', List.getElem?_eq_getElem hl, hdl]
      intro m k w hm hl
      rcases marks_moved R T bi p.shared x c with ⟨h1, h2⟩ | ⟨h1, a, h2⟩ | ⟨i, m', k', h1, h2, h3, h4⟩ | ⟨i, m', r, h1, h2, h3⟩
      · simp only at hm
        rw [h1] at hm
        obtain ⟨d, hd, i, r, hpc⟩ := h m k w hm hl
        refine keep d hd i m r hpc fun e => ?_
        rcases h2 i m r (e.trans hpc) with g | ⟨k', g1, g2⟩
        · exact g
        · rw [hm] at g1
          obtain rfl := Option.some.inj g1
          rw [(not_over_inLock hl).1] at g2
          cases g2
      · simp only at hm
        rw [h2] at hm
        simp only [Machine.apply] at hm
        by_cases hml : m < p.shared.marks.calls.length
        · rw [List.getElem?_append_left hml] at hm
          obtain ⟨d, hd, i, r, hpc⟩ := h m k w hm hl
          exact keep d hd i m r hpc fun e => absurd (e.trans hpc) (h1 i m r)
        · rw [List.getElem?_append_right (by omega)] at hm
          obtain ⟨g1, g2⟩ := List.getElem?_eq_some_iff.1 hm
          have : k = CompassConc.wildMarking.call a := by rw [← g2]; simp
          subst this
          cases w <;> cases hl
      · simp only at hm
        rw [h4] at hm
        simp only [Machine.apply, h2] at hm
        by_cases hmm : m' = m
        · subst hmm
          rw [List.getElem?_set_self (List.getElem?_eq_some_iff.1 h2).1] at hm
          obtain rfl := Option.some.inj hm
          rw [total_not_inLock _ _ _ h3] at hl
          cases hl
        · rw [List.getElem?_set_ne hmm] at hm
          obtain ⟨d, hd, i', r, hpc⟩ := h m k w hm hl
          exact keep d hd i' m r hpc fun e => by rw [← e, h1] at hpc; cases hpc
      · simp only at hm
        rw [h3] at hm
        by_cases hmm : m' = m
        · subst hmm
          exact ⟨_, hself, i, r, by rw [h2]; exact h1⟩
        · have hm' : p.shared.marks.calls[m]? = some k := by
            cases hk : p.shared.marks.calls[m']? with
            | none => simpa only [Machine.apply, hk] using hm
            | some k' => simp only [Machine.apply, hk] at hm; rwa [List.getElem?_set_ne hmm] at hm
          obtain ⟨d, hd, i', r', hpc⟩ := h m k w hm' hl
          exact keep d hd i' m r' hpc fun _ => h2

theorem Rch.deep {p : Pool (Parts S C) Call} (h : Rch R T s0 bi n maxErr maxAdd now t1 t2 p) : Deep p := by
  obtain ⟨es, rfl⟩ := h
  induction es using List.reverseRecOn with
  | nil => intro m k w hm; cases hm
  | append_singleton es e ih => unfold wildlyUsed at ih ⊢; rw [Machine.run_snoc]; exact deep_apply ih e

theorem holder (hT : T.Ok arg) {p : Pool (Parts S C) Call} (hp : Rch R T s0 bi n maxErr maxAdd now t1 t2 p) {w : Bool}
    (h : (p.shared.marks.shared.lab w).held = true) : ∃ (m' : Nat) (k' : Mark), p.shared.marks.calls[m']? = some k' ∧ (CompassConc.stage w k'.pc).inLock = true := by
  obtain ⟨es, h1, -⟩ := (hp.inv hT).marks
  have hinv := CompassWild.minv_run bi n maxErr maxAdd t1 t2 es
  change p.shared.marks = CompassConc.wildMarking.run (Machine.start (Marks.new bi n maxErr maxAdd t1 t2)) es at h1
  rw [← h1] at hinv
  have hh := (hinv.lab w).held
  rw [if_pos h] at hh
  obtain ⟨m', hm', hl⟩ := List.countP_pos_iff (p := fun m : Mark => (CompassConc.stage w m.pc).inLock).1 (by rw [hh]; omega)
  obtain ⟨j, hj, hjm⟩ := List.getElem_of_mem hm'
  exact ⟨j, m', by rw [List.getElem?_eq_getElem hj, hjm], hl⟩


end
section
variable {R : Rounding} {T : Stepped S C A I} {arg : C → Option Int} {bi : Int} {s0 : S} {n : Nat} {maxErr maxAdd now t1 t2 : Int} {good : I → Prop}
  {Ft : (CompassConc.wildConc bi).Fairly { lastTick := now, uncounted := 0 } tickOver (fun _ => True)}
  {Fe : (EWMA.conc R).Fairly ⟨EWMA.zeroValue, false⟩ EWMA.PC.ended (fun _ => True)}
  {Fr : T.machine.Fairly s0 (fun c => (T.over c).isSome) good}

/-- What is left to do inside the averages, the counters and the reservoir. -/
def within (Fe : (EWMA.conc R).Fairly ⟨EWMA.zeroValue, false⟩ EWMA.PC.ended (fun _ => True)) (Fr : T.machine.Fairly s0 (fun c => (T.over c).isSome) good) (s : Parts S C) : Nat :=
  Fe.μ (s.avg .m1) + Fe.μ (s.avg .m5) +
    Fe.μ (s.avg .m15) + CompassConc.ranks s.marks + Fr.μ s.res

/-- The measure: first the parts still ahead, then what is left of the ticks, then the rest. -/
def measure (Ft : (CompassConc.wildConc bi).Fairly { lastTick := now, uncounted := 0 } tickOver (fun _ => True))
    (Fe : (EWMA.conc R).Fairly ⟨EWMA.zeroValue, false⟩ EWMA.PC.ended (fun _ => True)) (Fr : T.machine.Fairly s0 (fun c => (T.over c).isSome) good) (p : Pool (Parts S C) Call) : ℕ ×ₗ ℕ ×ₗ ℕ :=
  toLex ((p.calls.map fun c => c.pc.stage).sum, toLex (Ft.μ p.shared.ticks,
    within Fe Fr p.shared + (p.calls.map fun c => c.pc.inAvg).sum))

/-- Calls whose next turn, if it is a good one, makes the measure smaller. -/
def Helpful (Fe : (EWMA.conc R).Fairly ⟨EWMA.zeroValue, false⟩ EWMA.PC.ended (fun _ => True)) (Fr : T.machine.Fairly s0 (fun c => (T.over c).isSome) good) (s : Parts S C) (c : Call) : Prop :=
  match c.pc with
  | .start | .tick _ | .total _ _ | .rate _ => True
  | .avg _ w j => (At (s.avg w) j fun e => avgOver e = true) ∨ Fe.H (s.avg w) j
  | .res _ _ r | .snap r => (At s.res r fun q => (T.over q).isSome = true) ∨ Fr.H s.res r
  | .rest _ m _ => At s.marks m fun k => ∀ w, k.pc = .lock w → (s.marks.shared.lab w).held = false
  | .done _ _ _ | .resPanicked _ _ _ | .crashed _ _ | .got _ _ | .snapped _ => False

theorem measure_lt1 {p : Pool (Parts S C) Call} {i : Nat} {c c' : Call} {s' : Parts S C}
    (hi : p.calls[i]? = some c) (h : c'.pc.stage < c.pc.stage) : measure Ft Fe Fr ⟨s', p.calls.set i c'⟩ < measure Ft Fe Fr p := by
  rw [measure, measure, Prod.Lex.toLex_lt_toLex]
  left
  have := sum_set (fun c : Call => c.pc.stage) c' hi
  simp only at this ⊢
  omega

theorem measure_lt2 {p : Pool (Parts S C) Call} {i : Nat} {c c' : Call} {s' : Parts S C}
    (hi : p.calls[i]? = some c) (h : c'.pc.stage = c.pc.stage)
    (ht : Ft.μ s'.ticks < Ft.μ p.shared.ticks) :
    measure Ft Fe Fr ⟨s', p.calls.set i c'⟩ < measure Ft Fe Fr p := by
  rw [measure, measure, Prod.Lex.toLex_lt_toLex]
  right
  have := sum_set (fun c : Call => c.pc.stage) c' hi
  refine ⟨by simp only at this ⊢; omega, ?_⟩
  rw [Prod.Lex.toLex_lt_toLex]
  exact .inl ht

theorem measure_3 {p : Pool (Parts S C) Call} {i : Nat} {c c' : Call} {s' : Parts S C}
    (hi : p.calls[i]? = some c) (h : c'.pc.stage = c.pc.stage) (ht : s'.ticks = p.shared.ticks) :
    (within Fe Fr s' + c'.pc.inAvg < within Fe Fr p.shared + c.pc.inAvg → measure Ft Fe Fr ⟨s', p.calls.set i c'⟩ < measure Ft Fe Fr p) ∧
    (within Fe Fr s' + c'.pc.inAvg ≤ within Fe Fr p.shared + c.pc.inAvg → measure Ft Fe Fr ⟨s', p.calls.set i c'⟩ ≤ measure Ft Fe Fr p) := by
  have e1 := sum_set (fun c : Call => c.pc.stage) c' hi
  have e2 := sum_set (fun c : Call => c.pc.inAvg) c' hi
  have e3 : ((p.calls.set i c').map fun c => c.pc.stage).sum = (p.calls.map fun c => c.pc.stage).sum := by omega
  constructor
  · intro g
    rw [measure, measure, Prod.Lex.toLex_lt_toLex]
    refine .inr ⟨e3, ?_⟩
    rw [Prod.Lex.toLex_lt_toLex]
    refine .inr ⟨by simp only [ht], ?_⟩
    simp only; omega
  · intro g
    rw [measure, measure, Prod.Lex.toLex_le_toLex]
    refine .inr ⟨e3, ?_⟩
    rw [Prod.Lex.toLex_le_toLex]
    refine .inr ⟨by simp only [ht], ?_⟩
    simp only; omega

theorem within_avg (s : Parts S C) (w : Which) (q : Pool EWMA.Shared EWMA.PC) :
    within Fe Fr (s.setAvg w q) + Fe.μ (s.avg w) = within Fe Fr s + Fe.μ q := by
  cases w <;> simp [within, Parts.setAvg] <;> omega

/-- What a step may do: make the measure smaller; or, if it is no good turn of a helpful call, leave the measure, and all helpful calls helpful. -/
def Out (Ft : (CompassConc.wildConc bi).Fairly { lastTick := now, uncounted := 0 } tickOver (fun _ => True))
    (Fe : (EWMA.conc R).Fairly ⟨EWMA.zeroValue, false⟩ EWMA.PC.ended (fun _ => True)) (Fr : T.machine.Fairly s0 (fun c => (T.over c).isSome) good)
    (p : Pool (Parts S C) Call) (i : Nat) (c : Call) (g : Prop) (t : Parts S C × Call) : Prop :=
  measure Ft Fe Fr ⟨t.1, p.calls.set i t.2⟩ < measure Ft Fe Fr p ∨
    (¬ (Helpful Fe Fr p.shared c ∧ g) ∧ measure Ft Fe Fr ⟨t.1, p.calls.set i t.2⟩ ≤ measure Ft Fe Fr p ∧ t.2 = c ∧
      ∀ d, Helpful Fe Fr p.shared d → Helpful Fe Fr t.1 d)

theorem Out.stay {p : Pool (Parts S C) Call} {i : Nat} {c : Call} {g : Prop} {t : Parts S C × Call} (hi : p.calls[i]? = some c) (ht : t = (p.shared, c))
    (hn : ¬ Helpful Fe Fr p.shared c) : Out Ft Fe Fr p i c g t := by
  subst ht
  exact .inr ⟨fun h => hn h.1, (measure_3 hi rfl rfl).2 (le_refl _), rfl, fun _ h => h⟩

theorem Out.ahead {p : Pool (Parts S C) Call} {i : Nat} {c : Call} {g : Prop} {t : Parts S C × Call} (hi : p.calls[i]? = some c)
    (h : t.2.pc.stage < c.pc.stage) : Out Ft Fe Fr p i c g t := .inl (measure_lt1 hi h)

theorem Out.marks {p : Pool (Parts S C) Call} {i m : Nat} {c : Call} {k : Mark} {g : Prop} {t : Parts S C × Call} {y : Seen} (hi : p.calls[i]? = some c)
    (hk : p.shared.marks.calls[m]? = some k) (ht : t = ({ p.shared with marks := CompassConc.wildMarking.apply p.shared.marks (.step m y) }, c))
    (hr : markRank (CompassConc.wildMarking.step p.shared.marks.shared y k).2.pc < markRank k.pc) : Out Ft Fe Fr p i c g t := by
  subst ht
  have hm := measure_3 (Ft := Ft) (Fe := Fe) (Fr := Fr) (c' := c) (s' := { p.shared with marks := CompassConc.wildMarking.apply p.shared.marks (.step m y) }) hi rfl rfl
  have hs := sum_set (fun m : Mark => markRank m.pc) (CompassConc.wildMarking.step p.shared.marks.shared y k).2 hk
  have ha : CompassConc.ranks (CompassConc.wildMarking.apply p.shared.marks (.step m y)) =
      ((p.shared.marks.calls.set m (CompassConc.wildMarking.step p.shared.marks.shared y k).2).map fun m : Mark => markRank m.pc).sum := by
    simp only [CompassConc.ranks, Machine.apply, hk]
  have hb : CompassConc.ranks p.shared.marks = (p.shared.marks.calls.map fun m : Mark => markRank m.pc).sum := rfl
  have hwi : within Fe Fr { p.shared with marks := CompassConc.wildMarking.apply p.shared.marks (.step m y) } + CompassConc.ranks p.shared.marks =
    within Fe Fr p.shared + CompassConc.ranks (CompassConc.wildMarking.apply p.shared.marks (.step m y)) := by simp only [within]; omega
  exact .inl (hm.1 (by omega))

theorem Out.res {p : Pool (Parts S C) Call} {i r : Nat} {c : Call} {q : C} {t : Parts S C × Call} {x : I} (hi : p.calls[i]? = some c)
    (h1 : ∃ es, p.shared.res = T.machine.run (Machine.start s0) es) (hq : p.shared.res.calls[r]? = some q) (ho : (T.over q).isSome = false)
    (hc : c.pc = .snap r ∨ ∃ i m, c.pc = .res i m r) (ht : t = ({ p.shared with res := T.machine.apply p.shared.res (.step r x) }, c)) :
    Out Ft Fe Fr p i c (good x) t := by
  subst ht
  obtain ⟨es, h1⟩ := h1
  have hs := Fr.step es r x
  have hg := Fr.good_step es r x
  simp only [← h1] at hs hg
  have hwi : within Fe Fr { p.shared with res := T.machine.apply p.shared.res (.step r x) } + Fr.μ p.shared.res =
    within Fe Fr p.shared + Fr.μ (T.machine.apply p.shared.res (.step r x)) := by simp only [within]; omega
  have hm := measure_3 (Ft := Ft) (Fe := Fe) (Fr := Fr) (c' := c) (s' := { p.shared with res := T.machine.apply p.shared.res (.step r x) }) hi rfl rfl
  have lt : Fr.μ (T.machine.apply p.shared.res (.step r x)) < Fr.μ p.shared.res → Out Ft Fe Fr p i c (good x)
      ({ p.shared with res := T.machine.apply p.shared.res (.step r x) }, c) := fun h => .inl (hm.1 (by omega))
  rcases hs with hs | ⟨hs1, hs2⟩
  · exact lt hs
  · by_cases hlt : Fr.μ (T.machine.apply p.shared.res (.step r x)) < Fr.μ p.shared.res
    · exact lt hlt
    refine .inr ⟨?_, hm.2 (by omega), rfl, ?_⟩
    · rintro ⟨h, hx⟩
      have h' : (At p.shared.res r fun q => (T.over q).isSome = true) ∨ Fr.H p.shared.res r := by
        obtain ⟨u, pc⟩ := c
        rcases hc with rfl | ⟨i, m, rfl⟩ <;> exact h
      rcases h' with h | h
      · obtain ⟨q', h2, h3⟩ := h
        rw [hq] at h2
        obtain rfl := Option.some.inj h2
        rw [ho] at h3; cases h3
      · exact hlt (hg h hx)
    · rintro ⟨u, pc⟩ hd
      have key : ∀ r', ((At p.shared.res r' fun q => (T.over q).isSome = true) ∨ Fr.H p.shared.res r') →
          (At (T.machine.apply p.shared.res (.step r x)) r' fun q => (T.over q).isSome = true) ∨ Fr.H (T.machine.apply p.shared.res (.step r x)) r' := by
        rintro r' (hd | hd)
        · exact .inl (At.apply hd (fun s x c hc => Fr.idle s x c hc) _)
        · exact .inr (hs2 _ hd)
      cases pc with
      | res t' m' r' => exact key r' hd
      | snap r' => exact key r' hd
      | _ => exact hd

theorem Out.avg {p : Pool (Parts S C) Call} {i t j : Nat} {w : Which} {use : Use} {g : Prop} {e : EWMA.PC} (hi : p.calls[i]? = some ⟨use, .avg t w j⟩)
    (h1 : ∃ es, p.shared.avg w = (EWMA.conc R).run (Machine.start ⟨EWMA.zeroValue, false⟩) es) (he : (p.shared.avg w).calls[j]? = some e) (ho : ¬ avgOver e = true) :
    Out Ft Fe Fr p i ⟨use, .avg t w j⟩ g (p.shared.setAvg w ((EWMA.conc R).apply (p.shared.avg w) (.step j ())), ⟨use, .avg t w j⟩) := by
  obtain ⟨es, h1⟩ := h1
  have hs := Fe.step es j ()
  have hg := Fe.good_step es j ()
  simp only [← h1] at hs hg
  have hw := within_avg (Fe := Fe) (Fr := Fr) p.shared w ((EWMA.conc R).apply (p.shared.avg w) (.step j ()))
  have hm := measure_3 (Ft := Ft) (Fe := Fe) (Fr := Fr) (c' := ⟨use, .avg t w j⟩)
    (s' := p.shared.setAvg w ((EWMA.conc R).apply (p.shared.avg w) (.step j ()))) hi rfl rfl
  rcases hs with hs | ⟨hs1, hs2⟩
  · exact .inl (hm.1 (by omega))
  · by_cases hlt : Fe.μ ((EWMA.conc R).apply (p.shared.avg w) (.step j ())) < Fe.μ (p.shared.avg w)
    · exact .inl (hm.1 (by omega))
    refine .inr ⟨?_, hm.2 (by omega), rfl, ?_⟩
    · rintro ⟨h | h, -⟩
      · obtain ⟨e', h2, h3⟩ := h
        rw [he] at h2
        obtain rfl := Option.some.inj h2
        exact ho h3
      · exact hlt (hg h trivial)
    · rintro ⟨u, pc⟩ hd
      cases pc with
      | avg t' w' j' =>
        by_cases hww : w' = w
        · subst hww
          have e2 : (p.shared.setAvg w' ((EWMA.conc R).apply (p.shared.avg w') (.step j ()))).avg w' = (EWMA.conc R).apply (p.shared.avg w') (.step j ()) := by
            simp [Parts.setAvg]
          change (At _ _ _) ∨ _
          change (At _ _ _) ∨ _ at hd
          rw [e2]
          rcases hd with hd | hd
          · exact .inl (At.apply hd (fun s x c hc => by cases c <;> first | rfl | cases hc) _)
          · exact .inr (hs2 _ hd)
        · have e2 : (p.shared.setAvg w ((EWMA.conc R).apply (p.shared.avg w) (.step j ()))).avg w' = p.shared.avg w' := by
            simp [Parts.setAvg, hww]
          change (At _ _ _) ∨ _
          change (At _ _ _) ∨ _ at hd
          rw [e2]
          exact hd
      | _ => exact hd

theorem fair_step (hT : T.Ok arg) (hFt : ∀ p t k, p.calls[t]? = some k → tickOver k = false → Ft.H p t) {p : Pool (Parts S C) Call}
    (hp : Rch R T s0 bi n maxErr maxAdd now t1 t2 p) {i : Nat} {c : Call} (hi : p.calls[i]? = some c) (x : InBy TickSeen Seen I) :
    Out Ft Fe Fr p i c (good x.res) (step R T bi p.shared x c) := by
  have hinv := hp.inv hT
  have hh := hinv.here c (List.mem_of_getElem? hi)
  obtain ⟨use, pc⟩ := c
  cases pc with
  | start =>
    refine .ahead hi ?_
    cases use <;> simp [step, callStepBy, PC.stage]
  | tick t =>
    obtain ⟨hu, k, hk, -⟩ := hh
    by_cases ho : tickOver k = true
    · refine .ahead hi ?_
      cases use <;> simp [step, callStepBy, hk, ho, PC.stage]
    · obtain ⟨es, h1, -⟩ := hinv.ticks
      change p.shared.ticks = (CompassConc.wildConc bi).run (Machine.start { lastTick := now, uncounted := 0 }) es at h1
      have hlt := Ft.good_step es t x.tick
      rw [← h1] at hlt
      have hlt := hlt (hFt _ _ _ hk (by simpa using ho)) trivial
      refine .inl ?_
      cases hf : feeds k with
      | none =>
        have e : step R T bi p.shared x ⟨use, .tick t⟩ = ({ p.shared with ticks := (CompassConc.wildConc bi).apply p.shared.ticks (.step t x.tick) }, ⟨use, .tick t⟩) := by
          simp only [step, callStepBy, hk, if_neg ho, hf]
        rw [e]
        exact measure_lt2 hi rfl hlt
      | some wn =>
        obtain ⟨w, m⟩ := wn
        have e : step R T bi p.shared x ⟨use, .tick t⟩ =
            (({ p.shared with ticks := (CompassConc.wildConc bi).apply p.shared.ticks (.step t x.tick) } : Parts S C).setAvg w
              ((EWMA.conc R).apply (p.shared.avg w) (.spawn (.tickN m))), ⟨use, .avg t w (p.shared.avg w).calls.length⟩) := by
          simp only [step, callStepBy, hk, if_neg ho, hf]
        rw [e]
        exact measure_lt2 hi rfl hlt
  | avg t w j =>
    obtain ⟨-, -, e, he, -⟩ := hh
    by_cases ho : avgOver e = true
    · have e1 : step R T bi p.shared x ⟨use, .avg t w j⟩ = (p.shared, ⟨use, .tick t⟩) := by simp only [step, callStepBy, he, if_pos ho]
      rw [e1]
      have hm := measure_3 (Ft := Ft) (Fe := Fe) (Fr := Fr) (c' := ⟨use, .tick t⟩) (s' := p.shared) hi rfl rfl
      exact .inl (hm.1 (by simp only [PC.inAvg]; omega))
    · have e1 : step R T bi p.shared x ⟨use, .avg t w j⟩ = (p.shared.setAvg w ((EWMA.conc R).apply (p.shared.avg w) (.step j ())), ⟨use, .avg t w j⟩) := by
        simp only [step, callStepBy, he, if_neg ho]
      rw [e1]
      obtain ⟨es, h1, -⟩ := hinv.avg w
      exact .avg hi ⟨es, h1⟩ he ho
  | total t m =>
    obtain ⟨d, a, hu, -, k, hk, -⟩ := hh
    simp only at hu
    subst hu
    by_cases ho : pastTotal k = true
    · refine .ahead hi ?_
      by_cases hc : k.pc = .crashed
      · simp [step, callStepBy, hk, ho, hc, PC.stage]
      · simp [step, callStepBy, hk, ho, hc, PC.stage]
    · refine .marks hi hk (y := x.time) (by simp only [step, callStepBy, hk, if_neg ho]) ?_
      exact mark_rank p.shared.marks.shared x.time k (by obtain ⟨a, pc⟩ := k; cases pc <;> first | rfl | exact absurd rfl ho)
        (by rintro e; apply ho; simp [pastTotal, e]) (by rintro w e; exfalso; apply ho; simp [pastTotal, e])
  | res t m r =>
    obtain ⟨d, a, hu, -, -, q, hq, -⟩ := hh
    cases ho : T.over q with
    | some b =>
      refine .ahead hi ?_
      cases b <;> simp [step, callStepBy, hq, ho, PC.stage]
    | none =>
      obtain ⟨es, h1, -⟩ := hinv.res
      exact .res hi ⟨es, h1⟩ hq (by rw [ho]; rfl) (.inr ⟨_, _, rfl⟩) (by simp only [step, callStepBy, hq, ho])
  | rest t m r =>
    obtain ⟨d, a, hu, -, ⟨k, hk, -⟩, -⟩ := hh
    by_cases ho : markOver k = true
    · refine .ahead hi ?_
      simp [step, callStepBy, hk, ho, PC.stage]
    · obtain ⟨f1, f2⟩ := finished_over k (by simpa using ho)
      have e1 : step R T bi p.shared x ⟨use, .rest t m r⟩ = ({ p.shared with marks := CompassConc.wildMarking.apply p.shared.marks (.step m x.time) }, ⟨use, .rest t m r⟩) := by
        simp only [step, callStepBy, hk, if_neg ho]
      by_cases hw : ∃ w, k.pc = .lock w ∧ (p.shared.marks.shared.lab w).held = true
      · refine .stay hi ?_ ?_
        · rw [e1]
          have := mark_stuck p.shared.marks.shared x.time k (.inr (.inr hw))
          have e2 : CompassConc.wildMarking.apply p.shared.marks (.step m x.time) = p.shared.marks := by
            simp only [Machine.apply, hk]
            rw [show CompassConc.wildMarking.step p.shared.marks.shared x.time k = _ from this, set_same hk]
          rw [e2]
        · rintro ⟨k', h1, h2⟩
          rw [hk] at h1
          obtain rfl := Option.some.inj h1
          obtain ⟨w, g1, g2⟩ := hw
          rw [h2 w g1] at g2
          cases g2
      · refine .marks hi hk e1 ?_
        exact mark_rank p.shared.marks.shared x.time k f1 f2 (fun w h => by by_contra hc; exact hw ⟨w, h, by simpa using hc⟩)
  | rate t =>
    obtain ⟨⟨w, hu⟩, -⟩ := hh
    simp only at hu
    subst hu
    exact .ahead hi (by simp [step, callStepBy, PC.stage])
  | snap r =>
    obtain ⟨hu, q, hq, -⟩ := hh
    by_cases ho : (T.over q).isSome = true
    · refine .ahead hi ?_
      simp [step, callStepBy, hq, ho, PC.stage]
    · obtain ⟨es, h1, -⟩ := hinv.res
      exact .res hi ⟨es, h1⟩ hq (by simpa using ho) (.inl rfl) (by simp only [step, callStepBy, hq, if_neg ho])
  | done _ _ _ => exact .stay hi rfl id
  | resPanicked _ _ _ => exact .stay hi rfl id
  | crashed _ _ => exact .stay hi rfl id
  | got _ _ => exact .stay hi rfl id
  | snapped _ => exact .stay hi rfl id

/-- As long as a call is not over, some call is helpful. -/
theorem fair_some (hT : T.Ok arg) {p : Pool (Parts S C) Call}
    (hp : Rch R T s0 bi n maxErr maxAdd now t1 t2 p) {c : Call} (hc : c ∈ p.calls) (ho : c.ended = false) : ∃ d ∈ p.calls, Helpful Fe Fr p.shared d := by
  have hinv := hp.inv hT
  have hh := hinv.here c hc
  obtain ⟨use, pc⟩ := c
  have hres : ∀ (r : Nat) (q : C), p.shared.res.calls[r]? = some q → (∀ d : Call, (d.pc = .snap r ∨ ∃ i m, d.pc = .res i m r) → d ∈ p.calls →
      ∃ d ∈ p.calls, Helpful Fe Fr p.shared d) := by
    intro r q hq d hd hmem
    by_cases hov : (T.over q).isSome = true
    · refine ⟨d, hmem, ?_⟩
      obtain ⟨u, pc⟩ := d
      rcases hd with rfl | ⟨i, m, rfl⟩ <;> exact .inl ⟨q, hq, hov⟩
    · obtain ⟨es, h1, -⟩ := hinv.res
      change p.shared.res = T.machine.run (Machine.start s0) es at h1
      obtain ⟨r', q', g1, g2, g3⟩ := Fr.some es ⟨q, by rw [← h1]; exact List.mem_of_getElem? hq, by simpa using hov⟩
      rw [← h1] at g1 g3
      obtain ⟨k, c', hk, hpc⟩ := res_owner hT hp g1 (by simpa using g2)
      refine ⟨c', List.mem_of_getElem? hk, ?_⟩
      obtain ⟨u, pc⟩ := c'
      rcases hpc with ⟨i, m, rfl⟩ | rfl <;> exact .inr g3
  cases pc with
  | start => exact ⟨_, hc, trivial⟩
  | tick t => exact ⟨_, hc, trivial⟩
  | total t m => exact ⟨_, hc, trivial⟩
  | rate t => exact ⟨_, hc, trivial⟩
  | avg t w j =>
    obtain ⟨-, -, e, he, -⟩ := hh
    by_cases hov : avgOver e = true
    · exact ⟨_, hc, .inl ⟨e, he, hov⟩⟩
    · have hne : ∀ e', e' ∈ (p.shared.avg w).calls → avgOver e' = false → EWMA.PC.ended e' = false := by
        intro e' hm hov'
        have := List.mem_map_of_mem (f := countOf) hm
        rw [hinv.fed w] at this
        obtain ⟨a, -, g3⟩ := List.mem_map.1 this
        cases e' <;> simp [EWMA.PC.ended, countOf, avgOver] at g3 hov' ⊢
      obtain ⟨es, h1, -⟩ := hinv.avg w
      change p.shared.avg w = (EWMA.conc R).run (Machine.start ⟨EWMA.zeroValue, false⟩) es at h1
      obtain ⟨j', e', g1, g2, g3⟩ := Fe.some es
        ⟨e, by rw [← h1]; exact List.mem_of_getElem? he, hne e (List.mem_of_getElem? he) (by simpa using hov)⟩
      rw [← h1] at g1 g3
      have hov' : ¬ avgOver e' = true := by
        intro h
        cases e' <;> simp [avgOver, EWMA.PC.ended] at h g2
      obtain ⟨c', hc', i, hpc⟩ := (hinv.owned w j' e' g1).resolve_left hov'
      refine ⟨c', hc', ?_⟩
      obtain ⟨u, pc⟩ := c'
      simp only at hpc
      subst hpc
      exact .inr g3
  | res t m r =>
    obtain ⟨-, -, -, -, -, q, hq, -⟩ := hh
    exact hres r q hq _ (.inr ⟨_, _, rfl⟩) hc
  | snap r =>
    obtain ⟨-, q, hq, -⟩ := hh
    exact hres r q hq _ (.inl rfl) hc
  | rest t m r =>
    obtain ⟨-, -, -, -, ⟨k, hk, -⟩, -⟩ := hh
    by_cases hw : ∃ w, k.pc = .lock w ∧ (p.shared.marks.shared.lab w).held = true
    · obtain ⟨w, hw1, hw2⟩ := hw
      obtain ⟨m', k', h1, h2⟩ := holder hT hp hw2
      obtain ⟨c', hc', i', r', hpc⟩ := hp.deep m' k' w h1 h2
      refine ⟨c', hc', ?_⟩
      obtain ⟨u, pc⟩ := c'
      simp only at hpc
      subst hpc
      refine ⟨k', h1, fun w' e => ?_⟩
      rw [e] at h2
      cases w <;> cases w' <;> cases h2
    · exact ⟨_, hc, k, hk, fun w h => by by_contra hne; exact hw ⟨w, h, by simpa using hne⟩⟩
  | done _ _ _ => cases ho
  | resPanicked _ _ _ => cases ho
  | crashed _ _ => cases ho
  | got _ _ => cases ho
  | snapped _ => cases ho

end

/-- **C110.** Whatever `Update`, `UpdateWithError`, rate and `GetSnapshot` calls of a compass are under way: if the scheduler is fair and no new ones
start, they all end. -/
theorem _root_.GoMetrics.C110_ends {S C A I : Type} (R : Rounding) (T : Stepped S C A I) (arg : C → Option Int) (hT : T.Ok arg) (s0 : S) (good : I → Prop)
    (Fr : T.machine.Fairly s0 (fun c => (T.over c).isSome) good) (bi : Int) (n : Nat) (maxErr maxAdd now t1 t2 : Int) :
    (wildMachine R T bi).FairlyEnds (init s0 bi n maxErr maxAdd now t1 t2 : Pool (Parts S C) Call).shared Call.ended (fun x => good x.res) := by
  let Ft := (CompassConc.wildRanked bi { lastTick := now, uncounted := 0 }).fairly
  let Fe := (EWMA.ranked R EWMA.zeroValue).fairly
  have hFt : ∀ p t k, p.calls[t]? = some k → tickOver k = false → Ft.H p t := fun p t k h1 h2 => ⟨k, h1, h2⟩
  clear_value Ft Fe
  have hr : ∀ es, Rch R T s0 bi n maxErr maxAdd now t1 t2 ((wildMachine R T bi).run (Machine.start (init s0 bi n maxErr maxAdd now t1 t2 : Pool (Parts S C) Call).shared) es) :=
    fun es => ⟨es, rfl⟩
  refine fair_of _ (measure Ft Fe Fr) (fun p i => ∃ c, p.calls[i]? = some c ∧ Helpful Fe Fr p.shared c) ?_ ?_ ?_ ?_
  · intro es j x p
    cases hj : p.calls[j]? with
    | none => simp only [Machine.apply, hj]; exact .inr ⟨le_refl _, fun _ h => h⟩
    | some c =>
      have happ : (wildMachine R T bi).apply p (.step j x) = ⟨(step R T bi p.shared x c).1, p.calls.set j (step R T bi p.shared x c).2⟩ := by
        simp only [Machine.apply, hj]; rfl
      rw [happ]
      rcases fair_step (Fe := Fe) (Fr := Fr) hT hFt (hr es) hj x with h | ⟨-, h1, h2, h3⟩
      · exact .inl h
      · refine .inr ⟨h1, ?_⟩
        rintro i ⟨d, g1, g2⟩
        refine ⟨d, ?_, h3 d g2⟩
        rw [h2, set_same hj]
        exact g1
  · rintro es i x ⟨c, g1, g2⟩ hx
    have hre := hr es
    generalize (wildMachine R T bi).run (Machine.start (init s0 bi n maxErr maxAdd now t1 t2 : Pool (Parts S C) Call).shared) es = p at g1 g2 hre ⊢
    have happ : (wildMachine R T bi).apply p (.step i x) = ⟨(step R T bi p.shared x c).1, p.calls.set i (step R T bi p.shared x c).2⟩ := by
      simp only [Machine.apply, g1]; rfl
    rw [happ]
    rcases fair_step (Fe := Fe) (Fr := Fr) hT hFt hre g1 x with h | ⟨h, -⟩
    · exact h
    · exact absurd ⟨g2, hx⟩ h
  · rintro es ⟨c, hc, ho⟩
    obtain ⟨d, hd, hh⟩ := fair_some (Fe := Fe) (Fr := Fr) hT (hr es) hc ho
    obtain ⟨i, hi, hid⟩ := List.getElem_of_mem hd
    exact ⟨i, hi, d, by rw [List.getElem?_eq_getElem hi, hid], hh⟩
  · rintro s x ⟨u, pc⟩ h
    cases pc <;> first | rfl | cases h

/-! ## The reservoirs a compass can have -/

/-- **C110.** A compass with a uniform reservoir, whatever its plain loads return: the scheduler is fair, no new calls start, and the random source gives every call, again and
again, a word of the lower half (at most 2^62): then all calls end. -/
theorem _root_.GoMetrics.C110_ends_uniform (R : Rounding) (u : UniformReservoir) (bi : Int) (n : Nat) (maxErr maxAdd now t1 t2 : Int)
    (before : List (Ev Use (InBy TickSeen Seen Int))) (f : Nat → Nat × InBy TickSeen Seen Int)
    (hf : Fair (fun x => 0 ≤ x.res ∧ x.res ≤ 4611686018427387904) (wildlyUsed R uniform { obj := u } bi n maxErr maxAdd now t1 t2 before).calls.length f) :
    ∃ m, ∀ k, m ≤ k → ∀ c ∈ (wildlyUsed R uniform { obj := u } bi n maxErr maxAdd now t1 t2 (before ++ firstTurns f k)).calls, c.ended = true :=
  C110_ends R uniform uniformArg uniform_ok _ _ (Whole.uniform_fairly u) bi n maxErr maxAdd now t1 t2 before f hf

/-- **C110.** A compass with a decaying reservoir, whatever its plain loads return: if the scheduler is fair and no new calls start, all calls end. -/
theorem _root_.GoMetrics.C110_ends_decaying (R : Rounding) (A : EDR.Arith) (s : EDRConc.Shared) (bi : Int) (n : Nat) (maxErr maxAdd now t1 t2 : Int)
    (before : List (Ev Use (InBy TickSeen Seen EDRConc.In))) (f : Nat → Nat × InBy TickSeen Seen EDRConc.In)
    (hf : Fair (fun _ => True) (wildlyUsed R (decaying A) s bi n maxErr maxAdd now t1 t2 before).calls.length f) :
    ∃ m, ∀ k, m ≤ k → ∀ c ∈ (wildlyUsed R (decaying A) s bi n maxErr maxAdd now t1 t2 (before ++ firstTurns f k)).calls, c.ended = true :=
  C110_ends R (decaying A) EDRConc.PC.arg (decaying_ok A) _ _ (EDRConc.ranked A s).fairly bi n maxErr maxAdd now t1 t2 before f hf

/-! ### The bucket reservoir -/
section
open BucketCounter (Sane)

/-- The rings that a snapshot finds have `N` buckets, and positions in them. -/
def Finds (N : Nat) (x : BucketSeen) : Prop := Sane N x.found.count ∧ Sane N x.found.value

instance (N : Nat) (x : BucketSeen) : Decidable (Finds N x) := inferInstanceAs (Decidable (_ ∧ _))

/-- What a snapshot finds, if that is two counters of `N` buckets, and else two new ones. -/
def sound (bi : Int) (N : Nat) (x : BucketSeen) : BucketSeen :=
  if Finds N x then x else { x with found := ⟨BucketCounter.new bi N 0 true, BucketCounter.new bi N 0 true⟩ }

theorem sound_finds (bi : Int) (N : Nat) (x : BucketSeen) : Finds N (sound bi N x) := by
  unfold sound
  split
  · assumption
  · exact ⟨BucketCounter.sane_after bi N 0 true [], BucketCounter.sane_after bi N 0 true []⟩

/-- The bucket reservoir, shown only counters of `N` buckets. -/
def wildBucketN (bi : Int) (N : Nat) : Stepped BucketCounter BucketPC (Option Int) BucketSeen where
  machine := { call := (wildBucketConc bi).call, step := fun s x c => (wildBucketConc bi).step s (sound bi N x) c }
  updateN := some
  snapshot := none
  over := (wildBucket bi).over

theorem wildBucketN_ok (bi : Int) (N : Nat) : (wildBucketN bi N).Ok bucketArg where
  arg_update _ := rfl
  arg_snapshot := rfl
  arg_step s x c := (wildBucket_ok bi).arg_step s (sound bi N x) c
  over_step s x c b h := (wildBucket_ok bi).over_step s (sound bi N x) c b h

theorem wildBucketN_low (bi : Int) (N : Nat) (s : BucketCounter) (es : List (Ev (Option Int) BucketSeen)) :
    ∀ c ∈ ((wildBucketN bi N).machine.run (Machine.start s) es).calls, c.low N := by
  induction es using List.reverseRecOn with
  | nil => simp [Machine.run, Machine.start]
  | append_singleton es e ih =>
    rw [Machine.run_snoc]
    generalize (wildBucketN bi N).machine.run (Machine.start s) es = p at ih
    cases e with
    | spawn a =>
      intro c hc
      simp only [Machine.apply, List.mem_append, List.mem_singleton] at hc
      rcases hc with hc | rfl
      · exact ih c hc
      · cases a <;> trivial
    | step i x =>
      cases hi : p.calls[i]? with
      | none => simpa only [Machine.apply, hi] using ih
      | some c0 =>
        simp only [Machine.apply, hi]
        intro c hc
        rcases List.mem_or_eq_of_mem_set hc with hc | rfl
        · exact ih c hc
        · have h0 := ih c0 (List.mem_of_getElem? hi)
          have hs := sound_finds bi N x
          cases c0 with
          | upd c => trivial
          | snap pc => exact BucketPair.snap_low (s := (sound bi N x).counters bi) hs.1 hs.2 _ h0

/-- Why the calls of a bucket reservoir end. -/
def wildBucketN_ranked (bi : Int) (N : Nat) (s : BucketCounter) :
    (wildBucketN bi N).machine.Ranked s (fun c => ((wildBucketN bi N).over c).isSome) (fun _ => True) where
  ok _ c := c.low N
  ok_run es c hc := wildBucketN_low bi N s es c hc
  b := 0
  ch _ := 0
  r _ := BucketPC.rank N
  help _ c := ((wildBucketN bi N).over c).isSome = false
  move s x c hok := by
    by_cases ho : ((wildBucketN bi N).over c).isSome = true
    · obtain ⟨b, hb⟩ := Option.isSome_iff_exists.1 ho
      exact .stay (wildBucket_idle bi s (sound bi N x) c b hb) (by simp [ho])
    · have hlt : BucketPC.rank N ((wildBucketN bi N).machine.step s x c).2 < BucketPC.rank N c := by
        cases c with
        | upd c =>
          change CompassConc.callRank (BucketCounter.wildStep s (sound bi N x).seen c).2.pc < CompassConc.callRank c.pc
          have := CompassConc.wildStep_rank s (sound bi N x).seen c
          have h0 : 0 < CompassConc.callRank c.pc := by
            obtain ⟨n, pc⟩ := c
            cases pc <;> first | (simp [CompassConc.callRank]; done) | exact absurd rfl ho
          omega
        | snap pc =>
          have hs := sound_finds bi N x
          exact BucketPair.snap_rank (s := (sound bi N x).counters bi) hs.1 hs.2 _ hok (by cases pc <;> first | rfl | exact absurd rfl ho)
      generalize (wildBucketN bi N).machine.step s x c = t at hlt
      exact .on (s' := t.1) (c' := t.2) rfl (le_refl _) (fun _ => le_refl _) hlt
  some es := fun ⟨c, hc, ho⟩ => ⟨c, hc, ho, ho⟩
  idle s x c h := by
    obtain ⟨b, hb⟩ := Option.isSome_iff_exists.1 h
    have : (wildBucketN bi N).machine.step s x c = (s, c) := wildBucket_idle bi s (sound bi N x) c b hb
    rw [this]; exact h

theorem step_sound (R : Rounding) (bi : Int) (N : Nat) (s : Parts BucketCounter BucketPC) (x : InBy TickSeen Seen BucketSeen) (hx : Finds N x.res) (c : Call) :
    (wildMachine R (wildBucketN bi N) bi).step s x c = (wildBucketCompass R bi).step s x c := by
  have e : ∀ r, (wildBucketN bi N).machine.apply s.res (.step r x.res) = (wildBucket bi).machine.apply s.res (.step r x.res) := by
    intro r
    have : sound bi N x.res = x.res := if_pos hx
    simp only [Machine.apply, wildBucketN, wildBucket, this]
  obtain ⟨u, pc⟩ := c
  cases pc <;> first | rfl | (simp only [wildMachine, wildBucketCompass, callStepBy, e]; rfl)

theorem run_sound (R : Rounding) (bi : Int) (N : Nat) (p : Pool (Parts BucketCounter BucketPC) Call) (es : List (Ev Use (InBy TickSeen Seen BucketSeen)))
    (hes : ∀ i x, .step i x ∈ es → Finds N x.res) : (wildMachine R (wildBucketN bi N) bi).run p es = (wildBucketCompass R bi).run p es := by
  induction es generalizing p with
  | nil => rfl
  | cons e es ih =>
    rw [Machine.run_cons, Machine.run_cons]
    have : (wildMachine R (wildBucketN bi N) bi).apply p e = (wildBucketCompass R bi).apply p e := by
      cases e with
      | spawn a => rfl
      | step i x =>
        cases hi : p.calls[i]? with
        | none => simp only [Machine.apply, hi]
        | some c => simp only [Machine.apply, hi, step_sound R bi N p.shared x (hes i x (by simp)) c]
    rw [this]
    exact ih _ (fun i x h => hes i x (by simp [h]))

/-- **C110.** A compass with a bucket reservoir, whatever its plain loads return - as long as a snapshot finds, in the two counters, rings of `n + 1` slots and positions in them (the
rings are made by the constructors, and positions stored only modulo their length): if the scheduler is fair and no new calls start, all calls end. -/
theorem _root_.GoMetrics.C110_ends_bucket (R : Rounding) (bi : Int) (n : Nat) (maxErr maxAdd now t1 t2 tv : Int) (before : List (Ev Use (InBy TickSeen Seen BucketSeen)))
    (f : Nat → Nat × InBy TickSeen Seen BucketSeen)
    (hb : ∀ i x, .step i x ∈ before → ∀ b, b = x.res.found.count ∨ b = x.res.found.value → b.buckets.queue.length = n + 1 ∧ b.buckets.current ≤ n)
    (hx : ∀ k b, b = (f k).2.res.found.count ∨ b = (f k).2.res.found.value → b.buckets.queue.length = n + 1 ∧ b.buckets.current ≤ n)
    (hf : Fair (fun _ => True) (wildBucketUsed R bi n maxErr maxAdd now t1 t2 tv before).calls.length f) :
    ∃ m, ∀ k, m ≤ k → ∀ c ∈ (wildBucketUsed R bi n maxErr maxAdd now t1 t2 tv (before ++ firstTurns f k)).calls, c.ended = true := by
  have key : ∀ k, wildlyUsed R (wildBucketN bi n) (BucketCounter.new bi n tv true) bi n maxErr maxAdd now t1 t2 (before ++ firstTurns f k) =
      wildBucketUsed R bi n maxErr maxAdd now t1 t2 tv (before ++ firstTurns f k) := by
    intro k
    refine run_sound R bi n _ _ ?_
    intro i x h
    rcases List.mem_append.1 h with h | h
    · exact ⟨hb i x h _ (.inl rfl), hb i x h _ (.inr rfl)⟩
    · obtain ⟨j, -, hj⟩ := List.mem_map.1 h
      injection hj with h1 h2
      subst h2
      exact ⟨hx j _ (.inl rfl), hx j _ (.inr rfl)⟩
  have key0 := key 0
  simp only [firstTurns, List.range_zero, List.map_nil, List.append_nil] at key0
  obtain ⟨m, hm⟩ := C110_ends R (wildBucketN bi n) bucketArg (wildBucketN_ok bi n) _ _ (wildBucketN_ranked bi n (BucketCounter.new bi n tv true)).fairly bi n
    maxErr maxAdd now t1 t2 before f (by
      change Fair _ (wildlyUsed R (wildBucketN bi n) (BucketCounter.new bi n tv true) bi n maxErr maxAdd now t1 t2 before).calls.length f
      rw [key0]; exact hf)
  refine ⟨m, fun k hk => ?_⟩
  rw [← key k]
  exact hm k hk

end

/-- Taking turns in a circle is fair, so the hypothesis can be met. Two updates with the same error code, of which the first holds the mutex of the error codes and the second waits for
it; all loads return odd things: they end. -/
example :
    let odd : InBy TickSeen Seen Int := ⟨⟨0, 77⟩, ⟨0, 5, true, 9⟩, 1, none⟩
    let before : List (Ev Use (InBy TickSeen Seen Int)) := [.spawn (.update 7 ⟨false, "e", ""⟩), .spawn (.update 9 ⟨false, "e", ""⟩)] ++ List.replicate 18 (.step 0 odd) ++
      List.replicate 100 (.step 1 odd)
    let f : Nat → Nat × InBy TickSeen Seen Int := fun k => (k % 2, odd)
    let p := wildlyUsed .exact uniform { obj := UniformReservoir.new 2 } 5000000000 3 1 1 0 0 0 before
    let q := wildlyUsed .exact uniform { obj := UniformReservoir.new 2 } 5000000000 3 1 1 0 0 0 (before ++ firstTurns f 80)
    p.calls.length = 2 ∧ (∀ c ∈ p.calls, c.ended = false) ∧ Fair (fun x => 0 ≤ x.res ∧ x.res ≤ 4611686018427387904) 2 f ∧ ∀ c ∈ q.calls, c.ended = true := by
  refine ⟨by decide +kernel, by decide +kernel, ?_, by decide +kernel⟩
  intro i hi m
  exact ⟨2 * m + i, by omega, by simp only; omega, by simp only; decide, by simp only; decide⟩

/-- An update and a snapshot of a compass with a bucket reservoir, in turn; the snapshot finds counters that are nothing like those of the compass. -/
example :
    let found := (BucketCounter.after 10000000000 3 0 true [.spawn 4, .step 0 7, .step 0 8]).shared
    let odd : InBy TickSeen Seen BucketSeen := ⟨⟨0, 77⟩, ⟨21000, 5, true, 9⟩, ⟨⟨21000, 5, true, 9⟩, 0, ⟨found, found⟩⟩, none⟩
    let before : List (Ev Use (InBy TickSeen Seen BucketSeen)) := [.spawn (.update 7 ⟨true, "e", ""⟩), .spawn .snapshot] ++ List.replicate 10 (.step 0 odd)
    let f : Nat → Nat × InBy TickSeen Seen BucketSeen := fun k => (k % 2, odd)
    let p := wildBucketUsed .exact 10000000000 3 1 1 0 0 0 0 before
    let q := wildBucketUsed .exact 10000000000 3 1 1 0 0 0 0 (before ++ firstTurns f 120)
    p.calls.length = 2 ∧ (∀ c ∈ p.calls, c.ended = false) ∧ (∀ i x, .step i x ∈ before → Finds 3 x.res) ∧ (∀ k, Finds 3 (f k).2.res) ∧ Fair (fun _ => True) 2 f ∧
    ∀ c ∈ q.calls, c.ended = true := by
  refine ⟨by decide +kernel, by decide +kernel, ?_, ?_, ?_, by decide +kernel⟩
  · intro i x h
    simp only [List.mem_append, List.mem_cons, reduceCtorEq, List.not_mem_nil, or_self, List.mem_replicate, false_or] at h
    obtain ⟨-, h⟩ := h
    injection h with h1 h2
    subst h2
    decide +kernel
  · intro k
    simp only
    decide +kernel
  · intro i hi m
    exact ⟨2 * m + i, by omega, by simp only; omega, trivial⟩

end WholeWild
end GoMetrics
