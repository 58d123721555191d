import Verif.Proofs.EWMA
/-! # EWMA: invariants of the interleaving semantics -/
namespace GoMetrics
namespace EWMA

/-- What an `Update` call has added so far. -/
def PC.applied : PC → Int
  | .updated n => n
  | _ => 0

/-- What a `Tick` call has taken out of the pending count so far. -/
def PC.taken : PC → Int
  | .enter true c | .read true c _ | .store true c _ _ | .setInit true c | .unlock true c | .done true c => c
  | _ => 0

/-- Inside the critical section. -/
def PC.crit : PC → Bool
  | .read _ _ _ | .store _ _ _ _ | .setInit _ _ | .unlock _ _ => true
  | _ => false

/-- The count this call has folded into the average, once it has. -/
def PC.folded : PC → Option Int
  | .unlock _ c | .done _ c => some c
  | _ => none

theorem callStep_const (R s x pc) : (callStep R s x pc).1.e.alpha = s.e.alpha ∧
    (callStep R s x pc).1.e.interval = s.e.interval := by
  cases pc <;> simp only [callStep] <;> (try split) <;> simp [update]

/-- Conservation: pending = applied − taken, as an int64. -/
def Conserved (p : Pool Shared PC) : Prop :=
  p.shared.e.uncounted = i64 ((p.calls.map PC.applied).sum - (p.calls.map PC.taken).sum)

theorem callStep_conserved (R s x pc) (h : InI64 s.e.uncounted) :
    (callStep R s x pc).1.e.uncounted =
      i64 (s.e.uncounted + (((callStep R s x pc).2).applied - pc.applied)
        - (((callStep R s x pc).2).taken - pc.taken)) := by
  have h' := i64_of_in h
  cases pc with
  | cas old =>
    by_cases hc : s.e.uncounted = old
    · simp [callStep, hc, PC.applied, PC.taken]
    · simp [callStep, hc, PC.applied, PC.taken, h']
  | enter own c => cases own <;> by_cases hc : s.held = true <;> simp [callStep, hc, PC.applied, PC.taken, h']
  | store own c ini new => cases own <;> cases ini <;> simp [callStep, PC.applied, PC.taken, h']
  | read own c i => cases own <;> simp [callStep, PC.applied, PC.taken, h']
  | setInit own c => cases own <;> simp [callStep, PC.applied, PC.taken, h']
  | unlock own c => cases own <;> simp [callStep, PC.applied, PC.taken, h']
  | update n => simp [callStep, PC.applied, PC.taken, update]
  | _ => simp [callStep, PC.applied, PC.taken, h']

theorem conserved_spawn {R : Rounding} {s : Shared} {cs : List PC} (a : Op) (h : Conserved ⟨s, cs⟩) : Conserved ⟨s, cs ++ [(conc R).call a]⟩ := by
  unfold Conserved at *
  have : ((conc R).call a).applied = 0 := by cases a <;> rfl
  have h2 : ((conc R).call a).taken = 0 := by cases a <;> rfl
  simpa [this, h2] using h

theorem conserved_step {R : Rounding} {s : Shared} {pre post : List PC} {c : PC} (x : Unit) (h : Conserved ⟨s, pre ++ c :: post⟩) :
    Conserved ⟨(callStep R s x c).1, pre ++ (callStep R s x c).2 :: post⟩ := by
  unfold Conserved at *
  simp only at h ⊢
  have hin : InI64 s.e.uncounted := by rw [h]; exact i64_in _
  have e1 := sum_map_replace PC.applied pre post c (callStep R s x c).2
  have e2 := sum_map_replace PC.taken pre post c (callStep R s x c).2
  rw [e1, e2]
  have := callStep_conserved R s x c hin
  rw [this, h]
  generalize ((pre ++ c :: post).map PC.applied).sum = A
  generalize ((pre ++ c :: post).map PC.taken).sum = B
  unfold i64; omega

theorem conserved_start (alpha : F64) (interval : Int) : Conserved ⟨⟨new alpha interval, false⟩, []⟩ := by simp [Conserved, new]

theorem conserved_run (R : Rounding) (alpha : F64) (interval : Int) (es : List (Ev Op Unit)) :
    Conserved ((conc R).run (Machine.start ⟨new alpha interval, false⟩) es) :=
  (conc R).inv_run Conserved (fun _ _ a h => conserved_spawn a h) (fun _ _ _ _ x h => conserved_step x h) _ (conserved_start alpha interval) es

/-- Mutual exclusion and serial order. `l` is the order in which the critical sections ran. -/
structure Serial (R : Rounding) (e0 : EWMA) (p : Pool Shared PC) (l : List Int) : Prop where
  excl : (p.calls.filter PC.crit).length = if p.shared.held then 1 else 0
  perm : l.Perm (p.calls.filterMap PC.folded)
  alpha : p.shared.e.alpha = e0.alpha
  interval : p.shared.e.interval = e0.interval
  idle : (∀ own c, PC.setInit own c ∉ p.calls) →
    core p.shared.e = l.foldl (coreTick R e0.alpha e0.interval) (core e0)
  read : ∀ own c i, PC.read own c i ∈ p.calls → i = F64.div R (F64.ofInt R c) (F64.ofInt R e0.interval)
  store : ∀ own c ini new, PC.store own c ini new ∈ p.calls → ini = p.shared.e.initialized ∧
    new = newRate R ini e0.alpha p.shared.e.rate (F64.div R (F64.ofInt R c) (F64.ofInt R e0.interval))
  setInit : ∀ own c, PC.setInit own c ∈ p.calls → ∃ r, (false, r) = l.foldl (coreTick R e0.alpha e0.interval) (core e0) ∧
    p.shared.e.rate = newRate R false e0.alpha r (F64.div R (F64.ofInt R c) (F64.ofInt R e0.interval))

theorem crit_split (pre post : List PC) (c : PC) :
    ((pre ++ c :: post).filter PC.crit).length =
      ((pre ++ post).filter PC.crit).length + (if c.crit then 1 else 0) := by
  by_cases h : c.crit <;> (simp [List.filter_append, h]; try omega)

theorem not_crit_of_zero {l : List PC} (h : (l.filter PC.crit).length = 0) : ∀ c ∈ l, c.crit = false := by
  intro c hc
  by_contra hcr
  have : c ∈ l.filter PC.crit := List.mem_filter.2 ⟨hc, by simpa using hcr⟩
  rw [List.length_eq_zero_iff.1 h] at this
  simp at this

theorem filterMap_split (pre post : List PC) (c : PC) :
    (pre ++ c :: post).filterMap PC.folded = pre.filterMap PC.folded ++ (c.folded.toList ++ post.filterMap PC.folded) := by
  rw [List.filterMap_append]
  cases h : c.folded <;> simp [h]

theorem serial_step {R : Rounding} {e0 : EWMA} {s : Shared} {pre post : List PC} {c : PC} {x : Unit} {l : List Int}
    (h : Serial R e0 ⟨s, pre ++ c :: post⟩ l) :
    ∃ l', Serial R e0 ⟨(callStep R s x c).1, pre ++ (callStep R s x c).2 :: post⟩ l' := by
  have hal := h.alpha
  have hin := h.interval
  have hex := h.excl
  rw [crit_split] at hex
  simp only at hal hin hex
  -- a step outside the critical section that leaves `core` alone
  have quiet : ∀ (s' : Shared) (c' : PC), s'.held = s.held → core s'.e = core s.e → s'.e.alpha = s.e.alpha →
      s'.e.interval = s.e.interval → c.crit = false → c'.crit = false → c.folded = none → c'.folded = none →
      ∃ l', Serial R e0 ⟨s', pre ++ c' :: post⟩ l' := by
    intro s' c' h1 h2 h3 h4 h5 h6 h7 h8
    have hne : ∀ d, d.crit = true → (d ∈ pre ++ c' :: post ↔ d ∈ pre ++ c :: post) := by
      intro d hd
      have a1 : d ≠ c := by rintro rfl; simp [hd] at h5
      have a2 : d ≠ c' := by rintro rfl; simp [hd] at h6
      simp [a1, a2]
    have hini : s'.e.initialized = s.e.initialized := congrArg Prod.fst h2
    have hrate : s'.e.rate = s.e.rate := congrArg Prod.snd h2
    refine ⟨l, ⟨?_, ?_, h3.trans hal, h4.trans hin, ?_, ?_, ?_, ?_⟩⟩
    · rw [crit_split]; simp only [h1, h6]; simpa [h5] using hex
    · have := h.perm
      simp only [filterMap_split, h7] at this
      simp only [filterMap_split, h8]; exact this
    · intro hh
      simp only [h2]
      exact h.idle (fun own c hc => hh own c ((hne _ rfl).2 hc))
    · intro own c i hm; exact h.read own c i ((hne _ rfl).1 hm)
    · intro own c ini new hm
      simp only [hini, hrate]
      exact h.store own c ini new ((hne _ rfl).1 hm)
    · intro own c hm
      simp only [hrate]
      exact h.setInit own c ((hne _ rfl).1 hm)
  -- while `c` is critical nobody else is
  have alone : c.crit = true → s.held = true ∧ ∀ d ∈ pre ++ post, d.crit = false := by
    intro hc
    simp only [hc, if_true] at hex
    have : s.held = true := by
      cases hh : s.held
      · rw [hh] at hex; simp at hex
      · rfl
    refine ⟨this, not_crit_of_zero ?_⟩
    simp only [this, if_true] at hex; omega
  cases c with
  | update n => exact quiet _ _ rfl rfl rfl rfl rfl rfl rfl rfl
  | updated n => exact quiet _ _ rfl rfl rfl rfl rfl rfl rfl rfl
  | load => exact quiet _ _ rfl rfl rfl rfl rfl rfl rfl rfl
  | cas old =>
    by_cases hc : s.e.uncounted = old
    · simp only [callStep, hc, if_true]; exact quiet _ _ rfl rfl rfl rfl rfl rfl rfl rfl
    · simp only [callStep, hc, if_false]; exact quiet _ _ rfl rfl rfl rfl rfl rfl rfl rfl
  | enter own c =>
    cases hc : s.held
    · simp only [callStep, hc, Bool.false_eq_true, if_false]
      simp only [PC.crit, hc] at hex
      have hno : ∀ d ∈ pre ++ post, d.crit = false := not_crit_of_zero (by simpa using hex)
      have hno' : ∀ d ∈ pre ++ PC.enter own c :: post, d.crit = false := by
        intro d hd
        simp only [List.mem_append, List.mem_cons] at hd
        rcases hd with hd | hd | hd
        · exact hno d (by simp [hd])
        · rw [hd]; rfl
        · exact hno d (by simp [hd])
      have hnew : ∀ d ∈ pre ++ PC.read own c (s.e.instantRate R c) :: post, d.crit = true →
          d = PC.read own c (s.e.instantRate R c) := by
        intro d hd hdc
        simp only [List.mem_append, List.mem_cons] at hd
        rcases hd with hd | hd | hd
        · rw [hno d (by simp [hd])] at hdc; simp at hdc
        · exact hd
        · rw [hno d (by simp [hd])] at hdc; simp at hdc
      refine ⟨l, ⟨?_, ?_, hal, hin, ?_, ?_, ?_, ?_⟩⟩
      · rw [crit_split]; simp only [PC.crit, if_true]
        simp at hex; simp; omega
      · have := h.perm
        simp only [filterMap_split, PC.folded] at this ⊢; exact this
      · intro _
        exact h.idle (fun own' c' hm => by have := hno' _ hm; simp [PC.crit] at this)
      · intro own' c' i hm
        have := hnew _ hm rfl
        simp only [PC.read.injEq] at this
        obtain ⟨-, h2, h3⟩ := this
        rw [h3, h2]
        simp only [instantRate, hin]
      · intro own' c' ini new hm
        have := hnew _ hm rfl
        simp at this
      · intro own' c' hm
        have := hnew _ hm rfl
        simp at this
    · simp only [callStep, hc, if_true]; exact quiet _ _ rfl rfl rfl rfl rfl rfl rfl rfl
  | read own c i =>
    obtain ⟨hh, hno⟩ := alone rfl
    have hi := h.read own c i (by simp)
    simp only [callStep]
    have hcore := h.idle (fun own' c' hm => by
      simp only [List.mem_append, List.mem_cons] at hm
      rcases hm with hm | hm | hm
      · have := hno _ (List.mem_append_left _ hm); simp [PC.crit] at this
      · simp at hm
      · have := hno _ (List.mem_append_right _ hm); simp [PC.crit] at this)
    have hnew : ∀ (c' : PC), ∀ d ∈ pre ++ c' :: post, d.crit = true → d = c' := by
      intro c' d hd hdc
      simp only [List.mem_append, List.mem_cons] at hd
      rcases hd with hd | hd | hd
      · rw [hno d (by simp [hd])] at hdc; simp at hdc
      · exact hd
      · rw [hno d (by simp [hd])] at hdc; simp at hdc
    refine ⟨l, ⟨?_, ?_, hal, hin, ?_, ?_, ?_, ?_⟩⟩
    · rw [crit_split]; simpa [PC.crit] using hex
    · have := h.perm
      simp only [filterMap_split, PC.folded] at this ⊢; exact this
    · intro _; exact hcore
    · intro own' c' i' hm
      have := hnew _ _ hm rfl
      simp at this
    · intro own' c' ini new hm
      have := hnew _ _ hm rfl
      simp only [PC.store.injEq] at this
      obtain ⟨-, h2, h3, h4⟩ := this
      simp only
      refine ⟨h3, ?_⟩
      rw [h4, h3, hi, h2, hal]
    · intro own' c' hm
      have := hnew _ _ hm rfl
      simp at this
  | store own c ini new =>
    obtain ⟨hh, hno⟩ := alone rfl
    obtain ⟨hi, hn⟩ := h.store own c ini new (by simp)
    simp only at hi hn
    have hcore := h.idle (fun own' c' hm => by
      simp only [List.mem_append, List.mem_cons] at hm
      rcases hm with hm | hm | hm
      · have := hno _ (List.mem_append_left _ hm); simp [PC.crit] at this
      · simp at hm
      · have := hno _ (List.mem_append_right _ hm); simp [PC.crit] at this)
    simp only at hcore
    have hnew : ∀ (c' : PC), ∀ d ∈ pre ++ c' :: post, d.crit = true → d = c' := by
      intro c' d hd hdc
      simp only [List.mem_append, List.mem_cons] at hd
      rcases hd with hd | hd | hd
      · rw [hno d (by simp [hd])] at hdc; simp at hdc
      · exact hd
      · rw [hno d (by simp [hd])] at hdc; simp at hdc
    cases ini with
    | true =>
      simp only [callStep, if_true]
      refine ⟨l ++ [c], ⟨?_, ?_, hal, hin, ?_, ?_, ?_, ?_⟩⟩
      · rw [crit_split]; simpa [PC.crit] using hex
      · have := h.perm
        simp only [filterMap_split, PC.folded] at this ⊢
        simp only [Option.toList, List.nil_append] at this ⊢
        refine (List.Perm.append_right [c] this).trans ?_
        rw [List.append_assoc]
        refine List.Perm.append_left _ ?_
        exact List.perm_append_comm
      · intro _
        rw [List.foldl_append, ← hcore]
        simp only [core, coreTick, List.foldl_cons, List.foldl_nil, ← hi]
        rw [hn]
      · intro own' c' i' hm
        have := hnew _ _ hm rfl
        simp at this
      · intro own' c' ini new hm
        have := hnew _ _ hm rfl
        simp at this
      · intro own' c' hm
        have := hnew _ _ hm rfl
        simp at this
    | false =>
      simp only [callStep, Bool.false_eq_true, if_false]
      refine ⟨l, ⟨?_, ?_, hal, hin, ?_, ?_, ?_, ?_⟩⟩
      · rw [crit_split]; simpa [PC.crit] using hex
      · have := h.perm
        simp only [filterMap_split, PC.folded] at this ⊢; exact this
      · intro hc; exact absurd (by simp) (hc own c)
      · intro own' c' i' hm
        have := hnew _ _ hm rfl
        simp at this
      · intro own' c' ini new hm
        have := hnew _ _ hm rfl
        simp at this
      · intro own' c' hm
        have := hnew _ _ hm rfl
        simp only [PC.setInit.injEq] at this
        refine ⟨s.e.rate, ?_, ?_⟩
        · rw [← hcore]; simp [core, ← hi]
        · rw [this.2]; exact hn
  | setInit own c =>
    obtain ⟨hh, hno⟩ := alone rfl
    obtain ⟨r, hr, hrate⟩ := h.setInit own c (by simp)
    simp only at hrate
    have hnew : ∀ (c' : PC), ∀ d ∈ pre ++ c' :: post, d.crit = true → d = c' := by
      intro c' d hd hdc
      simp only [List.mem_append, List.mem_cons] at hd
      rcases hd with hd | hd | hd
      · rw [hno d (by simp [hd])] at hdc; simp at hdc
      · exact hd
      · rw [hno d (by simp [hd])] at hdc; simp at hdc
    simp only [callStep]
    refine ⟨l ++ [c], ⟨?_, ?_, hal, hin, ?_, ?_, ?_, ?_⟩⟩
    · rw [crit_split]; simpa [PC.crit] using hex
    · have := h.perm
      simp only [filterMap_split, PC.folded] at this ⊢
      simp only [Option.toList, List.nil_append] at this ⊢
      refine (List.Perm.append_right [c] this).trans ?_
      rw [List.append_assoc]
      refine List.Perm.append_left _ ?_
      exact List.perm_append_comm
    · intro _
      rw [List.foldl_append, ← hr]
      simp only [core, coreTick, List.foldl_cons, List.foldl_nil, hrate]
    · intro own' c' i' hm
      have := hnew _ _ hm rfl
      simp at this
    · intro own' c' ini new hm
      have := hnew _ _ hm rfl
      simp at this
    · intro own' c' hm
      have := hnew _ _ hm rfl
      simp at this
  | unlock own c =>
    obtain ⟨hh, hno⟩ := alone rfl
    have hcore := h.idle (fun own' c' hm => by
      simp only [List.mem_append, List.mem_cons] at hm
      rcases hm with hm | hm | hm
      · have := hno _ (List.mem_append_left _ hm); simp [PC.crit] at this
      · simp at hm
      · have := hno _ (List.mem_append_right _ hm); simp [PC.crit] at this)
    have hnew : ∀ d ∈ pre ++ PC.done own c :: post, d.crit = true → False := by
      intro d hd hdc
      simp only [List.mem_append, List.mem_cons] at hd
      rcases hd with hd | hd | hd
      · rw [hno d (by simp [hd])] at hdc; simp at hdc
      · rw [hd] at hdc; simp [PC.crit] at hdc
      · rw [hno d (by simp [hd])] at hdc; simp at hdc
    simp only [callStep]
    refine ⟨l, ⟨?_, ?_, hal, hin, ?_, ?_, ?_, ?_⟩⟩
    · rw [crit_split]
      simp only [PC.crit, hh, if_true] at hex
      have hd : PC.crit (.done own c) = false := rfl
      rw [hd]; simp only [Bool.false_eq_true, if_false, add_zero]; omega
    · have := h.perm
      simp only [filterMap_split, PC.folded] at this ⊢; exact this
    · intro _; exact hcore
    · intro own' c' i' hm; exact (hnew _ hm rfl).elim
    · intro own' c' i' n' hm; exact (hnew _ hm rfl).elim
    · intro own' c' hm; exact (hnew _ hm rfl).elim
  | done own c => exact ⟨l, h⟩

theorem serial_spawn {R : Rounding} {e0 : EWMA} {s : Shared} {cs : List PC} {l : List Int} (a : Op) (h : Serial R e0 ⟨s, cs⟩ l) :
    Serial R e0 ⟨s, cs ++ [(conc R).call a]⟩ l := by
  have hc : ((conc R).call a).crit = false := by cases a <;> rfl
  have hf : ((conc R).call a).folded = none := by cases a <;> rfl
  have hm : ∀ d : PC, d.crit = true → d ∈ cs ++ [(conc R).call a] → d ∈ cs := by
    intro d hd hmem
    simp only [List.mem_append, List.mem_singleton] at hmem
    rcases hmem with h1 | h1
    · exact h1
    · rw [h1, hc] at hd; simp at hd
  refine ⟨?_, ?_, h.alpha, h.interval, ?_, ?_, ?_, ?_⟩
  · have := h.excl
    simpa [List.filter_append, hc] using this
  · have := h.perm
    simpa [List.filterMap_append, hf] using this
  · intro hh; exact h.idle (fun own c hx => hh own c (List.mem_append_left _ hx))
  · intro own c i hx; exact h.read own c i (hm _ rfl hx)
  · intro own c i n hx; exact h.store own c i n (hm _ rfl hx)
  · intro own c hx; exact h.setInit own c (hm _ rfl hx)

theorem serial_start (R : Rounding) (e0 : EWMA) : Serial R e0 ⟨⟨e0, false⟩, []⟩ [] := by
  refine ⟨by simp, by simp, rfl, rfl, ?_, ?_, ?_, ?_⟩ <;> simp

theorem serial_run (R : Rounding) (e0 : EWMA) (es : List (Ev Op Unit)) :
    ∃ l, Serial R e0 ((conc R).run (Machine.start ⟨e0, false⟩) es) l := by
  apply (conc R).inv_run (fun p => ∃ l, Serial R e0 p l)
  · rintro s cs a ⟨l, h⟩
    exact ⟨l, serial_spawn a h⟩
  · rintro s pre c post x ⟨l, h⟩
    exact serial_step (x := x) h
  · exact ⟨[], serial_start R e0⟩

end EWMA
end GoMetrics
