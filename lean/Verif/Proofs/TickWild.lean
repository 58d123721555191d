import Verif.Model.CompassWild
import Verif.Proofs.CompassConc
/-! # Invariants of `tickIfNecessary` when the load of the tick clock may return anything -/
namespace GoMetrics
namespace CompassConc

/-- A step is a step of Model/CompassConc.lean on a memory with some other `lastTick`, of which the result is forgotten; or one on the memory as it is. -/
theorem wildTick_cases (I : Int) (s : Shared) (e : TickSeen) (c : PC) :
    (∃ upd, c = .readOld upd ∧ wildTickStep I s e c = (s, .readClock upd e.last)) ∨ wildTickStep I s e c = callStep I s e.clock c := by
  cases c with
  | readOld upd => exact .inl ⟨upd, rfl, rfl⟩
  | _ => exact .inr rfl

theorem wild_inv_step {I : Int} {s : Shared} {pre post : List PC} {c : PC} (x : TickSeen) (h : Inv ⟨s, pre ++ c :: post⟩) :
    Inv ⟨(wildTickStep I s x c).1, pre ++ (wildTickStep I s x c).2 :: post⟩ := by
  rcases wildTick_cases I s x c with ⟨upd, rfl, e⟩ | e <;> rw [e]
  · have := inv_step (I := I) x.clock h
    refine ⟨?_, ?_, ?_, ?_, ?_⟩
    · have := this.pending
      simpa [callStep, PC.added] using this
    · have := this.h1
      simpa [callStep, PC.hand1] using this
    · have := this.h5
      simpa [callStep, PC.hand5] using this
    · have := this.h15
      simpa [callStep, PC.hand15] using this
    · have := this.ticks
      simpa [callStep, PC.due] using this
  · exact inv_step x.clock h

theorem wild_inv_all (I t0 : Int) (es : List (Ev Bool TickSeen)) :
    Inv ((wildConc I).run (Machine.start { lastTick := t0, uncounted := 0 }) es) :=
  (wildConc I).inv_run Inv (fun _ _ a h => inv_spawn (I := I) a h) (fun _ _ _ _ x h => wild_inv_step x h) _ (inv_start t0) es

theorem wild_chain_all (I t0 : Int) (es : List (Ev Bool TickSeen)) :
    Chain t0 ((wildConc I).run (Machine.start { lastTick := t0, uncounted := 0 }) es).shared.wins
      ((wildConc I).run (Machine.start { lastTick := t0, uncounted := 0 }) es).shared.lastTick := by
  refine (wildConc I).inv_run (fun p => Chain t0 p.shared.wins p.shared.lastTick) (fun _ _ _ h => h) ?_
    (Machine.start { lastTick := t0, uncounted := 0 }) rfl es
  intro s pre c post x h
  change Chain t0 (wildTickStep I s x c).1.wins (wildTickStep I s x c).1.lastTick
  rcases wildTick_cases I s x c with ⟨upd, rfl, e⟩ | e <;> rw [e]
  · exact h
  · exact chain_step x.clock h

/-- Planned swaps are good if they can succeed. -/
structure WildGood (I : Int) (p : Pool Shared PC) : Prop where
  wins : ∀ w ∈ p.shared.wins, Good I w
  range : 0 ≤ p.shared.lastTick ∧ p.shared.lastTick < 2 ^ 63
  plan : ∀ upd o n k, PC.swap upd o n k ∈ p.calls → 0 ≤ o → o < 2 ^ 63 → Good I (o, n, k)

theorem not_swap_after (u : Bool) : ∀ upd o n k, after u ≠ .swap upd o n k := by cases u <;> simp [after]
theorem not_swap_loop (u : Bool) (j : Nat) : ∀ upd o n k, loop u j ≠ .swap upd o n k := by
  cases j
  · exact not_swap_after u
  · simp [loop]

theorem wild_good_step {I : Int} (hI : 0 < I) (hd : I ∣ 5000000000) (s : Shared) (pre post : List PC) (c : PC) (x : TickSeen)
    (hx : 0 ≤ x.clock ∧ x.clock < 2 ^ 63) (h : WildGood I ⟨s, pre ++ c :: post⟩) :
    WildGood I ⟨(wildTickStep I s x c).1, pre ++ (wildTickStep I s x c).2 :: post⟩ := by
  obtain ⟨hw, hr, hp⟩ := h
  simp only at hw hr
  have key : ∀ (s' : Shared) (c' : PC), (∀ w ∈ s'.wins, Good I w) → (0 ≤ s'.lastTick ∧ s'.lastTick < 2 ^ 63) →
      (∀ upd o n k, c' = .swap upd o n k → 0 ≤ o → o < 2 ^ 63 → Good I (o, n, k)) →
      WildGood I ⟨s', pre ++ c' :: post⟩ := by
    intro s' c' h1 h2 h4
    refine ⟨h1, h2, ?_⟩
    intro upd o n k hm
    simp only [List.mem_append, List.mem_cons] at hm
    rcases hm with hm | hm | hm
    · exact hp upd o n k (by simp [hm])
    · exact h4 upd o n k hm.symm
    · exact hp upd o n k (by simp [hm])
  rcases wildTick_cases I s x c with ⟨upd, rfl, e⟩ | e <;> rw [e]
  · exact key _ _ hw hr (by simp)
  · cases c with
    | readOld upd => exact key _ _ hw hr (by simp [callStep])
    | readClock upd old =>
      simp only [callStep]
      by_cases hc : i64 (x.clock - old) > Compass.tickInterval
      · simp only [if_pos hc]
        refine key _ _ hw hr ?_
        intro u o n k he o1 o2
        simp only [PC.swap.injEq] at he
        obtain ⟨-, rfl, rfl, rfl⟩ := he
        exact (good_swap hI hd o1 o2 hx.1 hx.2 hc).1
      · simp only [if_neg hc]
        exact key _ _ hw hr fun _ _ _ _ he => absurd he (not_swap_after _ _ _ _ _)
    | swap upd old new ticks =>
      simp only [callStep]
      by_cases hc : s.lastTick = old
      · have g := hp upd old new ticks (by simp) (hc ▸ hr.1) (hc ▸ hr.2)
        simp only [if_pos hc]
        refine key _ _ ?_ ?_ fun _ _ _ _ he => absurd he (not_swap_loop _ _ _ _ _ _)
        · intro w hm
          simp only [List.mem_append, List.mem_singleton] at hm
          rcases hm with hm | rfl
          · exact hw w hm
          · exact g
        · have g1 := g.1
          have r1 := hr.1
          simp only at g1 ⊢
          exact ⟨by omega, g.2.2.1⟩
      · simp only [if_neg hc]
        exact key _ _ hw hr fun _ _ _ _ he => absurd he (not_swap_after _ _ _ _ _)
    | take upd left count =>
      simp only [callStep]
      by_cases hc : s.uncounted = count
      · simp only [if_pos hc]; exact key _ _ hw hr (by simp)
      · simp only [if_neg hc]; exact key _ _ hw hr (by simp)
    | tick15 upd left count => exact key _ _ hw hr fun _ _ _ _ he => absurd he (not_swap_loop _ _ _ _ _ _)
    | load upd left => exact key _ _ hw hr (by simp [callStep])
    | tick1 upd left count => exact key _ _ hw hr (by simp [callStep])
    | tick5 upd left count => exact key _ _ hw hr (by simp [callStep])
    | add => exact key _ _ hw hr (by simp [callStep])
    | done upd => exact key _ _ hw hr (by simp [callStep])

theorem wild_good_all {I : Int} (hI : 0 < I) (hd : I ∣ 5000000000) (t0 : Int) (h0 : 0 ≤ t0 ∧ t0 < 2 ^ 63) (es : List (Ev Bool TickSeen))
    (hes : ∀ i x, Ev.step i x ∈ es → 0 ≤ x.clock ∧ x.clock < 2 ^ 63) :
    WildGood I ((wildConc I).run (Machine.start { lastTick := t0, uncounted := 0 }) es) := by
  induction es using List.reverseRecOn with
  | nil => exact ⟨by simp [Machine.run, Machine.start], h0, by simp [Machine.run, Machine.start]⟩
  | append_singleton es e ih =>
    have ih := ih (fun i x hm => hes i x (List.mem_append_left _ hm))
    rw [Machine.run_snoc]
    generalize (wildConc I).run (Machine.start { lastTick := t0, uncounted := 0 }) es = p at *
    cases e with
    | spawn a =>
      refine ⟨ih.wins, ih.range, ?_⟩
      intro upd o n k hm
      simp [Machine.apply, wildConc] at hm
      exact ih.plan upd o n k hm
    | step i x =>
      cases h : p.calls[i]? with
      | none => simpa [Machine.apply, h] using ih
      | some c =>
        obtain ⟨pre, post, h1, _, h2⟩ := (wildConc I).apply_step_eq (x := x) h
        rw [h2]
        apply wild_good_step hI hd _ _ _ _ _ (hes i x (by simp))
        rw [← h1]; exact ih

end CompassConc
end GoMetrics
