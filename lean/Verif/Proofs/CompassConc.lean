import Verif.Model.CompassConc
import Mathlib.Data.Multiset.AddSub
import Mathlib.Algebra.BigOperators.Group.Multiset.Basic
/-! # Compass: invariants of the interleaving semantics -/
namespace GoMetrics
namespace CompassConc

/-- Has this call incremented the pending count? -/
def PC.added : PC → Int
  | .done true => 1
  | _ => 0

/-- Counts taken out of `uncounted` and not yet fed to the 1-, 5-, 15-minute average. -/
def PC.hand1 : PC → List Int
  | .tick1 _ _ c => [c]
  | _ => []
def PC.hand5 : PC → List Int
  | .tick1 _ _ c | .tick5 _ _ c => [c]
  | _ => []
def PC.hand15 : PC → List Int
  | .tick1 _ _ c | .tick5 _ _ c | .tick15 _ _ c => [c]
  | _ => []

/-- Iterations of the loop that have not yet taken their count. -/
def PC.due : PC → Nat
  | .load _ k | .take _ k _ => k + 1
  | .tick1 _ k _ | .tick5 _ k _ | .tick15 _ k _ => k
  | _ => 0

theorem due_loop (upd k) : (loop upd k).due = k := by cases k <;> cases upd <;> rfl
theorem added_loop (upd k) : (loop upd k).added = 0 := by cases k <;> cases upd <;> rfl
theorem hand1_loop (upd k) : (loop upd k).hand1 = [] := by cases k <;> cases upd <;> rfl
theorem hand5_loop (upd k) : (loop upd k).hand5 = [] := by cases k <;> cases upd <;> rfl
theorem hand15_loop (upd k) : (loop upd k).hand15 = [] := by cases k <;> cases upd <;> rfl
theorem due_after (upd) : (after upd).due = 0 := by cases upd <;> rfl
theorem added_after (upd) : (after upd).added = 0 := by cases upd <;> rfl
theorem hand1_after (upd) : (after upd).hand1 = [] := by cases upd <;> rfl
theorem hand5_after (upd) : (after upd).hand5 = [] := by cases upd <;> rfl
theorem hand15_after (upd) : (after upd).hand15 = [] := by cases upd <;> rfl

theorem flatMap_replace (f : PC → List Int) (pre post : List PC) (c : PC) :
    ((pre ++ c :: post).flatMap f : Multiset Int) = ((pre ++ post).flatMap f : List Int) + (f c : Multiset Int) := by
  simp only [List.flatMap_append, List.flatMap_cons, ← Multiset.coe_add]
  abel

/-- The invariant of the counts. -/
structure Inv (p : Pool Shared PC) : Prop where
  pending : p.shared.uncounted = i64 ((p.calls.map PC.added).sum - p.shared.taken.sum)
  h1 : (p.shared.taken : Multiset Int) = p.shared.fed1 + (p.calls.flatMap PC.hand1 : List Int)
  h5 : (p.shared.taken : Multiset Int) = p.shared.fed5 + (p.calls.flatMap PC.hand5 : List Int)
  h15 : (p.shared.taken : Multiset Int) = p.shared.fed15 + (p.calls.flatMap PC.hand15 : List Int)
  ticks : ((p.shared.wins.map fun w => (w.2.2 : Int)).sum) = p.shared.taken.length + (p.calls.map fun c => (c.due : Int)).sum

theorem step_counts (I : Int) (s : Shared) (x : Int) (c : PC) (hin : InI64 s.uncounted) :
    let s' := (callStep I s x c).1
    let c' := (callStep I s x c).2
    s'.uncounted = i64 (s.uncounted + (c'.added - c.added) - (s'.taken.sum - s.taken.sum)) ∧
    (s'.taken : Multiset Int) + c.hand1 + s.fed1 = s.taken + c'.hand1 + s'.fed1 ∧
    (s'.taken : Multiset Int) + c.hand5 + s.fed5 = s.taken + c'.hand5 + s'.fed5 ∧
    (s'.taken : Multiset Int) + c.hand15 + s.fed15 = s.taken + c'.hand15 + s'.fed15 ∧
    ((s'.wins.map fun w => (w.2.2 : Int)).sum) + s.taken.length + c.due =
      ((s.wins.map fun w => (w.2.2 : Int)).sum) + s'.taken.length + c'.due := by
  have h' := i64_of_in hin
  cases c with
  | readOld upd => simp [callStep, PC.added, PC.hand1, PC.hand5, PC.hand15, PC.due, h']
  | readClock upd old =>
    simp only [callStep]
    by_cases hc : i64 (x - old) > Compass.tickInterval
    · simp [hc, PC.added, PC.hand1, PC.hand5, PC.hand15, PC.due, h']
    · simp only [if_neg hc, due_after, added_after, hand1_after, hand5_after, hand15_after]
      simp [PC.added, PC.hand1, PC.hand5, PC.hand15, PC.due, h']
  | swap upd old new ticks =>
    simp only [callStep]
    by_cases hc : s.lastTick = old
    · simp only [if_pos hc, added_loop, hand1_loop, hand5_loop, hand15_loop, due_loop]
      simp [PC.added, PC.hand1, PC.hand5, PC.hand15, PC.due, h']
      omega
    · simp only [if_neg hc, due_after, added_after, hand1_after, hand5_after, hand15_after]
      simp [PC.added, PC.hand1, PC.hand5, PC.hand15, PC.due, h']
  | load upd left => simp [callStep, PC.added, PC.hand1, PC.hand5, PC.hand15, PC.due, h']
  | take upd left count =>
    simp only [callStep]
    by_cases hc : s.uncounted = count
    · subst hc
      simp only [if_true, PC.added, PC.hand1, PC.hand5, PC.hand15, PC.due, List.sum_append, List.sum_cons, List.sum_nil,
        ← Multiset.coe_add, List.length_append, List.length_singleton]
      refine ⟨by unfold i64; omega, by simp, by simp, by simp, by push_cast; ring⟩
    · simp [hc, PC.added, PC.hand1, PC.hand5, PC.hand15, PC.due, h']
  | tick1 upd left count =>
    simp only [callStep, PC.added, PC.hand1, PC.hand5, PC.hand15, PC.due, ← Multiset.coe_add]
    exact ⟨by simp [h'], by simp only [Multiset.coe_nil, add_zero]; abel, trivial, trivial, trivial⟩
  | tick5 upd left count =>
    simp only [callStep, PC.added, PC.hand1, PC.hand5, PC.hand15, PC.due, ← Multiset.coe_add]
    exact ⟨by simp [h'], trivial, by simp only [Multiset.coe_nil, add_zero]; abel, trivial, trivial⟩
  | tick15 upd left count =>
    simp only [callStep, added_loop, hand1_loop, hand5_loop, hand15_loop, due_loop, ← Multiset.coe_add]
    simp only [PC.added, PC.hand1, PC.hand5, PC.hand15, PC.due]
    exact ⟨by simp [h'], trivial, trivial, by simp only [Multiset.coe_nil, add_zero]; abel, trivial⟩
  | add => simp [callStep, PC.added, PC.hand1, PC.hand5, PC.hand15, PC.due]
  | done upd => cases upd <;> simp [callStep, PC.added, PC.hand1, PC.hand5, PC.hand15, PC.due, h']

theorem inv_spawn {I : Int} {s : Shared} {cs : List PC} (a : Bool) (h : Inv ⟨s, cs⟩) : Inv ⟨s, cs ++ [(conc I).call a]⟩ := by
  refine ⟨?_, ?_, ?_, ?_, ?_⟩
  · simpa [conc, PC.added] using h.pending
  · simpa [conc, PC.hand1] using h.h1
  · simpa [conc, PC.hand5] using h.h5
  · simpa [conc, PC.hand15] using h.h15
  · simpa [conc, PC.due] using h.ticks

theorem inv_step {I : Int} {s : Shared} {pre post : List PC} {c : PC} (x : Int) (h : Inv ⟨s, pre ++ c :: post⟩) :
    Inv ⟨(callStep I s x c).1, pre ++ (callStep I s x c).2 :: post⟩ := by
  have hin : InI64 s.uncounted := by rw [h.pending]; exact i64_in _
  obtain ⟨a1, a2, a3, a4, a5⟩ := step_counts I s x c hin
  refine ⟨?_, ?_, ?_, ?_, ?_⟩
  · simp only
    rw [sum_map_replace PC.added pre post c, a1]
    have hp := h.pending
    simp only at hp
    rw [hp]
    generalize ((pre ++ c :: post).map PC.added).sum = A
    generalize s.taken.sum = B
    unfold i64; omega
  · have := h.h1
    simp only [flatMap_replace] at this ⊢
    have h2 := congrArg (· + (((callStep I s x c).2.hand1 : List Int) : Multiset Int) + ((callStep I s x c).1.fed1 : Multiset Int)) this
    simp only [← a2] at h2
    have h3 : ((callStep I s x c).1.taken : Multiset Int) + (c.hand1 + s.fed1) =
        ((callStep I s x c).1.fed1 + (((pre ++ post).flatMap PC.hand1 : List Int) + ((callStep I s x c).2.hand1 : Multiset Int)))
          + (c.hand1 + s.fed1) := by
      rw [← add_assoc, h2]; abel
    exact add_right_cancel h3
  · have := h.h5
    simp only [flatMap_replace] at this ⊢
    have h2 := congrArg (· + (((callStep I s x c).2.hand5 : List Int) : Multiset Int) + ((callStep I s x c).1.fed5 : Multiset Int)) this
    simp only [← a3] at h2
    have h3 : ((callStep I s x c).1.taken : Multiset Int) + (c.hand5 + s.fed5) =
        ((callStep I s x c).1.fed5 + (((pre ++ post).flatMap PC.hand5 : List Int) + ((callStep I s x c).2.hand5 : Multiset Int)))
          + (c.hand5 + s.fed5) := by
      rw [← add_assoc, h2]; abel
    exact add_right_cancel h3
  · have := h.h15
    simp only [flatMap_replace] at this ⊢
    have h2 := congrArg (· + (((callStep I s x c).2.hand15 : List Int) : Multiset Int) + ((callStep I s x c).1.fed15 : Multiset Int)) this
    simp only [← a4] at h2
    have h3 : ((callStep I s x c).1.taken : Multiset Int) + (c.hand15 + s.fed15) =
        ((callStep I s x c).1.fed15 + (((pre ++ post).flatMap PC.hand15 : List Int) + ((callStep I s x c).2.hand15 : Multiset Int)))
          + (c.hand15 + s.fed15) := by
      rw [← add_assoc, h2]; abel
    exact add_right_cancel h3
  · have := h.ticks
    simp only at this ⊢
    rw [sum_map_replace (fun c => (c.due : Int)) pre post c]
    omega

theorem inv_start (t0 : Int) : Inv ⟨{ lastTick := t0, uncounted := 0 }, []⟩ := ⟨by simp, by simp, by simp, by simp, by simp⟩

theorem inv_all (I t0 : Int) (es : List (Ev Bool Int)) :
    Inv ((conc I).run (Machine.start { lastTick := t0, uncounted := 0 }) es) :=
  (conc I).inv_run Inv (fun _ _ a h => inv_spawn a h) (fun _ _ _ _ x h => inv_step x h) _ (inv_start t0) es

/-- The swaps form a chain from `t0` to the current `lastTick`. -/
def Chain (t0 : Int) : List (Int × Int × Nat) → Int → Prop
  | [], t => t = t0
  | w :: ws, t => w.1 = t0 ∧ Chain w.2.1 ws t

theorem chain_snoc (t0 : Int) (ws : List (Int × Int × Nat)) (w : Int × Int × Nat) (t : Int) :
    Chain t0 (ws ++ [w]) t ↔ Chain t0 ws w.1 ∧ t = w.2.1 := by
  induction ws generalizing t0 with
  | nil => simp [Chain]
  | cons a ws ih => simp only [List.cons_append, Chain, ih, and_assoc]

theorem chain_step {I t0 : Int} {s : Shared} {c : PC} (x : Int) (h : Chain t0 s.wins s.lastTick) :
    Chain t0 (callStep I s x c).1.wins (callStep I s x c).1.lastTick := by
  cases c with
  | swap upd old new ticks =>
    simp only [callStep]
    by_cases hc : s.lastTick = old
    · simp only [if_pos hc, chain_snoc]
      subst hc
      exact ⟨h, trivial⟩
    · simpa [hc] using h
  | take upd left count =>
    simp only [callStep]
    by_cases hc : s.uncounted = count <;> simpa [hc] using h
  | _ => exact h

theorem chain_all (I t0 : Int) (es : List (Ev Bool Int)) :
    Chain t0 ((conc I).run (Machine.start { lastTick := t0, uncounted := 0 }) es).shared.wins
      ((conc I).run (Machine.start { lastTick := t0, uncounted := 0 }) es).shared.lastTick :=
  (conc I).inv_run (fun p => Chain t0 p.shared.wins p.shared.lastTick) (fun _ _ _ h => h) (fun _ _ _ _ x h => chain_step x h)
    (Machine.start { lastTick := t0, uncounted := 0 }) rfl es

/-- Facts about the planned and performed swaps when the interval divides 5 s and the clock readings are non-negative int64s. -/
def Good (I : Int) (w : Int × Int × Nat) : Prop :=
  w.1 + 5000000000 * w.2.2 ≤ w.2.1 ∧ 1 ≤ w.2.2 ∧ w.2.1 < 2 ^ 63 ∧ (I = 5000000000 → w.1 + 5000000000 * w.2.2 = w.2.1)

theorem good_swap {I old clock : Int} (hI : 0 < I) (hd : I ∣ 5000000000) (h0 : 0 ≤ old) (h1 : old < 2 ^ 63)
    (hc : 0 ≤ clock) (hc' : clock < 2 ^ 63) (hage : i64 (clock - old) > Compass.tickInterval) :
    Good I (old, i64 (clock - (i64 (clock - old)).tmod I), ((i64 (clock - old)).tdiv Compass.tickInterval).toNat) ∧
      i64 (clock - (i64 (clock - old)).tmod I) ≤ clock := by
  norm_num at h1 hc'
  have ha : i64 (clock - old) = clock - old := by apply i64_of_in; unfold InI64; omega
  rw [ha] at hage ⊢
  unfold Compass.tickInterval at *
  have hp : 0 ≤ clock - old := by omega
  rw [Int.tdiv_eq_ediv_of_nonneg hp, Int.tmod_eq_emod_of_nonneg hp]
  have r1 := Int.emod_nonneg (clock - old) (by omega : I ≠ 0)
  have r2 := Int.emod_lt_of_pos (clock - old) hI
  have hIle : I ≤ 5000000000 := Int.le_of_dvd (by norm_num) hd
  have hin : i64 (clock - (clock - old) % I) = clock - (clock - old) % I := by
    apply i64_of_in; unfold InI64; omega
  rw [hin]
  have hcast : (((clock - old) / 5000000000).toNat : Int) = (clock - old) / 5000000000 :=
    Int.toNat_of_nonneg (by omega)
  have hmod : (clock - old) % I ≤ (clock - old) % 5000000000 := by
    rw [← Int.emod_emod_of_dvd (clock - old) hd]
    have ha : 0 ≤ (clock - old) % 5000000000 := by omega
    have hd := Int.ediv_nonneg ha (by omega : 0 ≤ I)
    have he := Int.mul_ediv_add_emod ((clock - old) % 5000000000) I
    nlinarith
  unfold Good
  norm_num
  refine ⟨⟨by omega, by omega, by omega, ?_⟩, by omega⟩
  rintro rfl
  omega

/-- The clock readings supplied to a schedule are non-negative int64 values. -/
def ClockOK (es : List (Ev Bool Int)) : Prop := ∀ i x, Ev.step i x ∈ es → 0 ≤ x ∧ x < 2 ^ 63

structure GoodInv (I : Int) (p : Pool Shared PC) : Prop where
  wins : ∀ w ∈ p.shared.wins, Good I w
  range : 0 ≤ p.shared.lastTick ∧ p.shared.lastTick < 2 ^ 63
  old : ∀ upd o, PC.readClock upd o ∈ p.calls → 0 ≤ o ∧ o < 2 ^ 63
  plan : ∀ upd o n k, PC.swap upd o n k ∈ p.calls → Good I (o, n, k) ∧ 0 ≤ o

theorem good_step {I : Int} (hI : 0 < I) (hd : I ∣ 5000000000) (s : Shared) (pre post : List PC) (c : PC) (x : Int)
    (hx : 0 ≤ x ∧ x < 2 ^ 63) (h : GoodInv I ⟨s, pre ++ c :: post⟩) :
    GoodInv I ⟨(callStep I s x c).1, pre ++ (callStep I s x c).2 :: post⟩ := by
  obtain ⟨hw, hr, ho, hp⟩ := h
  simp only at hw hr
  -- a step that changes neither the log nor the tick clock
  have key : ∀ (s' : Shared) (c' : PC), (∀ w ∈ s'.wins, Good I w) → (0 ≤ s'.lastTick ∧ s'.lastTick < 2 ^ 63) →
      (∀ upd o, c' = .readClock upd o → 0 ≤ o ∧ o < 2 ^ 63) → (∀ upd o n k, c' = .swap upd o n k → Good I (o, n, k) ∧ 0 ≤ o) →
      GoodInv I ⟨s', pre ++ c' :: post⟩ := by
    intro s' c' h1 h2 h3 h4
    refine ⟨h1, h2, ?_, ?_⟩
    · intro upd o hm
      simp only [List.mem_append, List.mem_cons] at hm
      rcases hm with hm | hm | hm
      · exact ho upd o (by simp [hm])
      · exact h3 upd o hm.symm
      · exact ho upd o (by simp [hm])
    · intro upd o n k hm
      simp only [List.mem_append, List.mem_cons] at hm
      rcases hm with hm | hm | hm
      · exact hp upd o n k (by simp [hm])
      · exact h4 upd o n k hm.symm
      · exact hp upd o n k (by simp [hm])
  have hafter : ∀ upd, (∀ u o, after upd = .readClock u o → 0 ≤ o ∧ o < 2 ^ 63) ∧
      (∀ u o n k, after upd = .swap u o n k → Good I (o, n, k) ∧ 0 ≤ o) := by
    intro upd; cases upd <;> simp [after]
  have hloop : ∀ upd k, (∀ u o, loop upd k = .readClock u o → 0 ≤ o ∧ o < 2 ^ 63) ∧
      (∀ u o n k', loop upd k = .swap u o n k' → Good I (o, n, k') ∧ 0 ≤ o) := by
    intro upd k; cases k
    · exact hafter upd
    · simp [loop]
  cases c with
  | readOld upd =>
    refine key _ _ hw hr ?_ (by simp [callStep])
    intro u o he
    simp only [callStep, PC.readClock.injEq] at he
    rw [← he.2]; exact hr
  | readClock upd old =>
    obtain ⟨o1, o2⟩ := ho upd old (by simp)
    simp only [callStep]
    by_cases hc : i64 (x - old) > Compass.tickInterval
    · simp only [if_pos hc]
      refine key _ _ hw hr (by simp) ?_
      intro u o n k he
      simp only [PC.swap.injEq] at he
      obtain ⟨-, rfl, rfl, rfl⟩ := he
      exact ⟨(good_swap hI hd o1 o2 hx.1 hx.2 hc).1, o1⟩
    · simp only [if_neg hc]
      exact key _ _ hw hr (hafter upd).1 (hafter upd).2
  | swap upd old new ticks =>
    obtain ⟨g, o1⟩ := hp upd old new ticks (by simp)
    simp only [callStep]
    by_cases hc : s.lastTick = old
    · simp only [if_pos hc]
      refine key _ _ ?_ ?_ (hloop upd ticks).1 (hloop upd ticks).2
      · intro w hm
        simp only [List.mem_append, List.mem_singleton] at hm
        rcases hm with hm | rfl
        · exact hw w hm
        · exact g
      · have g1 := g.1
        simp only at g1 ⊢
        exact ⟨by omega, g.2.2.1⟩
    · simp only [if_neg hc]
      exact key _ _ hw hr (hafter upd).1 (hafter upd).2
  | take upd left count =>
    simp only [callStep]
    by_cases hc : s.uncounted = count
    · simp only [if_pos hc]; exact key _ _ hw hr (by simp) (by simp)
    · simp only [if_neg hc]; exact key _ _ hw hr (by simp) (by simp)
  | tick15 upd left count => exact key _ _ hw hr (hloop upd left).1 (hloop upd left).2
  | load upd left => exact key _ _ hw hr (by simp [callStep]) (by simp [callStep])
  | tick1 upd left count => exact key _ _ hw hr (by simp [callStep]) (by simp [callStep])
  | tick5 upd left count => exact key _ _ hw hr (by simp [callStep]) (by simp [callStep])
  | add => exact key _ _ hw hr (by simp [callStep]) (by simp [callStep])
  | done upd => exact key _ _ hw hr (by simp [callStep]) (by simp [callStep])

theorem good_spawn {I : Int} {s : Shared} {cs : List PC} (a : Bool) (h : GoodInv I ⟨s, cs⟩) : GoodInv I ⟨s, cs ++ [(conc I).call a]⟩ := by
  refine ⟨h.wins, h.range, ?_, ?_⟩
  · intro upd o hm
    simp [conc] at hm
    exact h.old upd o hm
  · intro upd o n k hm
    simp [conc] at hm
    exact h.plan upd o n k hm

theorem good_all {I : Int} (hI : 0 < I) (hd : I ∣ 5000000000) (t0 : Int) (h0 : 0 ≤ t0 ∧ t0 < 2 ^ 63) (es : List (Ev Bool Int))
    (hes : ClockOK es) : GoodInv I ((conc I).run (Machine.start { lastTick := t0, uncounted := 0 }) es) := by
  induction es using List.reverseRecOn with
  | nil => exact ⟨by simp [Machine.run, Machine.start], h0, by simp [Machine.run, Machine.start], by simp [Machine.run, Machine.start]⟩
  | append_singleton es e ih =>
    have ih := ih (fun i x hm => hes i x (List.mem_append_left _ hm))
    rw [Machine.run_snoc]
    generalize (conc I).run (Machine.start { lastTick := t0, uncounted := 0 }) es = p at *
    cases e with
    | spawn a => exact good_spawn a ih
    | step i x =>
      cases h : p.calls[i]? with
      | none => simpa [Machine.apply, h] using ih
      | some c =>
        obtain ⟨pre, post, h1, _, h2⟩ := (conc I).apply_step_eq (x := x) h
        rw [h2]
        apply good_step hI hd _ _ _ _ _ (hes i x (by simp))
        rw [← h1]; exact ih

/-- Along a chain of good swaps time advances by at least 5 s per tick granted, exactly 5 s if the interval is 5 s. -/
theorem chain_good {I t0 t : Int} {ws : List (Int × Int × Nat)} (hc : Chain t0 ws t) (hg : ∀ w ∈ ws, Good I w) :
    t0 + 5000000000 * (ws.map fun w => (w.2.2 : Int)).sum ≤ t ∧
    (I = 5000000000 → t0 + 5000000000 * (ws.map fun w => (w.2.2 : Int)).sum = t) ∧
    (ws.map Prod.fst).Pairwise (· < ·) ∧ (∀ w ∈ ws, t0 ≤ w.1) := by
  induction ws generalizing t0 with
  | nil => simp only [Chain] at hc; subst hc; simp
  | cons w ws ih =>
    obtain ⟨h1, h2⟩ := hc
    obtain ⟨a, b, c, d⟩ := ih h2 (fun w hw => hg w (List.mem_cons_of_mem _ hw))
    obtain ⟨g1, g2, g3, g4⟩ := hg w (by simp)
    simp only [List.map_cons, List.sum_cons, List.pairwise_cons, List.mem_map, forall_exists_index, and_imp,
      forall_apply_eq_imp_iff₂, List.mem_cons, forall_eq_or_imp]
    refine ⟨by omega, ?_, ⟨?_, c⟩, by omega, ?_⟩
    · intro hI
      have := b hI; have := g4 hI; omega
    · intro w' hw'; have := d w' hw'; omega
    · intro w' hw'; have := d w' hw'; omega

end CompassConc
end GoMetrics
