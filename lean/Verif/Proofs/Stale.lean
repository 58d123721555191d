import Verif.Spec.Stale
/-! # Invariants of machines whose loads may return old values -/
namespace GoMetrics

theorem Aged.at_mem {S : Type} (m : Aged S) (t : Nat) : m.at t ∈ m.all := by
  unfold Aged.at Aged.all
  by_cases h : m.past.length - t < (m.now :: m.past).length
  · rw [List.getD_eq_getElem?_getD, List.getElem?_eq_getElem h]; exact List.getElem_mem h
  · simp only [List.length_cons] at h; omega

theorem Aged.at_now {S : Type} (m : Aged S) (t : Nat) (h : m.past.length ≤ t) : m.at t = m.now := by
  unfold Aged.at
  rw [Nat.sub_eq_zero_of_le h]; rfl

namespace Footprint
variable {S C A I Loc : Type} [DecidableEq Loc] (F : Footprint S C Loc)

/-- To show that `Inv` holds after every schedule, show it for the start, a new call, a step with the present memory, and a load that sees an earlier memory. `Old s' s` is
what is known of an earlier memory `s'` when the present one is `s`. -/
theorem stale_inv' (M : Machine S C A I) (racy : Loc → Bool) (Inv : S → List C → Prop) (Old : S → S → Prop) (P : A → Prop) (Q : I → Prop)
    (hspawn : ∀ s cs a, P a → Inv s cs → Inv s (cs ++ [M.call a]))
    (hstep : ∀ s pre c post x, Q x → Inv s (pre ++ c :: post) → Inv (M.step s x c).1 (pre ++ (M.step s x c).2 :: post))
    (hrefl : ∀ s cs, Inv s cs → Old s s)
    (hold : ∀ s pre c post x s', Q x → Inv s (pre ++ c :: post) → Old s' s → Old s' (M.step s x c).1)
    (hload : ∀ s pre c post x s', Q x → Inv s (pre ++ c :: post) → Old s' s → F.loads racy s c = true → Inv s (pre ++ (M.step s' x c).2 :: post))
    (s0 : S) (h0 : Inv s0 []) (es : List (Ev A (I × Nat))) (hes : ∀ a, Ev.spawn a ∈ es → P a)
    (hxs : ∀ i x t, Ev.step i (x, t) ∈ es → Q x) :
    Inv (F.staleRun M racy s0 es).shared (F.staleRun M racy s0 es).calls ∧
      ∀ s' ∈ ((F.stale M racy).run (Machine.start ⟨s0, []⟩) es).shared.all, Old s' (F.staleRun M racy s0 es).shared := by
  unfold staleRun
  simp only
  suffices h : ∀ p : Pool (Aged S) (C × (Loc → Nat)), p = (F.stale M racy).run (Machine.start ⟨s0, []⟩) es →
      Inv p.shared.now (p.calls.map Prod.fst) ∧ ∀ s' ∈ p.shared.all, Old s' p.shared.now from h _ rfl
  induction es using List.reverseRecOn with
  | nil =>
    rintro p rfl
    refine ⟨h0, ?_⟩
    intro s' hs'
    simp only [Machine.run_nil, Machine.start, Aged.all, List.mem_singleton] at hs'
    rw [hs']
    exact hrefl _ _ h0
  | append_singleton es e ih =>
    rintro p rfl
    obtain ⟨i1, i2⟩ := ih (fun a ha => hes a (by simp [ha])) (fun i x t ha => hxs i x t (by simp [ha])) _ rfl
    rw [Machine.run_snoc]
    generalize (F.stale M racy).run (Machine.start ⟨s0, []⟩) es = p at i1 i2
    cases e with
    | spawn a =>
      simp only [Machine.apply, List.map_append, List.map_cons, List.map_nil]
      exact ⟨hspawn _ _ _ (hes a (by simp)) i1, i2⟩
    | step i x =>
      have hq : Q x.1 := hxs i x.1 x.2 (by simp)
      cases h : p.calls[i]? with
      | none => simp only [Machine.apply, h]; exact ⟨i1, i2⟩
      | some c =>
        obtain ⟨pre, post, h1, -, h2⟩ := (F.stale M racy).apply_step_eq (x := x) h
        rw [h2]
        obtain ⟨m, cs⟩ := p
        simp only at h1 i1 i2
        subst h1
        simp only [List.map_append, List.map_cons] at i1 ⊢
        simp only [stale]
        by_cases hl : F.loads racy m.now c.1 = true
        · simp only [if_pos hl]
          refine ⟨hload _ _ _ _ _ _ hq i1 (i2 _ (m.at_mem _)) hl, ?_⟩
          intro s' hs'
          simp only [Aged.all, List.mem_cons] at hs'
          rcases hs' with rfl | rfl | hs'
          · exact hrefl _ _ i1
          · exact hrefl _ _ i1
          · exact i2 _ (List.mem_cons_of_mem _ hs')
        · simp only [if_neg hl]
          have hn := hstep _ _ _ _ x.1 hq i1
          refine ⟨hn, ?_⟩
          intro s' hs'
          simp only [Aged.all, List.mem_cons] at hs'
          rcases hs' with rfl | rfl | hs'
          · exact hrefl _ _ hn
          · exact hold _ _ _ _ _ _ hq i1 (hrefl _ _ i1)
          · exact hold _ _ _ _ _ _ hq i1 (i2 _ (List.mem_cons_of_mem _ hs'))

/-- The memory after a schedule is part of the history after a longer one. -/
theorem stale_prefix (M : Machine S C A I) (racy : Loc → Bool) (s0 : S) (es es' : List (Ev A (I × Nat))) :
    (F.staleRun M racy s0 es).shared ∈ ((F.stale M racy).run (Machine.start ⟨s0, []⟩) (es ++ es')).shared.all := by
  induction es' using List.reverseRecOn with
  | nil => simp [staleRun, Aged.all]
  | append_singleton es' e ih =>
    rw [← List.append_assoc, Machine.run_snoc]
    generalize (F.stale M racy).run (Machine.start ⟨s0, []⟩) (es ++ es') = p at ih
    cases e with
    | spawn a => exact ih
    | step i x =>
      cases h : p.calls[i]? with
      | none => simp only [Machine.apply, h]; exact ih
      | some c =>
        simp only [Machine.apply, h, stale, Aged.all]
        exact List.mem_cons_of_mem _ ih

section
variable (M : Machine S C A I) (racy : Loc → Bool) (Inv : S → List C → Prop) (Old : S → S → Prop) (P : A → Prop) (Q : I → Prop)
    (hspawn : ∀ s cs a, P a → Inv s cs → Inv s (cs ++ [M.call a]))
    (hstep : ∀ s pre c post x, Q x → Inv s (pre ++ c :: post) → Inv (M.step s x c).1 (pre ++ (M.step s x c).2 :: post))
    (hrefl : ∀ s cs, Inv s cs → Old s s)
    (hold : ∀ s pre c post x s', Q x → Inv s (pre ++ c :: post) → Old s' s → Old s' (M.step s x c).1)
    (hload : ∀ s pre c post x s', Q x → Inv s (pre ++ c :: post) → Old s' s → F.loads racy s c = true → Inv s (pre ++ (M.step s' x c).2 :: post))
    (s0 : S) (h0 : Inv s0 []) (es es' : List (Ev A (I × Nat)))
include hspawn hstep hrefl hold hload h0

theorem stale_inv (hes : ∀ a, Ev.spawn a ∈ es → P a) (hxs : ∀ i x t, Ev.step i (x, t) ∈ es → Q x) :
    Inv (F.staleRun M racy s0 es).shared (F.staleRun M racy s0 es).calls :=
  (F.stale_inv' M racy Inv Old P Q hspawn hstep hrefl hold hload s0 h0 es hes hxs).1

theorem stale_old (hes : ∀ a, Ev.spawn a ∈ es ++ es' → P a) (hxs : ∀ i x t, Ev.step i (x, t) ∈ es ++ es' → Q x) :
    Old (F.staleRun M racy s0 es).shared (F.staleRun M racy s0 (es ++ es')).shared :=
  (F.stale_inv' M racy Inv Old P Q hspawn hstep hrefl hold hload s0 h0 _ hes hxs).2 _ (F.stale_prefix M racy s0 es es')
end

/-- As `stale_inv`, with an invariant that may mention the number of events so far, at most `N`. -/
theorem stale_invN (M : Machine S C A I) (racy : Loc → Bool) (Inv : Nat → S → List C → Prop) (Old : S → S → Prop) (Q : I → Prop) (N : Nat)
    (hskip : ∀ n s cs, n < N → Inv n s cs → Inv (n + 1) s cs)
    (hspawn : ∀ n s cs a, n < N → Inv n s cs → Inv (n + 1) s (cs ++ [M.call a]))
    (hstep : ∀ n s pre c post x, n < N → Q x → Inv n s (pre ++ c :: post) → Inv (n + 1) (M.step s x c).1 (pre ++ (M.step s x c).2 :: post))
    (hrefl : ∀ n s cs, Inv n s cs → Old s s)
    (hold : ∀ n s pre c post x s', n < N → Q x → Inv n s (pre ++ c :: post) → Old s' s → Old s' (M.step s x c).1)
    (hload : ∀ n s pre c post x s', n < N → Q x → Inv n s (pre ++ c :: post) → Old s' s → F.loads racy s c = true → Inv (n + 1) s (pre ++ (M.step s' x c).2 :: post))
    (s0 : S) (h0 : Inv 0 s0 []) (es : List (Ev A (I × Nat))) (hN : es.length ≤ N) (hxs : ∀ i x t, Ev.step i (x, t) ∈ es → Q x) :
    Inv es.length (F.staleRun M racy s0 es).shared (F.staleRun M racy s0 es).calls := by
  unfold staleRun
  simp only
  suffices h : ∀ p : Pool (Aged S) (C × (Loc → Nat)), p = (F.stale M racy).run (Machine.start ⟨s0, []⟩) es →
      Inv es.length p.shared.now (p.calls.map Prod.fst) ∧ ∀ s' ∈ p.shared.all, Old s' p.shared.now from (h _ rfl).1
  induction es using List.reverseRecOn with
  | nil =>
    rintro p rfl
    refine ⟨h0, ?_⟩
    intro s' hs'
    simp only [Machine.run_nil, Machine.start, Aged.all, List.mem_singleton] at hs'
    rw [hs']
    exact hrefl _ _ _ h0
  | append_singleton es e ih =>
    rintro p rfl
    rw [List.length_append, List.length_singleton] at hN
    obtain ⟨i1, i2⟩ := ih (by omega) (fun i x t ha => hxs i x t (by simp [ha])) _ rfl
    rw [Machine.run_snoc, List.length_append, List.length_singleton]
    generalize (F.stale M racy).run (Machine.start ⟨s0, []⟩) es = p at i1 i2
    generalize es.length = n at i1 hN ⊢
    have hN : n < N := hN
    cases e with
    | spawn a =>
      simp only [Machine.apply, List.map_append, List.map_cons, List.map_nil]
      exact ⟨hspawn _ _ _ _ hN i1, i2⟩
    | step i x =>
      have hq : Q x.1 := hxs i x.1 x.2 (by simp)
      cases h : p.calls[i]? with
      | none => simp only [Machine.apply, h]; exact ⟨hskip _ _ _ hN i1, i2⟩
      | some c =>
        obtain ⟨pre, post, h1, -, h2⟩ := (F.stale M racy).apply_step_eq (x := x) h
        rw [h2]
        obtain ⟨m, cs⟩ := p
        simp only at h1 i1 i2
        subst h1
        simp only [List.map_append, List.map_cons] at i1 ⊢
        simp only [stale]
        by_cases hl : F.loads racy m.now c.1 = true
        · simp only [if_pos hl]
          refine ⟨hload _ _ _ _ _ _ _ hN hq i1 (i2 _ (m.at_mem _)) hl, ?_⟩
          intro s' hs'
          simp only [Aged.all, List.mem_cons] at hs'
          rcases hs' with rfl | rfl | hs'
          · exact hrefl _ _ _ i1
          · exact hrefl _ _ _ i1
          · exact i2 _ (List.mem_cons_of_mem _ hs')
        · simp only [if_neg hl]
          have hn := hstep _ _ _ _ _ x.1 hN hq i1
          refine ⟨hn, ?_⟩
          intro s' hs'
          simp only [Aged.all, List.mem_cons] at hs'
          rcases hs' with rfl | rfl | hs'
          · exact hrefl _ _ _ hn
          · exact hold _ _ _ _ _ _ _ hN hq i1 (hrefl _ _ _ i1)
          · exact hold _ _ _ _ _ _ _ hN hq i1 (i2 _ (List.mem_cons_of_mem _ hs'))

/-- A schedule whose loads all see the present is a schedule of `M`. -/
theorem staleRun_fresh (M : Machine S C A I) (racy : Loc → Bool) (hc : F.Covers M racy) (s0 : S) (es : List (Ev A I)) (k : Nat) (hk : es.length ≤ k) :
    F.staleRun M racy s0 (es.map fun | .spawn a => .spawn a | .step i x => .step i (x, k)) = M.run (Machine.start s0) es := by
  unfold staleRun
  simp only
  suffices h : ∀ p : Pool (Aged S) (C × (Loc → Nat)), p = (F.stale M racy).run (Machine.start ⟨s0, []⟩)
      (es.map fun | .spawn a => .spawn a | .step i x => .step i (x, k)) →
      p.shared.past.length ≤ es.length ∧ (⟨p.shared.now, p.calls.map Prod.fst⟩ : Pool S C) = M.run (Machine.start s0) es from (h _ rfl).2
  induction es using List.reverseRecOn with
  | nil => rintro p rfl; exact ⟨le_rfl, rfl⟩
  | append_singleton es e ih =>
    rintro p rfl
    obtain ⟨i1, i2⟩ := ih (by simp at hk; omega) _ rfl
    rw [List.map_append, List.map_singleton, Machine.run_snoc, Machine.run_snoc, ← i2]
    generalize (F.stale M racy).run (Machine.start ⟨s0, []⟩) _ = p at i1 i2
    simp only [List.length_append, List.length_singleton] at hk
    cases e with
    | spawn a =>
      simp only [Machine.apply, List.length_append, List.length_singleton]
      exact ⟨by omega, by simp [stale]⟩
    | step i x =>
      cases h : p.calls[i]? with
      | none =>
        simp only [Machine.apply, h, List.getElem?_map, Option.map_none, List.length_append, List.length_singleton]
        exact ⟨by omega, trivial⟩
      | some c =>
        simp only [Machine.apply, h, List.getElem?_map, Option.map_some, List.length_append, List.length_singleton]
        simp only [stale, List.length_cons]
        refine ⟨by omega, ?_⟩
        by_cases hl : F.loads racy p.shared.now c.1 = true
        · simp only [if_pos hl, List.map_set]
          rw [Aged.at_now _ _ (by omega), hc.pure _ _ _ hl]
        · simp only [if_neg hl, List.map_set]

end Footprint
end GoMetrics
