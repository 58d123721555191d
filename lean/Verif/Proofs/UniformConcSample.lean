import Verif.Proofs.UniformConcCount
/-! # The positions drawn under concurrent updates, and the samples of C52 -/
namespace GoMetrics.UniformConc
open UniformReservoir UniformFair UniformWords

/-- The positions of the first `c` values do not matter. -/
theorem run_history (c : Nat) (vs : List Int) (s : List Nat) (h : vs.length = s.length) (hs : ∀ (k p : Nat), s[k]? = some p → p ≤ k)
    (hl : vs.length < 9223372036854775808) : (UniformReservoir.new c).run (history vs s) = filled c vs (s.drop c) := by
  induction vs using List.reverseRecOn generalizing s with
  | nil =>
    have : s = [] := List.length_eq_zero_iff.1 (by simpa using h.symm)
    subst this; simp [history, filled]
  | append_singleton vs v ih =>
    rcases List.eq_nil_or_concat s with rfl | ⟨s, k, rfl⟩
    · simp at h
    · rw [List.concat_eq_append] at h hs ⊢
      have h' : vs.length = s.length := by simpa using h
      have hl' : vs.length + 1 < 9223372036854775808 := by simpa using hl
      have hk : k ≤ s.length := hs s.length k (by simp)
      have ih' := ih s h' (fun j p hj => hs j p (by rw [List.getElem?_append_left]; exact hj; exact (List.getElem?_eq_some_iff.1 hj).1)) (by omega)
      have hcount := count_filled c vs (s.drop c) (by rw [List.length_drop]; omega) (by omega)
      have hlen := length_filled c vs (s.drop c)
      rw [history_snoc h', run_snoc, ih']
      by_cases hc : vs.length < c
      · have e1 : (s ++ [k]).drop c = s.drop c := by
          rw [List.drop_eq_nil_of_le (by simp; omega), List.drop_eq_nil_of_le (by omega)]
        rw [e1, filled_fill c vs _ v hc hl', updateN_fill hcount (by omega) hl']; rfl
      · have e1 : (s ++ [k]).drop c = s.drop c ++ [k] := by rw [List.drop_append_of_le_length (by omega)]
        have e2 : filled c (vs ++ [v]) (s.drop c ++ [k]) = ((filled c vs (s.drop c)).updateN [(k : Int)] v).state := by
          unfold filled
          rw [List.map_append, ← List.append_assoc, List.zip_append (by simp [h']; omega), List.map_singleton, List.zip_cons_cons, List.zip_nil_left, run_snoc]
        rw [e1, e2]

theorem sampleOf_filled {c : Nat} {vs : List Int} {s : List Nat} (hs : s ∈ draws vs.length) (hl : vs.length < 9223372036854775808) :
    sampleOf c vs s = (filled c vs (s.drop c)).values := by
  obtain ⟨h1, h2⟩ := (mem_draws _ s).1 hs
  unfold sampleOf
  rw [run_history c vs s h1.symm h2 hl]

theorem valid_drop {c n : Nat} {s : List Nat} (hs : s ∈ draws n) : Valid c (s.drop c) := by
  obtain ⟨h1, h2⟩ := (mem_draws _ s).1 hs
  intro j k hj
  rw [List.getElem?_drop] at hj
  have := h2 _ _ hj
  omega

theorem countP_drop (c m : Nat) (t : List Nat) (ht : t.length = m) (hv : Valid c t) : (draws (c + m)).countP (fun s => decide (s.drop c = t)) = c.factorial := by
  induction m generalizing t with
  | zero =>
    have : t = [] := List.length_eq_zero_iff.1 ht
    subst this
    rw [List.countP_eq_length.2, length_draws]; rfl
    intro s hs
    have := ((mem_draws _ s).1 hs).1
    simp only [decide_eq_true_eq, List.drop_eq_nil_iff]; omega
  | succ m ih =>
    rcases List.eq_nil_or_concat t with rfl | ⟨t, k, rfl⟩
    · simp at ht
    · rw [List.concat_eq_append] at ht hv ⊢
      have hk : k < c + 1 + t.length := valid_split (t := []) (by simpa using hv)
      have ht' : t.length = m := by simpa using ht
      have hvt : Valid c t := by
        intro j p hj
        refine hv j p ?_
        rw [List.getElem?_append_left]; exact hj; exact (List.getElem?_eq_some_iff.1 hj).1
      rw [← Nat.add_assoc, countP_draws, ← ih t ht' hvt, sum_ite_const _ (fun s => decide (s.drop c = t)) 1, Nat.mul_one]
      intro s hs
      have hsl := ((mem_draws _ s).1 hs).1
      have e : ∀ p, (s ++ [p]).drop c = s.drop c ++ [p] := fun p => by rw [List.drop_append_of_le_length (by omega)]
      by_cases hst : s.drop c = t
      · simp only [e, hst, decide_true, if_true]
        refine Eq.trans (List.countP_congr fun p _ => ?_) (countP_range_eq (c + m + 1) k (by omega))
        simp
      · simp only [e, hst, decide_false, Bool.false_eq_true, if_false]
        rw [List.countP_eq_zero]
        intro p _ h
        rw [decide_eq_true_eq] at h
        exact hst (List.append_inj' h rfl).1

theorem countP_swap {α β : Type} (l : List α) (m : List β) (f : α → β → Bool) :
    (l.map fun a => m.countP (f a)).sum = (m.map fun b => l.countP fun a => f a b).sum := by
  induction l with
  | nil => simp
  | cons a l ih =>
    rw [List.map_cons, List.sum_cons, ih]
    simp only [List.countP_cons]
    rw [List.sum_map_add, Nat.add_comm]
    congr 1
    rw [countP_eq_sum]

/-- Whatever the control flow, the reservoir is distributed as if the updates had been made one after the other. -/
theorem count_good {c : Nat} {M : Nat} (hM : Uniform M) (sched : Schedule) (hsp : spawns sched < 9223372036854775808) (B : P → Bool) (vs : List Int)
    (hc : c ≤ vs.length) (hl : vs.length < 9223372036854775808)
    (hB : ∀ q : P, B (ghost q) = true → (∀ a ins l, GuardPC.wIn a ins l ∉ q.calls) ∧ q.shared.log.map Prod.fst = vs) (Q : List Int → Bool) :
    ((wordLists M (turns sched)).countP fun ws => B (ghost (after c (supplied sched ws))) && Q (after c (supplied sched ws)).shared.obj.values) * vs.length.factorial =
      ((wordLists M (turns sched)).countP fun ws => B (ghost (after c (supplied sched ws)))) * (draws vs.length).countP fun s => Q (sampleOf c vs s) := by
  let p0 : P := Guarded.init (UniformReservoir.new c)
  have hJ : ∀ ws, J c (after c (supplied sched ws)) (tracing p0 (supplied sched ws)) := by
    intro ws
    have := j_run sched p0 [] ws (j_start c) (by simpa [p0, Guarded.init, Machine.start] using hsp)
    rw [List.nil_append] at this
    exact this
  have hK : ∃ K, ∀ s ∈ draws vs.length, cnt M p0 sched B (s.drop c) = K := by
    have : ∀ s ∈ draws vs.length, ∀ s' ∈ draws vs.length, cnt M p0 sched B (s.drop c) = cnt M p0 sched B (s'.drop c) := by
      intro s hs s' hs'
      refine cnt_eq hM B sched p0 p0 [] [] _ _ (j_start c) (j_start c) rfl rfl ?_ (by simpa using valid_drop hs) (by simpa using valid_drop hs')
        (by simpa [p0, Guarded.init, Machine.start] using hsp)
      rw [List.length_drop, List.length_drop, ((mem_draws _ s).1 hs).1, ((mem_draws _ s').1 hs').1]
    have hne : draws vs.length ≠ [] := by
      intro e
      have := length_draws vs.length
      rw [e] at this
      exact absurd this.symm (Nat.factorial_ne_zero _)
    obtain ⟨s0, hs0⟩ := List.exists_mem_of_ne_nil _ hne
    exact ⟨_, fun s hs => this s hs s0 hs0⟩
  obtain ⟨K, hK⟩ := hK
  have key : ∀ Q : List Int → Bool, (draws vs.length).countP (fun s => Q (sampleOf c vs s)) * K =
      ((wordLists M (turns sched)).countP fun ws => B (ghost (after c (supplied sched ws))) && Q (after c (supplied sched ws)).shared.obj.values) * c.factorial := by
    intro Q
    rw [← sum_ite_const (draws vs.length) (fun s => Q (sampleOf c vs s)) K (fun s => (wordLists M (turns sched)).countP fun ws =>
        Q (sampleOf c vs s) && (B (ghost (after c (supplied sched ws))) && decide (tracing p0 (supplied sched ws) = s.drop c))), countP_swap]
    · refine sum_ite_const _ _ _ _ fun ws _ => ?_
      cases hb : B (ghost (after c (supplied sched ws))) with
      | false => simp
      | true =>
        obtain ⟨g1, g2⟩ := hB _ hb
        obtain ⟨i1, i2⟩ := (hJ ws).idle g1
        rw [g2] at i1
        have hlen : (after c (supplied sched ws)).shared.log.length = vs.length := by rw [← g2, List.length_map]
        rw [hlen] at i2
        have hcd := countP_drop c (vs.length - c) _ i2 (hJ ws).valid
        rw [show c + (vs.length - c) = vs.length by omega] at hcd
        have e : (draws vs.length).countP (fun s => Q (sampleOf c vs s) && (true && decide (tracing p0 (supplied sched ws) = s.drop c))) =
            (draws vs.length).countP (fun s => Q (after c (supplied sched ws)).shared.obj.values && decide (s.drop c = tracing p0 (supplied sched ws))) := by
          refine List.countP_congr fun s hs => ?_
          by_cases hd : s.drop c = tracing p0 (supplied sched ws)
          · simp only [hd, decide_true, Bool.and_true, i1, sampleOf_filled hs hl]
          · simp only [hd, Ne.symm hd, decide_false, Bool.and_false]
        rw [e, countP_and_const, hcd]
        simp
    · intro s hs
      rw [countP_and_const]
      have := hK s hs
      unfold cnt at this
      rw [← this]; rfl
  have k1 := key Q
  have k2 := key fun _ => true
  simp only [Bool.and_true, List.countP_true, length_draws] at k2
  refine Nat.eq_of_mul_eq_mul_right (Nat.factorial_pos c) ?_
  generalize List.countP (fun s => Q (sampleOf c vs s)) (draws vs.length) = d at *
  generalize List.countP (fun ws => B (ghost (after c (supplied sched ws))) && Q (after c (supplied sched ws)).shared.obj.values) (wordLists M (turns sched)) = x at *
  generalize List.countP (fun ws => B (ghost (after c (supplied sched ws)))) (wordLists M (turns sched)) = y at *
  calc x * vs.length.factorial * c.factorial = (x * c.factorial) * vs.length.factorial := by ring
    _ = d * K * vs.length.factorial := by rw [← k1]
    _ = (vs.length.factorial * K) * d := by ring
    _ = y * d * c.factorial := by rw [k2]; ring

end GoMetrics.UniformConc
