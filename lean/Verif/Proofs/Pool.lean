import Verif.Model.Pool
/-! # Invariants of schedules with constrained events -/
namespace GoMetrics
namespace Machine
variable {S C A I : Type} (M : Machine S C A I)

/-- An invariant that may mention the number of events so far, for schedules all of whose events satisfy `Q`. -/
theorem inv_runE (Inv : Nat → Pool S C → Prop) (Q : Ev A I → Prop)
    (hskip : ∀ n p, Inv n p → Inv (n + 1) p)
    (hspawn : ∀ n s cs a, Q (.spawn a) → Inv n ⟨s, cs⟩ → Inv (n + 1) ⟨s, cs ++ [M.call a]⟩)
    (hstep : ∀ n s pre c post x i, Q (.step i x) → Inv n ⟨s, pre ++ c :: post⟩ →
      Inv (n + 1) ⟨(M.step s x c).1, pre ++ (M.step s x c).2 :: post⟩)
    (p : Pool S C) (m : Nat) (h0 : Inv m p) (es : List (Ev A I)) (hQ : ∀ e ∈ es, Q e) : Inv (m + es.length) (M.run p es) := by
  induction es generalizing p m with
  | nil => exact h0
  | cons e es ih =>
    have hm : m + (e :: es).length = (m + 1) + es.length := by simp only [List.length_cons]; omega
    rw [hm]
    refine ih _ (m + 1) ?_ (fun a ha => hQ a (List.mem_cons_of_mem _ ha))
    cases e with
    | spawn a => exact hspawn _ _ _ _ (hQ _ (by simp)) h0
    | step i x =>
      cases h : p.calls[i]? with
      | none => simpa [apply, h] using hskip _ _ h0
      | some c =>
        obtain ⟨pre, post, h1, _, h2⟩ := M.apply_step_eq (x := x) h
        rw [h2]
        apply hstep _ _ _ _ _ _ i (hQ _ (by simp))
        rw [← h1]; exact h0

end Machine
end GoMetrics
