import Verif.Spec.Fair
import Verif.Proofs.Progress
import Mathlib.Order.WellFounded
import Mathlib.Algebra.Order.BigOperators.Group.List
/-! # Fair schedulers: general lemmas -/
namespace GoMetrics
namespace Machine
variable {S C A I : Type} (M : Machine S C A I)

theorem firstTurns_succ (f : Nat → Nat × I) (m : Nat) : firstTurns (A := A) f (m + 1) = firstTurns f m ++ [.step (f m).1 (f m).2] := by
  simp [firstTurns, List.range_succ]

theorem noSpawn_firstTurns (f : Nat → Nat × I) (m : Nat) : NoSpawn (A := A) (firstTurns f m) := by
  intro a h
  simp [firstTurns] at h

/-- The rule: a measure that never grows, and calls that are helpful, which is to say that a good turn of theirs makes it smaller; they stay
helpful until it gets smaller; and there is one as long as not all calls are over. -/
theorem fair_of {α : Type} [Preorder α] [WellFoundedLT α] {s0 : S} {over : C → Bool} {good : I → Prop} (μ : Pool S C → α) (H : Pool S C → Nat → Prop)
    (hstep : ∀ es j x, let p := M.run (start s0) es
      μ (M.apply p (.step j x)) < μ p ∨ (μ (M.apply p (.step j x)) ≤ μ p ∧ ∀ i, H p i → H (M.apply p (.step j x)) i))
    (hgood : ∀ es i x, H (M.run (start s0) es) i → good x → μ (M.apply (M.run (start s0) es) (.step i x)) < μ (M.run (start s0) es))
    (hsome : ∀ es, (∃ c ∈ (M.run (start s0) es).calls, over c = false) → ∃ i, i < (M.run (start s0) es).calls.length ∧ H (M.run (start s0) es) i)
    (hidle : ∀ s x c, over c = true → over (M.step s x c).2 = true) : M.FairlyEnds s0 over good := by
  intro before f hf
  let at_ : Nat → List (Ev A I) := fun m => before ++ firstTurns f m
  have hat : ∀ m, M.run (start s0) (at_ (m + 1)) = M.apply (M.run (start s0) (at_ m)) (.step (f m).1 (f m).2) := by
    intro m
    simp only [at_, firstTurns_succ, ← List.append_assoc]
    rw [run_snoc]
  have hlen : ∀ m, (M.run (start s0) (at_ m)).calls.length = (M.run (start s0) before).calls.length := by
    intro m
    simp only [at_]
    rw [run_append, length_noSpawn M (noSpawn_firstTurns f m)]
  have hle : ∀ m d, μ (M.run (start s0) (at_ (m + d))) ≤ μ (M.run (start s0) (at_ m)) := by
    intro m d
    induction d with
    | zero => exact le_refl _
    | succ d ih =>
      have := hstep (at_ (m + d)) (f (m + d)).1 (f (m + d)).2
      simp only at this
      rw [← hat] at this
      exact le_trans (this.elim le_of_lt (·.1)) ih
  -- the measure gets smaller as long as not all calls are over
  have hdec : ∀ m, (∃ c ∈ (M.run (start s0) (at_ m)).calls, over c = false) → ∃ k, μ (M.run (start s0) (at_ k)) < μ (M.run (start s0) (at_ m)) := by
    intro m hm
    obtain ⟨i, hi, hH⟩ := hsome _ hm
    obtain ⟨k, hk, h1, h2⟩ := hf i (by rwa [hlen] at hi) m
    obtain ⟨d, rfl⟩ := Nat.exists_eq_add_of_le hk
    by_contra hno
    have keep : ∀ e, e ≤ d → H (M.run (start s0) (at_ (m + e))) i := by
      intro e
      induction e with
      | zero => intro _; exact hH
      | succ e ih =>
        intro he
        have := hstep (at_ (m + e)) (f (m + e)).1 (f (m + e)).2
        simp only at this
        rw [← hat] at this
        rcases this with h | ⟨-, h⟩
        · exact absurd ⟨_, lt_of_lt_of_le h (hle m e)⟩ hno
        · exact h i (ih (by omega))
    have := hgood (at_ (m + d)) i (f (m + d)).2 (keep d (le_refl _)) h2
    refine hno ⟨m + d + 1, ?_⟩
    rw [hat, h1]
    exact lt_of_lt_of_le this (hle m d)
  have hsomeTime : ∃ m, ∀ c ∈ (M.run (start s0) (at_ m)).calls, over c = true := by
    have key : ∀ a : α, ∀ m, μ (M.run (start s0) (at_ m)) = a → ∃ m, ∀ c ∈ (M.run (start s0) (at_ m)).calls, over c = true := by
      intro a
      induction a using WellFoundedLT.induction with
      | _ a ih =>
        intro m hm
        by_cases hall : ∃ c ∈ (M.run (start s0) (at_ m)).calls, over c = false
        · obtain ⟨k, hk⟩ := hdec m hall
          exact ih _ (hm ▸ hk) k rfl
        · refine ⟨m, fun c hc => ?_⟩
          by_contra hne
          exact hall ⟨c, hc, by simpa using hne⟩
    exact key _ 0 rfl
  obtain ⟨m, hm⟩ := hsomeTime
  refine ⟨m, fun k hk => ?_⟩
  obtain ⟨d, rfl⟩ := Nat.exists_eq_add_of_le hk
  clear hk
  change ∀ c ∈ (M.run (start s0) (at_ (m + d))).calls, over c = true
  induction d with
  | zero => exact hm
  | succ d ih =>
    rw [show m + (d + 1) = m + d + 1 from rfl, hat]
    generalize M.run (start s0) (at_ (m + d)) = p at ih
    intro c hc
    cases hj : p.calls[(f (m + d)).1]? with
    | none => simp only [apply, hj] at hc; exact ih c hc
    | some c0 =>
      simp only [apply, hj] at hc
      rcases List.mem_or_eq_of_mem_set hc with h | rfl
      · exact ih c h
      · exact hidle _ _ _ (ih c0 (List.mem_of_getElem? hj))

/-- A machine whose calls end under a fair scheduler, with the reason: what is needed to use it as a part of a larger one. -/
structure Fairly (s0 : S) (over : C → Bool) (good : I → Prop) where
  μ : Pool S C → Nat
  H : Pool S C → Nat → Prop
  step : ∀ es j x, let p := M.run (start s0) es
      μ (M.apply p (.step j x)) < μ p ∨ (μ (M.apply p (.step j x)) ≤ μ p ∧ ∀ i, H p i → H (M.apply p (.step j x)) i)
  good_step : ∀ es i x, H (M.run (start s0) es) i → good x → μ (M.apply (M.run (start s0) es) (.step i x)) < μ (M.run (start s0) es)
  some : ∀ es, (∃ c ∈ (M.run (start s0) es).calls, over c = false) →
    ∃ (i : Nat) (c : C), (M.run (start s0) es).calls[i]? = some c ∧ over c = false ∧ H (M.run (start s0) es) i
  idle : ∀ s x c, over c = true → over (M.step s x c).2 = true

theorem Fairly.ends {M : Machine S C A I} {s0 : S} {over : C → Bool} {good : I → Prop} (F : M.Fairly s0 over good) : M.FairlyEnds s0 over good := by
  refine fair_of M F.μ F.H F.step F.good_step (fun es h => ?_) F.idle
  obtain ⟨i, c, h1, -, h3⟩ := F.some es h
  exact ⟨i, (List.getElem?_eq_some_iff.1 h1).1, h3⟩

/-- What a step from `(s, c)` to `t` may do: make changes, which can put the others back, but only so far; or bring the call forward; or, unless
the call was helpful and the turn a good one, neither. -/
def Moved (b : Nat) (ch : C → Nat) (r : S → C → Nat) (help : S → C → Prop) (good : Prop) (s : S) (c : C) (t : S × C) : Prop :=
  (ch t.2 < ch c ∧ (∀ d, r t.1 d ≤ r s d + b * (ch c - ch t.2)) ∧ r t.1 t.2 ≤ r s c + b * (ch c - ch t.2)) ∨
  (ch t.2 ≤ ch c ∧ (∀ d, r t.1 d ≤ r s d) ∧ r t.1 t.2 < r s c) ∨
  (¬ (help s c ∧ good) ∧ ch t.2 ≤ ch c ∧ (∀ d, r t.1 d ≤ r s d) ∧ r t.1 t.2 ≤ r s c ∧ (∀ d, help s d → help t.1 d) ∧ (help s c → help t.1 t.2))

theorem Moved.stay {b : Nat} {ch : C → Nat} {r : S → C → Nat} {help : S → C → Prop} {good : Prop} {s : S} {c : C} {t : S × C} (ht : t = (s, c))
    (h : ¬ help s c) : Moved b ch r help good s c t := by
  subst ht
  exact .inr (.inr ⟨fun h' => h h'.1, le_refl _, fun _ => le_refl _, le_refl _, fun _ h => h, fun h => h⟩)

theorem Moved.on {b : Nat} {ch : C → Nat} {r : S → C → Nat} {help : S → C → Prop} {good : Prop} {s s' : S} {c c' : C} {t : S × C} (ht : t = (s', c'))
    (h1 : ch c' ≤ ch c) (h2 : ∀ d, r s' d ≤ r s d) (h3 : r s' c' < r s c) : Moved b ch r help good s c t := by
  subst ht
  exact .inr (.inl ⟨h1, h2, h3⟩)

theorem Moved.change {b : Nat} {ch : C → Nat} {r : S → C → Nat} {help : S → C → Prop} {good : Prop} {s s' : S} {c c' : C} {t : S × C} (ht : t = (s', c'))
    (h1 : ch c' < ch c) (h2 : ∀ d, r s' d ≤ r s d + b * (ch c - ch c')) (h3 : r s' c' ≤ r s c) : Moved b ch r help good s c t := by
  subst ht
  exact .inl ⟨h1, h2, le_trans h3 (by simp)⟩

/-- A reason: every call has a rank, which its own steps make smaller, and a number of changes to make. -/
structure Ranked (s0 : S) (over : C → Bool) (good : I → Prop) where
  ok : S → C → Prop
  ok_run : ∀ es, ∀ c ∈ (M.run (start s0) es).calls, ok (M.run (start s0) es).shared c
  b : Nat
  ch : C → Nat
  r : S → C → Nat
  help : S → C → Prop
  move : ∀ s x c, ok s c → Moved b ch r help (good x) s c (M.step s x c)
  some : ∀ es, (∃ c ∈ (M.run (start s0) es).calls, over c = false) →
    ∃ c ∈ (M.run (start s0) es).calls, over c = false ∧ help (M.run (start s0) es).shared c
  idle : ∀ s x c, over c = true → over (M.step s x c).2 = true

theorem sum_map_le_add {α : Type} (f g : α → Nat) (b : Nat) (h : ∀ d, g d ≤ f d + b) (l : List α) : (l.map g).sum ≤ (l.map f).sum + b * l.length := by
  induction l with
  | nil => simp
  | cons a l ih =>
    simp only [List.map_cons, List.sum_cons, List.length_cons]
    have := h a
    rw [Nat.mul_add]
    omega

/-- The measure of the calls. -/
def Ranked.measure {M : Machine S C A I} {s0 : S} {over : C → Bool} {good : I → Prop} (K : M.Ranked s0 over good) (p : Pool S C) : Nat :=
  (p.calls.map fun c => (K.b * p.calls.length + 1) * K.ch c + K.r p.shared c).sum

theorem Ranked.measure_step {M : Machine S C A I} {s0 : S} {over : C → Bool} {good : I → Prop} (K : M.Ranked s0 over good) {p : Pool S C} {j : Nat} {c : C}
    {x : I} (hc : p.calls[j]? = Option.some c) :
    (K.ch (M.step p.shared x c).2 < K.ch c → (∀ d, K.r (M.step p.shared x c).1 d ≤ K.r p.shared d + K.b * (K.ch c - K.ch (M.step p.shared x c).2)) →
      K.r (M.step p.shared x c).1 (M.step p.shared x c).2 ≤ K.r p.shared c + K.b * (K.ch c - K.ch (M.step p.shared x c).2) → K.measure (M.apply p (.step j x)) < K.measure p) ∧
    (K.ch (M.step p.shared x c).2 ≤ K.ch c → (∀ d, K.r (M.step p.shared x c).1 d ≤ K.r p.shared d) →
      (K.r (M.step p.shared x c).1 (M.step p.shared x c).2 ≤ K.r p.shared c → K.measure (M.apply p (.step j x)) ≤ K.measure p) ∧
      (K.r (M.step p.shared x c).1 (M.step p.shared x c).2 < K.r p.shared c → K.measure (M.apply p (.step j x)) < K.measure p)) := by
  obtain ⟨pre, post, h1, -, h2⟩ := M.apply_step_eq (x := x) hc
  rw [h2]
  obtain ⟨s, cs⟩ := p
  simp only at h1
  subst h1
  simp only [measure, List.length_append, List.length_cons, List.map_append, List.map_cons, List.sum_append, List.sum_cons]
  generalize hW : K.b * (pre.length + (post.length + 1)) + 1 = W
  have hb : K.b * pre.length + K.b * post.length + K.b + 1 = W := by rw [← hW]; ring
  constructor
  · intro g1 g2 g3
    obtain ⟨k, hk⟩ : ∃ k, K.ch c = K.ch (M.step s x c).2 + (k + 1) := ⟨K.ch c - K.ch (M.step s x c).2 - 1, by omega⟩
    have hk' : K.ch c - K.ch (M.step s x c).2 = k + 1 := by omega
    rw [hk'] at g2 g3
    have s1 := sum_map_le_add (fun d => W * K.ch d + K.r s d) (fun d => W * K.ch d + K.r (M.step s x c).1 d) (K.b * (k + 1))
      (fun d => by have := g2 d; omega) pre
    have s2 := sum_map_le_add (fun d => W * K.ch d + K.r s d) (fun d => W * K.ch d + K.r (M.step s x c).1 d) (K.b * (k + 1))
      (fun d => by have := g2 d; omega) post
    have e1 : W * K.ch c = W * K.ch (M.step s x c).2 + W * (k + 1) := by rw [hk]; ring
    have e2 : W * (k + 1) = K.b * (k + 1) * pre.length + K.b * (k + 1) * post.length + K.b * (k + 1) + (k + 1) := by rw [← hb]; ring
    omega
  · intro g1 g2
    have s1 := sum_map_le_add (fun d => W * K.ch d + K.r s d) (fun d => W * K.ch d + K.r (M.step s x c).1 d) 0
      (fun d => by have := g2 d; omega) pre
    have s2 := sum_map_le_add (fun d => W * K.ch d + K.r s d) (fun d => W * K.ch d + K.r (M.step s x c).1 d) 0
      (fun d => by have := g2 d; omega) post
    have : W * K.ch (M.step s x c).2 ≤ W * K.ch c := Nat.mul_le_mul_left W g1
    constructor <;> intro g3 <;> omega

/-- Ranked machines are fair. -/
def Ranked.fairly {M : Machine S C A I} {s0 : S} {over : C → Bool} {good : I → Prop} (K : M.Ranked s0 over good) : M.Fairly s0 over good where
  μ := K.measure
  H p i := ∃ c, p.calls[i]? = Option.some c ∧ K.help p.shared c
  step es j x := by
    intro p
    cases hc : p.calls[j]? with
    | none => simp only [apply, hc]; exact .inr ⟨le_refl _, fun _ h => h⟩
    | some c =>
      obtain ⟨m1, m2⟩ := K.measure_step (x := x) hc
      rcases K.move p.shared x c (K.ok_run es c (List.mem_of_getElem? hc)) with ⟨g1, g2, g3⟩ | ⟨g1, g2, g3⟩ | ⟨-, g1, g2, g3, g4, g5⟩
      · exact .inl (m1 g1 g2 g3)
      · exact .inl ((m2 g1 g2).2 g3)
      · refine .inr ⟨(m2 g1 g2).1 g3, ?_⟩
        rintro i ⟨d, h1, h2⟩
        have hjl := (List.getElem?_eq_some_iff.1 hc).1
        simp only [apply, hc]
        by_cases hij : j = i
        · subst hij
          rw [hc] at h1
          obtain rfl := Option.some.inj h1
          exact ⟨_, List.getElem?_set_self hjl, g5 h2⟩
        · exact ⟨d, by rw [List.getElem?_set_ne hij]; exact h1, g4 d h2⟩
  good_step es i x := by
    rintro ⟨c, hc, hh⟩ hx
    obtain ⟨m1, m2⟩ := K.measure_step (x := x) hc
    rcases K.move _ x c (K.ok_run es c (List.mem_of_getElem? hc)) with ⟨g1, g2, g3⟩ | ⟨g1, g2, g3⟩ | ⟨g0, -⟩
    · exact m1 g1 g2 g3
    · exact (m2 g1 g2).2 g3
    · exact absurd ⟨hh, hx⟩ g0
  some es h := by
    obtain ⟨c, hc, ho, hh⟩ := K.some es h
    obtain ⟨i, hi, hic⟩ := List.getElem_of_mem hc
    have : (M.run (start s0) es).calls[i]? = Option.some c := by rw [List.getElem?_eq_getElem hi, hic]
    exact ⟨i, c, this, ho, c, this, hh⟩
  idle := K.idle

/-! ## Wait-free methods -/

theorem turns_firstTurns_le {f : Nat → Nat × I} {i m k : Nat} (h : m ≤ k) : turns (A := A) i (firstTurns f m) ≤ turns (A := A) i (firstTurns f k) := by
  obtain ⟨d, rfl⟩ := Nat.exists_eq_add_of_le h
  induction d with
  | zero => exact le_refl _
  | succ d ih =>
    rw [show m + (d + 1) = m + d + 1 from rfl, firstTurns_succ, turns_append]
    exact le_trans (ih (by omega)) (by omega)

theorem turns_fair {good : I → Prop} {n : Nat} {f : Nat → Nat × I} (h : Fair good n f) {i : Nat} (hi : i < n) (k : Nat) :
    ∃ m, k ≤ turns (A := A) i (firstTurns f m) := by
  induction k with
  | zero => exact ⟨0, by omega⟩
  | succ k ih =>
    obtain ⟨m, hm⟩ := ih
    obtain ⟨l, h1, h2, -⟩ := h i hi m
    refine ⟨l + 1, ?_⟩
    rw [firstTurns_succ, turns_append]
    have := turns_firstTurns_le (A := A) (f := f) (i := i) h1
    simp only [turns, h2, if_true]
    omega

theorem WaitFree.fairlyEnds {s0 : S} {over : C → Bool} {k : Nat} (h : M.WaitFree s0 over k) (good : I → Prop) : M.FairlyEnds s0 over good := by
  intro before f hf
  have hm : ∀ n ≤ (M.run (start s0) before).calls.length, ∃ m, ∀ i < n, k ≤ turns (A := A) i (firstTurns f m) := by
    intro n
    induction n with
    | zero => intro _; exact ⟨0, by intro i hi; omega⟩
    | succ n ih =>
      intro hn
      obtain ⟨m, hm⟩ := ih (by omega)
      obtain ⟨m', hm'⟩ := turns_fair (A := A) hf (i := n) (by omega) k
      refine ⟨max m m', fun i hi => ?_⟩
      by_cases hin : i = n
      · subst hin; exact le_trans hm' (turns_firstTurns_le (by omega))
      · exact le_trans (hm i (by omega)) (turns_firstTurns_le (by omega))
  obtain ⟨m, hm⟩ := hm _ (le_refl _)
  refine ⟨m, fun l hl c hc => ?_⟩
  obtain ⟨i, hi, hic⟩ := List.getElem_of_mem hc
  have hi' : i < (M.run (start s0) before).calls.length := by
    rw [run_append, length_noSpawn M (noSpawn_firstTurns f l)] at hi; exact hi
  obtain ⟨c', h1, h2⟩ := h before _ i hi' (le_trans (hm i hi') (turns_firstTurns_le hl))
  rw [List.getElem?_eq_getElem hi, hic] at h1
  obtain rfl := Option.some.inj h1
  exact h2

end Machine
end GoMetrics
