import Verif.Spec.Progress
import Verif.Proofs.Pool
/-! # Progress: general lemmas -/
namespace GoMetrics
namespace Machine
variable {S C A I : Type} (M : Machine S C A I)

/-! ## Wait-freedom from a rank -/

theorem rank_apply {rank : C → Nat} (hs : ∀ s x c, rank (M.step s x c).2 ≤ rank c - 1) (p : Pool S C) (e : Ev A I) {i : Nat} {c : C}
    (h : p.calls[i]? = some c) : ∃ c', (M.apply p e).calls[i]? = some c' ∧ rank c' ≤ rank c - turns i [e] := by
  have hi : i < p.calls.length := (List.getElem?_eq_some_iff.1 h).1
  cases e with
  | spawn a => exact ⟨c, by simp only [Machine.apply]; rw [List.getElem?_append_left hi]; exact h, by simp [turns]⟩
  | step j x =>
    cases hc : p.calls[j]? with
    | none =>
      refine ⟨c, by simp only [Machine.apply, hc]; exact h, ?_⟩
      have : j ≠ i := by rintro rfl; rw [h] at hc; cases hc
      simp [turns, this]
    | some d =>
      simp only [Machine.apply, hc]
      by_cases hj : j = i
      · subst hj
        rw [h] at hc
        obtain rfl := Option.some.inj hc
        refine ⟨(M.step p.shared x c).2, by rw [List.getElem?_set]; simp [hi], ?_⟩
        have := hs p.shared x c
        simpa [turns] using this
      · exact ⟨c, by rw [List.getElem?_set_ne hj]; exact h, by simp [turns, hj]⟩

theorem rank_run {rank : C → Nat} (hs : ∀ s x c, rank (M.step s x c).2 ≤ rank c - 1) (es : List (Ev A I)) : ∀ (p : Pool S C) {i : Nat} {c : C},
    p.calls[i]? = some c → ∃ c', (M.run p es).calls[i]? = some c' ∧ rank c' ≤ rank c - turns i es := by
  induction es with
  | nil => intro p i c h; exact ⟨c, h, by simp [turns]⟩
  | cons e es ih =>
    intro p i c h
    obtain ⟨c1, h1, h2⟩ := rank_apply M hs p e h
    obtain ⟨c2, h3, h4⟩ := ih (M.apply p e) h1
    refine ⟨c2, h3, ?_⟩
    have : turns i (e :: es) = turns i [e] + turns i es := by cases e <;> simp [turns]
    omega

theorem waitFree_of_rank {rank : C → Nat} {over : C → Bool} {k : Nat} (hs : ∀ s x c, rank (M.step s x c).2 ≤ rank c - 1) (hk : ∀ c, rank c ≤ k)
    (h0 : ∀ c, rank c = 0 → over c = true) (s0 : S) : M.WaitFree s0 over k := by
  intro before after i hi ht
  obtain ⟨c', h1, h2⟩ := rank_run M hs after (M.run (start s0) before) (List.getElem?_eq_getElem hi)
  refine ⟨c', by rw [run_append]; exact h1, h0 c' ?_⟩
  have := hk (M.run (start s0) before).calls[i]
  omega

/-! ## One call alone -/

/-- A call that nobody interrupts, with these inputs. -/
def alone (s : S) (c : C) : List I → S × C
  | [] => (s, c)
  | x :: xs => alone (M.step s x c).1 (M.step s x c).2 xs

theorem alone_append (s : S) (c : C) (xs ys : List I) : M.alone s c (xs ++ ys) = M.alone (M.alone s c xs).1 (M.alone s c xs).2 ys := by
  induction xs generalizing s c with
  | nil => rfl
  | cons x xs ih => exact ih _ _

theorem run_alone (p : Pool S C) {i : Nat} {c : C} (h : p.calls[i]? = some c) (xs : List I) :
    M.run p (xs.map (Ev.step i)) = ⟨(M.alone p.shared c xs).1, p.calls.set i (M.alone p.shared c xs).2⟩ := by
  induction xs generalizing p c with
  | nil =>
    obtain ⟨hi, hc⟩ := List.getElem?_eq_some_iff.1 h
    simp only [List.map_nil, run_nil, alone]
    rw [← hc, List.set_getElem_self]
  | cons x xs ih =>
    have hi : i < p.calls.length := (List.getElem?_eq_some_iff.1 h).1
    rw [List.map_cons, run_cons]
    have e : M.apply p (.step i x) = ⟨(M.step p.shared x c).1, p.calls.set i (M.step p.shared x c).2⟩ := by simp only [Machine.apply, h]
    rw [e, ih (c := (M.step p.shared x c).2) _ (by simp only; rw [List.getElem?_set]; simp [hi])]
    simp [alone]

theorem noSpawn_steps (i : Nat) (xs : List I) : NoSpawn (A := A) (xs.map (Ev.step i)) := by
  intro a h
  simp at h

theorem NoSpawn.append {es es' : List (Ev A I)} (h : NoSpawn es) (h' : NoSpawn es') : NoSpawn (es ++ es') := by
  intro a ha
  rcases List.mem_append.1 ha with ha | ha
  · exact h a ha
  · exact h' a ha

/-- Left alone, with suitable inputs, the call comes to its end. -/
def Ends (over : C → Bool) (s : S) (c : C) : Prop := ∃ xs, over (M.alone s c xs).2 = true

theorem Ends.now {over : C → Bool} {s : S} {c : C} (h : over c = true) : M.Ends over s c := ⟨[], h⟩

theorem Ends.step {over : C → Bool} {s s' : S} {c c' : C} (x : I) (hs : M.step s x c = (s', c')) (h : M.Ends over s' c') : M.Ends over s c := by
  obtain ⟨xs, h⟩ := h
  exact ⟨x :: xs, by simp only [alone, hs]; exact h⟩

/-! ## Freedom of deadlock, one call at a time -/

theorem countP_set_lt {α : Type} {f : α → Bool} {l : List α} {i : Nat} {c c' : α} (h : l[i]? = some c) (hc : f c = true) (hc' : f c' = false) :
    (l.set i c').countP f < l.countP f := by
  induction l generalizing i with
  | nil => simp at h
  | cons a l ih =>
    cases i with
    | zero =>
      simp only [List.getElem?_cons_zero, Option.some.injEq] at h
      subst h
      simp [List.countP_cons, hc, hc']
    | succ i =>
      simp only [List.getElem?_cons_succ] at h
      simp only [List.set_cons_succ, List.countP_cons]
      have := ih h
      omega

/-- It is enough that in every state that can be reached some call that is not over can be brought to its end. -/
theorem neverStuck_of_one {over : C → Bool} {s0 : S}
    (h : ∀ es, (∃ c ∈ (M.run (start s0) es).calls, over c = false) → ∃ c ∈ (M.run (start s0) es).calls, over c = false ∧
      M.Ends over (M.run (start s0) es).shared c) : M.NeverStuck s0 over := by
  have key : ∀ n es, (M.run (start s0) es).calls.countP (fun c => !over c) = n →
      ∃ after, NoSpawn after ∧ ∀ c ∈ (M.run (start s0) (es ++ after)).calls, over c = true := by
    intro n
    induction n using Nat.strong_induction_on with
    | _ n ih =>
      intro es hn
      by_cases hall : ∃ c ∈ (M.run (start s0) es).calls, over c = false
      · obtain ⟨c, hmem, h2, xs, h3⟩ := h es hall
        obtain ⟨i, hi, hc⟩ := List.getElem_of_mem hmem
        have h1 : (M.run (start s0) es).calls[i]? = some c := by rw [List.getElem?_eq_getElem hi, hc]
        have hr := M.run_alone (M.run (start s0) es) h1 xs
        have hlt : (M.run (start s0) (es ++ xs.map (Ev.step i))).calls.countP (fun c => !over c) < n := by
          rw [run_append, hr, ← hn]
          exact countP_set_lt h1 (by simp [h2]) (by simp [h3])
        obtain ⟨after, a1, a2⟩ := ih _ hlt (es ++ xs.map (Ev.step i)) rfl
        exact ⟨xs.map (Ev.step i) ++ after, (noSpawn_steps i xs).append a1, by rw [← List.append_assoc]; exact a2⟩
      · refine ⟨[], by intro a; simp, ?_⟩
        intro c hc
        rw [List.append_nil] at hc
        by_contra hne
        exact hall ⟨c, hc, by simpa using hne⟩
  exact fun before => key _ before rfl

/-! ## Wait-free methods are free of deadlock -/

theorem length_noSpawn {p : Pool S C} {es : List (Ev A I)} (h : NoSpawn es) : (M.run p es).calls.length = p.calls.length := by
  induction es generalizing p with
  | nil => rfl
  | cons e es ih =>
    rw [run_cons, ih (fun a ha => h a (by simp [ha]))]
    cases e with
    | spawn a => exact absurd (by simp) (h a)
    | step j x => cases hj : p.calls[j]? <;> simp only [apply, hj, List.length_set]

theorem turns_append (i : Nat) (es es' : List (Ev A I)) : turns i (es ++ es') = turns i es + turns i es' := by
  induction es with
  | nil => simp [turns]
  | cons e es ih => cases e <;> simp only [List.cons_append, turns, ih] <;> omega

/-- `k` turns for each of the first `n` calls. -/
def rounds (k : Nat) (x : I) : Nat → List (Ev A I)
  | 0 => []
  | n + 1 => rounds k x n ++ (List.replicate k x).map (Ev.step n)

theorem noSpawn_rounds (k : Nat) (x : I) (n : Nat) : NoSpawn (rounds (A := A) k x n) := by
  induction n with
  | zero => intro a; simp [rounds]
  | succ n ih => exact ih.append (noSpawn_steps n _)

theorem turns_steps (i : Nat) (xs : List I) : turns (A := A) i (xs.map (Ev.step i)) = xs.length := by
  induction xs with
  | nil => rfl
  | cons x xs ih => simp only [List.map_cons, turns, if_true, ih, List.length_cons]; omega

theorem turns_rounds (k : Nat) (x : I) (n i : Nat) (hi : i < n) : k ≤ turns i (rounds (A := A) k x n) := by
  induction n with
  | zero => omega
  | succ n ih =>
    rw [rounds, turns_append]
    by_cases h : i = n
    · subst h; rw [turns_steps, List.length_replicate]; omega
    · have := ih (by omega); omega

theorem WaitFree.neverStuck {s0 : S} {over : C → Bool} {k : Nat} (h : M.WaitFree s0 over k) (x : I) : M.NeverStuck s0 over := by
  intro before
  refine ⟨rounds k x (M.run (start s0) before).calls.length, noSpawn_rounds _ _ _, ?_⟩
  intro c hc
  obtain ⟨i, hi, hic⟩ := List.getElem_of_mem hc
  have hi' : i < (M.run (start s0) before).calls.length := by
    rw [run_append, length_noSpawn M (noSpawn_rounds _ _ _)] at hi; exact hi
  obtain ⟨c', h1, h2⟩ := h before _ i hi' (turns_rounds k x _ i hi')
  rw [List.getElem?_eq_getElem hi, hic] at h1
  obtain rfl := Option.some.inj h1
  exact h2

end Machine
end GoMetrics
