import Verif.Proofs.Progress
/-! # A call that nobody interrupts: partial correctness, part by part -/
namespace GoMetrics
namespace Machine
variable {S C A I S' C' A' I' : Type} (M : Machine S C A I)

/-- If a call that nobody interrupts, with inputs that satisfy `P`, stops within `n` steps, then `Q` holds when it does so for the first time. -/
def Til (stop : C → Bool) (P : I → Prop) (Q : S → C → Prop) : Nat → S → C → Prop
  | 0, s, c => stop c = true → Q s c
  | n + 1, s, c => (stop c = true → Q s c) ∧ (stop c = false → ∀ x, P x → Til stop P Q n (M.step s x c).1 (M.step s x c).2)

/-- The same without a bound. -/
def Wlp (stop : C → Bool) (P : I → Prop) (Q : S → C → Prop) (s : S) (c : C) : Prop := ∀ n, M.Til stop P Q n s c

variable {stop : C → Bool} {P : I → Prop} {Q Q' : S → C → Prop}

theorem Wlp.now {s : S} {c : C} (hc : stop c = true) (h : Q s c) : M.Wlp stop P Q s c := by
  intro n
  cases n with
  | zero => exact fun _ => h
  | succ n => exact ⟨fun _ => h, fun h' => (by rw [hc] at h'; cases h')⟩

theorem Wlp.step {s : S} {c : C} (hc : stop c = false) (h : ∀ x, P x → M.Wlp stop P Q (M.step s x c).1 (M.step s x c).2) :
    M.Wlp stop P Q s c := by
  intro n
  cases n with
  | zero => intro h'; rw [hc] at h'; cases h'
  | succ n => exact ⟨fun h' => (by rw [hc] at h'; cases h'), fun _ x hx => h x hx n⟩

theorem Wlp.step' {s : S} {c : C} (f : I → S × C) (hc : stop c = false) (hf : ∀ x, M.step s x c = f x)
    (h : ∀ x, P x → M.Wlp stop P Q (f x).1 (f x).2) : M.Wlp stop P Q s c :=
  Wlp.step M hc fun x hx => by rw [hf x]; exact h x hx

/-- A call that is blocked never stops. -/
theorem Wlp.blocked {s : S} {c : C} (hc : stop c = false) (h : ∀ x, M.step s x c = (s, c)) : M.Wlp stop P Q s c := by
  intro n
  induction n with
  | zero => intro h'; rw [hc] at h'; cases h'
  | succ n ih => exact ⟨fun h' => (by rw [hc] at h'; cases h'), fun _ x _ => by rw [h x]; exact ih⟩

variable {M}

theorem Til.mono {n : Nat} {s : S} {c : C} (h : M.Til stop P Q n s c) (hq : ∀ s c, stop c = true → Q s c → Q' s c) : M.Til stop P Q' n s c := by
  induction n generalizing s c with
  | zero => exact fun hc => hq _ _ hc (h hc)
  | succ n ih => exact ⟨fun hc => hq _ _ hc (h.1 hc), fun hc x hx => ih (h.2 hc x hx)⟩

theorem Wlp.mono {s : S} {c : C} (h : M.Wlp stop P Q s c) (hq : ∀ s c, stop c = true → Q s c → Q' s c) : M.Wlp stop P Q' s c :=
  fun n => (h n).mono hq

theorem Wlp.alone {s : S} {c : C} (h : M.Wlp stop P Q s c) (habs : ∀ s x c, stop c = true → M.step s x c = (s, c)) (xs : List I)
    (hxs : ∀ x ∈ xs, P x) (hstop : stop (M.alone s c xs).2 = true) : Q (M.alone s c xs).1 (M.alone s c xs).2 := by
  replace h := h xs.length
  induction xs generalizing s c with
  | nil => exact h hstop
  | cons x xs ih =>
    cases hc : stop c with
    | true =>
      have : ∀ ys, M.alone s c ys = (s, c) := by
        intro ys
        induction ys with
        | nil => rfl
        | cons y ys ih => simp only [Machine.alone, habs s y c hc]; exact ih
      rw [this]
      exact h.1 hc
    | false => exact ih (fun y hy => hxs y (by simp [hy])) hstop (h.2 hc x (hxs x (by simp)))

/-- A phase of a call in which every step is one step of another machine. -/
theorem Wlp.phase {M' : Machine S' C' A' I'} {stop' : C' → Bool} {P' : I' → Prop} (proj : I → I') (embS : S' → C' → S) (embC : S' → C' → C)
    (hP : ∀ x, P x → P' (proj x)) (hgo : ∀ s c, stop' c = false → stop (embC s c) = false)
    (hstep : ∀ s c x, stop' c = false → M.step (embS s c) x (embC s c) =
      (embS (M'.step s (proj x) c).1 (M'.step s (proj x) c).2, embC (M'.step s (proj x) c).1 (M'.step s (proj x) c).2))
    {s : S'} {c : C'} (h : M'.Wlp stop' P' (fun s c => M.Wlp stop P Q (embS s c) (embC s c)) s c) :
    M.Wlp stop P Q (embS s c) (embC s c) := by
  intro n
  have := h n
  clear h
  induction n generalizing s c with
  | zero =>
    cases hc : stop' c with
    | true => exact this hc 0
    | false => intro h'; rw [hgo s c hc] at h'; cases h'
  | succ n ih =>
    cases hc : stop' c with
    | true => exact this.1 hc (n + 1)
    | false =>
      refine ⟨fun h' => (by rw [hgo s c hc] at h'; cases h'), fun _ x hx => ?_⟩
      rw [hstep s c x hc]
      exact ih (this.2 hc _ (hP x hx))

/-- From a call alone to a schedule: the call `i` of the pool `p` is started last and only it is scheduled. -/
theorem Wlp.spawned {Q : S → C → Prop} {p : Pool S C} {a : A} (xs : List I) (h : M.Wlp stop (· ∈ xs) Q p.shared (M.call a))
    (habs : ∀ s x c, stop c = true → M.step s x c = (s, c)) {c : C}
    (hc : (M.run p (.spawn a :: xs.map (Ev.step p.calls.length))).calls[p.calls.length]? = some c) (hstop : stop c = true) :
    Q (M.run p (.spawn a :: xs.map (Ev.step p.calls.length))).shared c := by
  have e : (M.apply p (.spawn a)).calls[p.calls.length]? = some (M.call a) := by simp [Machine.apply]
  rw [Machine.run_cons, M.run_alone _ e] at hc ⊢
  simp only [Machine.apply] at hc ⊢
  rw [List.getElem?_set] at hc
  simp at hc
  subst hc
  exact h.alone habs xs (fun _ h => h) hstop

end Machine
end GoMetrics
