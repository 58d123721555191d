import Verif.Spec.EDRConc
import Verif.Proofs.EDRExact
import Verif.Proofs.Pool
import Verif.Props.EDR
/-! # C63-C69: interleaved calls of a decaying reservoir -/
namespace GoMetrics
open Rounding
namespace EDRConc
open EDR

/-! ## C67 -/

/-- What a call may hold in its hands: a priority that is not negative; and it has not panicked. -/
def okA : PC → Prop
  | .lockRecord _ p _ _ _ _ => p.NonNeg
  | .panicked _ => False
  | _ => True

theorem after_okA (act : Act) : okA (after act) := by cases act <;> trivial

structure GoodA (size : Int) (p : Pool Shared PC) : Prop where
  rsv : InvA p.shared.rsv
  size : p.shared.rsv.size = size
  calls : ∀ c ∈ p.calls, okA c

theorem forall_replace {α : Type} {P : α → Prop} {pre post : List α} {c c' : α} (h : ∀ x ∈ pre ++ c :: post, P x) (h' : P c') :
    ∀ x ∈ pre ++ c' :: post, P x := by
  intro x hx
  simp only [List.mem_append, List.mem_cons] at hx h
  rcases hx with hx | rfl | hx
  · exact h x (Or.inl hx)
  · exact h'
  · exact h x (Or.inr (Or.inr hx))

theorem goodA_step {A : Arith} (hA : A.Lawful) {size : Int} (hsz : 1 ≤ size) {s : Shared} {pre post : List PC} {c : PC} (x : In) (hu : IsDraw x.u)
    (h : GoodA size ⟨s, pre ++ c :: post⟩) : GoodA size ⟨(callStep A s x c).1, pre ++ (callStep A s x c).2 :: post⟩ := by
  have hc := h.calls c (by simp)
  cases c with
  | tick act => exact ⟨h.rsv, h.size, forall_replace h.calls trivial⟩
  | check act now =>
    refine ⟨h.rsv, h.size, forall_replace h.calls ?_⟩
    simp only [callStep]; split
    · trivial
    · exact after_okA act
  | reread act now due => exact ⟨h.rsv, h.size, forall_replace h.calls trivial⟩
  | cas act now due next =>
    simp only [callStep]
    split
    · exact ⟨⟨h.rsv.keys, h.rsv.count, h.rsv.live⟩, h.size, forall_replace h.calls trivial⟩
    · exact ⟨h.rsv, h.size, forall_replace h.calls (after_okA act)⟩
  | lockScale act =>
    exact ⟨invA_rescaleLocked hA h.rsv x.time, (rescaleLocked_frame _ _).2.1.trans h.size, forall_replace h.calls (after_okA act)⟩
  | time v => exact ⟨h.rsv, h.size, forall_replace h.calls trivial⟩
  | weigh v ts =>
    refine ⟨h.rsv, h.size, forall_replace h.calls ?_⟩
    obtain ⟨q, hq, hq0, -⟩ := hu
    show F64.NonNeg (priority A _ x.u)
    rw [hq]
    exact F64.nonNeg_div hA.rnd (hA.nonneg _) (F64.nonNeg_fin hq0)
  | lockRecord v p w ts u l =>
    have hsz' : 1 ≤ s.rsv.size := by rw [show s.rsv.size = size from h.size]; exact hsz
    obtain ⟨h1, h2⟩ := invA_record (w := w) h.rsv hsz' hc v
    have h3 := (record_frame s.rsv p v w).2.1
    simp only [callStep]
    cases hr : record s.rsv p v w with
    | ok r => rw [hr] at h1 h3; exact ⟨h1, h3.trans h.size, forall_replace h.calls trivial⟩
    | panic r => rw [hr] at h2; simp at h2
  | lockSnap => exact ⟨h.rsv, h.size, forall_replace h.calls trivial⟩
  | size1 =>
    refine ⟨h.rsv, h.size, forall_replace h.calls ?_⟩
    simp only [callStep]; split <;> trivial
  | size2 => exact ⟨h.rsv, h.size, forall_replace h.calls trivial⟩
  | updated v ts u slip => exact h
  | snapshot l => exact h
  | sized n => exact h
  | panicked v => exact h

theorem goodA_spawn {size : Int} {s : Shared} {cs : List PC} (a : Act) (h : GoodA size ⟨s, cs⟩) : GoodA size ⟨s, cs ++ [EDRConc.start a]⟩ :=
  ⟨h.rsv, h.size, by
    intro c hc
    rcases List.mem_append.1 hc with hc | hc
    · exact h.calls c hc
    · rw [List.mem_singleton.1 hc]; cases a <;> trivial⟩

theorem goodA_start (size : Int) (alpha : F64) (time tick : Int) : GoodA size (init size alpha time tick) :=
  ⟨invA_new size alpha time tick, rfl, by simp [init, Machine.start]⟩

/-- **C67.** In every interleaving of any number of calls on a reservoir with capacity at least 1, no call panics. -/
theorem C67_conc_no_panic (A : Arith) (hA : A.Lawful) (size : Int) (hsz : 1 ≤ size) (alpha : F64) (time tick : Int) (es : List (Ev Act In))
    (hu : ∀ i x, Ev.step i x ∈ es → IsDraw x.u) :
    ∀ c ∈ ((machine A).run (init size alpha time tick) es).calls, ∀ v, c ≠ .panicked v := by
  have h := (machine A).inv_runE (fun _ p => GoodA size p) (fun e => ∀ i x, e = .step i x → IsDraw x.u)
    (fun _ _ h => h)
    (fun n s cs a _ h => goodA_spawn a h)
    (fun n s pre c post x i hq h => goodA_step hA hsz x (hq i x rfl) h)
    (init size alpha time tick) 0 ⟨invA_new size alpha time tick, rfl, by simp [init, Machine.start]⟩ es
    (fun e he i x hx => hu i x (hx ▸ he))
  intro c hc v hv
  have := h.calls c hc
  rw [hv] at this
  exact this

/-! ## C65 -/

structure GoodV (p : Pool Shared PC) : Prop where
  rsv : ∀ s ∈ p.shared.rsv.values, some s.value ∈ p.calls.map PC.arg
  snaps : ∀ l, PC.snapshot l ∈ p.calls → ∀ s ∈ l, some s.value ∈ p.calls.map PC.arg

theorem arg_after (act : Act) : (after act).arg = act.arg := by cases act <;> rfl

theorem arg_step (A : Arith) (s : Shared) (x : In) (c : PC) : (callStep A s x c).2.arg = c.arg := by
  cases c with
  | check act now =>
    simp only [callStep]; split
    · rfl
    · exact arg_after act
  | cas act now due next =>
    simp only [callStep]; split
    · rfl
    · exact arg_after act
  | lockScale act => exact arg_after act
  | lockRecord v p w ts u l => simp only [callStep]; split <;> rfl
  | size1 => simp only [callStep]; split <;> rfl
  | _ => rfl

theorem goodV_step {A : Arith} {s : Shared} {pre post : List PC} {c : PC} (x : In) (h : GoodV ⟨s, pre ++ c :: post⟩) :
    GoodV ⟨(callStep A s x c).1, pre ++ (callStep A s x c).2 :: post⟩ := by
  have hargs : (pre ++ (callStep A s x c).2 :: post).map PC.arg = (pre ++ c :: post).map PC.arg := by simp [arg_step]
  have hrsv : ∀ y ∈ (callStep A s x c).1.rsv.values, some y.value ∈ (pre ++ c :: post).map PC.arg := by
    cases c with
    | cas act now due next => simp only [callStep]; split <;> exact h.rsv
    | lockScale act => exact values_rescaleLocked (P := fun v => some v ∈ (pre ++ PC.lockScale act :: post).map PC.arg) h.rsv x.time
    | lockRecord v p w ts u l =>
      have := values_record (P := fun v' => some v' ∈ (pre ++ PC.lockRecord v p w ts u l :: post).map PC.arg) (r := s.rsv) (prio := p) (w := w) (value := v)
        h.rsv (by simp [PC.arg])
      simp only [callStep]
      split
      · rename_i hr; rw [hr] at this; exact this
      · rename_i hr; rw [hr] at this; exact this
    | _ => exact h.rsv
  refine ⟨by rw [hargs]; exact hrsv, ?_⟩
  intro l hl
  rw [hargs]
  simp only [List.mem_append, List.mem_cons] at hl
  have old : PC.snapshot l ∈ pre ++ c :: post → ∀ s ∈ l, some s.value ∈ (pre ++ c :: post).map PC.arg := h.snaps l
  rcases hl with hl | hl | hl
  · exact old (by simp [hl])
  · cases c with
    | lockSnap =>
      simp only [callStep, PC.snapshot.injEq] at hl
      subst hl
      exact fun y hy => h.rsv y ((List.dropWhile_sublist _).subset hy)
    | check act now => simp only [callStep] at hl; split at hl <;> cases act <;> simp [after] at hl
    | cas act now due next => simp only [callStep] at hl; split at hl <;> cases act <;> simp [after] at hl
    | lockScale act => cases act <;> simp [callStep, after] at hl
    | lockRecord v p w ts u l => simp only [callStep] at hl; split at hl <;> simp at hl
    | size1 => simp only [callStep] at hl; split at hl <;> simp at hl
    | snapshot l' => exact old (by simp only [callStep] at hl; rw [hl]; simp)
    | _ => simp [callStep] at hl
  · exact old (by simp [hl])

theorem goodV_spawn {s : Shared} {cs : List PC} (a : Act) (h : GoodV ⟨s, cs⟩) : GoodV ⟨s, cs ++ [EDRConc.start a]⟩ :=
  ⟨fun y hy => by
      have := h.rsv y hy
      rw [List.map_append, List.mem_append]; exact Or.inl this, by
    intro l hl y hy
    rw [List.map_append, List.mem_append]
    rcases List.mem_append.1 hl with hl | hl
    · exact Or.inl (h.snaps l hl y hy)
    · cases a <;> simp [EDRConc.start] at hl⟩

/-- **C65.** In every interleaving, each value a snapshot holds (and each value in the reservoir) was passed to some `UpdateN` call that has started. -/
theorem C65_conc_recorded (A : Arith) (size : Int) (alpha : F64) (time tick : Int) (es : List (Ev Act In)) :
    let p := (machine A).run (init size alpha time tick) es
    (∀ s ∈ p.shared.rsv.values, ∃ c ∈ p.calls, c.arg = some s.value) ∧
    ∀ l, PC.snapshot l ∈ p.calls → ∀ s ∈ l, ∃ c ∈ p.calls, c.arg = some s.value := by
  intro p
  have h : GoodV p := (machine A).inv_run GoodV
    (fun s cs a h => goodV_spawn a h)
    (fun s pre c post x h => goodV_step x h) (init size alpha time tick)
    ⟨by simp [init, Machine.start, EDR.new], by simp [init, Machine.start]⟩ es
  refine ⟨fun s hs => ?_, fun l hl s hs => ?_⟩
  · obtain ⟨c, hc, he⟩ := List.mem_map.1 (h.rsv s hs); exact ⟨c, hc, he⟩
  · obtain ⟨c, hc, he⟩ := List.mem_map.1 (h.snaps l hl s hs); exact ⟨c, hc, he⟩

/-! ## C63 -/

def okB (size : Int) : PC → Prop
  | .lockRecord _ p _ _ _ _ => p.NonNeg ∧ p ≠ .nan
  | .snapshot l => (l.length : Int) ≤ size
  | _ => True

theorem after_okB (size : Int) (act : Act) : okB size (after act) := by cases act <;> trivial

structure GoodB (k : Int) (a : ℚ) (T : Set Int) (n : Nat) (p : Pool Shared PC) : Prop where
  rsv : InvB p.shared.rsv n
  size : p.shared.rsv.size = k
  alpha : p.shared.rsv.alpha = .fin a
  start : ∃ t ∈ T, p.shared.rsv.startTime = currentTimeInSecond t
  calls : ∀ c ∈ p.calls, okB k c

theorem InvB.mono {r : EDR} {n m : Int} (h : InvB r n) (hm : n ≤ m) : InvB r m :=
  ⟨h.sorted, h.keys, h.le_size, h.le_count, le_trans h.count_le hm⟩

theorem goodB_step {A : Arith} (hA : A.Lawful) {size : Int} (hsz : 1 ≤ size) {a : ℚ} {T : Set Int}
    (hT : ∀ s ∈ T, ∀ t ∈ T, scalingFactor A (.fin a) (currentTimeInSecond s) (currentTimeInSecond t) ≠ .inf false)
    {n : Nat} (hn : (n : Int) + 1 < 9223372036854775808) {s : Shared} {pre post : List PC} {c : PC} (x : In) (hu : ∃ q : ℚ, x.u = .fin q ∧ 0 < q) (ht : x.time ∈ T)
    (h : GoodB size a T n ⟨s, pre ++ c :: post⟩) : GoodB size a T (n + 1) ⟨(callStep A s x c).1, pre ++ (callStep A s x c).2 :: post⟩ := by
  have hc := h.calls c (by simp)
  have hrs : InvB s.rsv (n + 1 : Nat) := InvB.mono h.rsv (by push_cast; omega)
  have hs' : s.rsv.size = size := h.size
  have keep : ∀ c', okB size c' → GoodB size a T (n + 1) ⟨s, pre ++ c' :: post⟩ := fun c' hc' => ⟨hrs, h.size, h.alpha, h.start, forall_replace h.calls hc'⟩
  cases c with
  | tick act => exact keep _ trivial
  | check act now =>
    refine keep (if s.rsv.nextScaleTime ≤ now then .reread act now s.rsv.nextScaleTime else after act) ?_
    split
    · trivial
    · exact after_okB size act
  | reread act now due => exact keep _ trivial
  | cas act now due next =>
    simp only [callStep]
    split
    · exact ⟨⟨hrs.sorted, hrs.keys, hrs.le_size, hrs.le_count, hrs.count_le⟩, h.size, h.alpha, h.start, forall_replace h.calls trivial⟩
    · exact keep _ (after_okB size act)
  | lockScale act =>
    obtain ⟨f1, f2, f3, -⟩ := rescaleLocked_frame (A := A) s.rsv x.time
    obtain ⟨t, htT, hst⟩ := h.start
    refine ⟨?_, f2.trans h.size, f1.trans h.alpha, ⟨x.time, ht, f3⟩, forall_replace h.calls (after_okB size act)⟩
    refine invB_rescaleLocked hA hrs h.alpha (by omega) (by push_cast; omega) x.time (by omega) ?_
    rw [show s.rsv.alpha = _ from h.alpha, show s.rsv.startTime = _ from hst]
    exact hT t htT x.time ht
  | time v => exact keep _ trivial
  | weigh v ts =>
    apply keep
    obtain ⟨q, hq, hq0⟩ := hu
    show F64.NonNeg (priority A _ x.u) ∧ priority A _ x.u ≠ .nan
    rw [hq, show s.rsv.alpha = _ from h.alpha]
    exact ⟨F64.nonNeg_div hA.rnd (hA.nonneg _) (F64.nonNeg_fin hq0.le), prio_ne_nan hA a _ hq0⟩
  | lockRecord v p w ts u l =>
    have h1 := invB_record (w := w) h.rsv (show 1 ≤ s.rsv.size by omega) hn hc.1 hc.2 v
    obtain ⟨f1, f2, f3, -⟩ := record_frame s.rsv p v w
    simp only [callStep]
    cases hr : record s.rsv p v w with
    | ok r =>
      rw [hr] at h1 f1 f2 f3
      exact ⟨by push_cast; exact h1, f2.trans h.size, f1.trans h.alpha, by obtain ⟨t, htT, hst⟩ := h.start; exact ⟨t, htT, f3.trans hst⟩, forall_replace h.calls trivial⟩
    | panic r =>
      rw [hr] at h1 f1 f2 f3
      exact ⟨by push_cast; exact h1, f2.trans h.size, f1.trans h.alpha, by obtain ⟨t, htT, hst⟩ := h.start; exact ⟨t, htT, f3.trans hst⟩, forall_replace h.calls trivial⟩
  | lockSnap =>
    apply keep
    show ((s.rsv.getValues.length : Nat) : Int) ≤ size
    rw [← hs']
    exact (invB_sizes h.rsv).1
  | size1 =>
    refine keep (if s.rsv.size > s.rsv.count then .size2 else .sized s.rsv.size) ?_
    split <;> trivial
  | size2 => exact keep _ trivial
  | updated v ts u slip => exact keep _ hc
  | snapshot l => exact keep _ hc
  | sized n => exact keep _ hc
  | panicked v => exact keep _ hc

theorem goodB_spawn {k : Int} {a : ℚ} {T : Set Int} {n : Nat} {s : Shared} {cs : List PC} (act : Act) (h : GoodB k a T n ⟨s, cs⟩) :
    GoodB k a T (n + 1) ⟨s, cs ++ [EDRConc.start act]⟩ := by
  refine ⟨InvB.mono h.rsv (by push_cast; omega), h.size, h.alpha, h.start, ?_⟩
  intro c hc
  rcases List.mem_append.1 hc with hc | hc
  · exact h.calls c hc
  · rw [List.mem_singleton.1 hc]; cases act <;> trivial

theorem GoodB.capacity {k : Int} {a : ℚ} {T : Set Int} {n : Nat} {p : Pool Shared PC} (h : GoodB k a T n p) :
    (p.shared.rsv.getValues.length : Int) ≤ min p.shared.rsv.count k ∧ ∀ l, PC.snapshot l ∈ p.calls → (l.length : Int) ≤ k := by
  obtain ⟨h1, h2, h3⟩ := invB_sizes h.rsv
  refine ⟨?_, fun l hl => h.calls _ hl⟩
  rw [h3] at h2
  have hs : p.shared.rsv.size = k := h.size
  rw [hs] at h2
  exact h2

/-- **C63.** In every interleaving (fewer than 2^63 steps, positive draws, all clock readings in a set `T` over which the factor does not
overflow) the reservoir and every snapshot hold at most `size` samples, and never more than min(count, size). -/
theorem C63_conc_capacity (A : Arith) (hA : A.Lawful) (size : Int) (hsz : 1 ≤ size) (a : ℚ) (time tick : Int) (T : Set Int) (h0 : time ∈ T)
    (hT : ∀ s ∈ T, ∀ t ∈ T, scalingFactor A (.fin a) (s.tdiv 1000) (t.tdiv 1000) ≠ .inf false)
    (es : List (Ev Act In)) (hn : (es.length : Int) < 9223372036854775808)
    (hu : ∀ i x, Ev.step i x ∈ es → (∃ q : ℚ, x.u = .fin q ∧ 0 < q) ∧ x.time ∈ T) :
    let p := (machine A).run (init size (.fin a) time tick) es
    (p.shared.rsv.getValues.length : Int) ≤ min p.shared.rsv.count size ∧ ∀ l, PC.snapshot l ∈ p.calls → (l.length : Int) ≤ size := by
  intro p
  have h := (machine A).inv_runE (fun n p => (n : Int) < 9223372036854775808 → GoodB size a T n p)
    (fun e => ∀ i x, e = .step i x → (∃ q : ℚ, x.u = .fin q ∧ 0 < q) ∧ x.time ∈ T)
    (fun n p h hn => by
      have h := h (by push_cast at hn; omega)
      exact ⟨InvB.mono h.rsv (by push_cast; omega), h.size, h.alpha, h.start, h.calls⟩)
    (fun n s cs a _ h hn => goodB_spawn a (h (by push_cast at hn; omega)))
    (fun n s pre c post x i hq h hn => goodB_step hA hsz hT (by push_cast at hn; omega) x (hq i x rfl).1 (hq i x rfl).2 (h (by push_cast at hn; omega)))
    (init size (.fin a) time tick) 0 (fun _ => ⟨invB_new size (by omega) (.fin a) time tick, rfl, rfl, ⟨time, h0, rfl⟩, by simp [init, Machine.start]⟩) es
    (fun e he i x hx => hu i x (hx ▸ he)) (by push_cast; omega)
  exact h.capacity

/-- A complete `UpdateN` as call number `i`, all clock readings 0. -/
def wholeUpdate (i : Nat) (v : Int) (u : ℚ) : List (Ev Act In) :=
  [.spawn (.updateN v), .step i {}, .step i {}, .step i {}, .step i { u := .fin u }, .step i {}]

/-- **C63** is false for `Size()` under concurrency: it reads the count twice without the lock. Here the capacity is 1 and `Size()` returns 3. -/
theorem C63_size_race_refuted : ∃ es : List (Ev Act In), (∀ i x, Ev.step i x ∈ es → IsDraw x.u) ∧
    PC.sized 3 ∈ ((machine demoExact).run (init 1 (.fin 1) 0 0) es).calls := by
  refine ⟨[.spawn .size, .step 0 {}] ++ wholeUpdate 1 10 (1 / 2) ++ wholeUpdate 2 20 (1 / 3) ++ wholeUpdate 3 30 (1 / 4) ++ [.step 0 {}], ?_, ?_⟩
  · intro i x hx
    simp only [wholeUpdate, List.cons_append, List.nil_append, List.mem_cons, List.not_mem_nil, or_false, reduceCtorEq, Ev.step.injEq, false_or] at hx
    rcases hx with ⟨-, rfl⟩ | ⟨-, rfl⟩ | ⟨-, rfl⟩ | ⟨-, rfl⟩ | ⟨-, rfl⟩ | ⟨-, rfl⟩ | ⟨-, rfl⟩ | ⟨-, rfl⟩ | ⟨-, rfl⟩ | ⟨-, rfl⟩ | ⟨-, rfl⟩ |
      ⟨-, rfl⟩ | ⟨-, rfl⟩ | ⟨-, rfl⟩ | ⟨-, rfl⟩ | ⟨-, rfl⟩ | ⟨-, rfl⟩ <;> exact ⟨_, rfl, by norm_num, by norm_num⟩
  · decide +kernel

/-! ## C68 -/

/-- The deadlines that were ever set: by the creation at tick `tick`, and by each swap in the log. -/
def deadlines (tick : Int) (log : List (Int × Int)) : List Int := log.map (fun e => i64 (e.1 + rescaleThreshold)) ++ [i64 (tick + rescaleThreshold)]

def okD (tick : Int) (log : List (Int × Int)) : PC → Prop
  | .reread _ now due => due ≤ now ∧ due ∈ deadlines tick log
  | .cas _ now due _ => due ≤ now ∧ due ∈ deadlines tick log
  | _ => True

theorem okD_cons {tick : Int} {log : List (Int × Int)} {e : Int × Int} {c : PC} (h : okD tick log c) : okD tick (e :: log) c := by
  cases c <;> simp only [okD] at h ⊢ <;> refine ⟨h.1, ?_⟩ <;> simp only [deadlines, List.map_cons, List.cons_append, List.mem_cons] <;> exact Or.inr h.2

theorem after_okD (tick : Int) (log : List (Int × Int)) (act : Act) : okD tick log (after act) := by cases act <;> trivial

/-- Every entry of the log was due, by a deadline set before it. -/
def Justified (tick : Int) : List (Int × Int) → Prop
  | [] => True
  | e :: older => (e.2 ≤ e.1 ∧ e.2 ∈ deadlines tick older) ∧ Justified tick older

/-- Has the call got past the swap? -/
def past : PC → Bool
  | .tick _ => false
  | .check _ _ => false
  | .reread _ _ _ => false
  | .cas _ _ _ _ => false
  | _ => true

structure GoodD (tick : Int) (p : Pool Shared PC) : Prop where
  log : Justified tick p.shared.log
  next : p.shared.rsv.nextScaleTime ∈ deadlines tick p.shared.log
  calls : ∀ c ∈ p.calls, okD tick p.shared.log c
  wins : p.shared.log.length ≤ p.calls.countP past

theorem past_after (act : Act) : past (after act) = true := by cases act <;> rfl

theorem countP_replace {α : Type} (f : α → Bool) (pre post : List α) (c c' : α) (h : f c = true → f c' = true) :
    (pre ++ c :: post).countP f ≤ (pre ++ c' :: post).countP f := by
  simp only [List.countP_append, List.countP_cons]
  cases h1 : f c <;> cases h2 : f c' <;> simp_all

theorem goodD_step {A : Arith} {tick : Int} {s : Shared} {pre post : List PC} {c : PC} (x : In)
    (h : GoodD tick ⟨s, pre ++ c :: post⟩) : GoodD tick ⟨(callStep A s x c).1, pre ++ (callStep A s x c).2 :: post⟩ := by
  have hc := h.calls c (by simp)
  have keep : ∀ c', okD tick s.log c' → (past c = true → past c' = true) → GoodD tick ⟨s, pre ++ c' :: post⟩ :=
    fun c' hc' hp => ⟨h.log, h.next, forall_replace h.calls hc', le_trans h.wins (countP_replace past pre post c c' hp)⟩
  cases c with
  | tick act => exact keep _ trivial (by simp [past])
  | check act now =>
    refine keep (if s.rsv.nextScaleTime ≤ now then .reread act now s.rsv.nextScaleTime else after act) ?_ ?_
    · split
      · exact ⟨‹_›, h.next⟩
      · exact after_okD _ _ act
    · simp [past]
  | reread act now due => exact keep _ hc (by simp [past])
  | cas act now due next =>
    simp only [callStep]
    split
    · refine ⟨⟨hc, h.log⟩, by simp [deadlines], forall_replace (fun c hc => okD_cons (h.calls c hc)) trivial, ?_⟩
      have := h.wins
      simp only [List.length_cons, List.countP_append, List.countP_cons, past] at this ⊢
      simp at this ⊢; omega
    · exact keep _ (after_okD _ _ act) (by simp [past])
  | lockScale act =>
    have hf := (rescaleLocked_frame (A := A) s.rsv x.time).2.2.2
    refine ⟨h.log, ?_, forall_replace h.calls (after_okD _ _ act), le_trans h.wins (countP_replace past _ _ _ _ fun _ => past_after act)⟩
    show (rescaleLocked A s.rsv x.time).nextScaleTime ∈ _
    rw [hf]; exact h.next
  | time v => exact keep _ trivial (fun _ => rfl)
  | weigh v ts => exact keep _ trivial (fun _ => rfl)
  | lockRecord v p w ts u l =>
    have f4 := (record_frame s.rsv p v w).2.2.2
    simp only [callStep]
    cases hr : record s.rsv p v w with
    | ok r =>
      rw [hr] at f4
      refine ⟨h.log, ?_, forall_replace h.calls trivial, le_trans h.wins (countP_replace past _ _ _ _ fun _ => rfl)⟩
      show r.nextScaleTime ∈ _
      rw [show r.nextScaleTime = _ from f4]; exact h.next
    | panic r =>
      rw [hr] at f4
      refine ⟨h.log, ?_, forall_replace h.calls trivial, le_trans h.wins (countP_replace past _ _ _ _ fun _ => rfl)⟩
      show r.nextScaleTime ∈ _
      rw [show r.nextScaleTime = _ from f4]; exact h.next
  | lockSnap => exact keep _ trivial (fun _ => rfl)
  | size1 =>
    refine keep (if s.rsv.size > s.rsv.count then .size2 else .sized s.rsv.size) ?_ ?_
    · split <;> trivial
    · intro _; split <;> rfl
  | size2 => exact keep _ trivial (fun _ => rfl)
  | updated v ts u slip => exact h
  | snapshot l => exact h
  | sized n => exact h
  | panicked v => exact h

theorem goodD_spawn {tick : Int} {s : Shared} {cs : List PC} (a : Act) (h : GoodD tick ⟨s, cs⟩) : GoodD tick ⟨s, cs ++ [EDRConc.start a]⟩ := by
  refine ⟨h.log, h.next, ?_, ?_⟩
  · intro c hc
    rcases List.mem_append.1 hc with hc | hc
    · exact h.calls c hc
    · rw [List.mem_singleton.1 hc]; cases a <;> trivial
  · have := h.wins
    simp only [List.countP_append] at this ⊢
    exact le_trans this (Nat.le_add_right _ _)

theorem goodD_start (size : Int) (alpha : F64) (time tick : Int) : GoodD tick (init size alpha time tick) :=
  ⟨trivial, by simp [init, Machine.start, EDR.new, deadlines], by simp [init, Machine.start], by simp [init, Machine.start]⟩

theorem goodD_run (A : Arith) (size : Int) (alpha : F64) (time tick : Int) (es : List (Ev Act In)) :
    GoodD tick ((machine A).run (init size alpha time tick) es) :=
  (machine A).inv_run (GoodD tick)
    (fun s cs a h => goodD_spawn a h) (fun s pre c post x h => goodD_step x h) (init size alpha time tick) (goodD_start size alpha time tick) es

theorem GoodD.due {tick : Int} {p : Pool Shared PC} (h : GoodD tick p) :
    p.shared.log.length ≤ p.calls.length ∧
    ∀ newer now due older, p.shared.log = newer ++ (now, due) :: older → due ≤ now ∧
      (due = i64 (tick + 3600000000000) ∨ ∃ now' due', (now', due') ∈ older ∧ due = i64 (now' + 3600000000000)) := by
  refine ⟨le_trans h.wins List.countP_le_length, ?_⟩
  intro newer now due older hl
  have hj := h.log
  rw [hl] at hj
  have : Justified tick ((now, due) :: older) := by
    clear hl
    induction newer with
    | nil => exact hj
    | cons e n ih => exact ih hj.2
  refine ⟨this.1.1, ?_⟩
  have hm := this.1.2
  simp only [deadlines, List.mem_append, List.mem_map, List.mem_cons, List.not_mem_nil, or_false] at hm
  rcases hm with ⟨⟨n', d'⟩, he, hd⟩ | hd
  · exact Or.inr ⟨n', d', he, hd.symm⟩
  · exact Or.inl hd

/-- **C68.** In every interleaving: a call rescales at most once; and it rescales only if its tick had reached a deadline, one hour of ticks
after the creation of the reservoir or after the tick of an earlier rescale. -/
theorem C68_conc_due (A : Arith) (size : Int) (alpha : F64) (time tick : Int) (es : List (Ev Act In)) :
    let p := (machine A).run (init size alpha time tick) es
    p.shared.log.length ≤ p.calls.length ∧
    ∀ newer now due older, p.shared.log = newer ++ (now, due) :: older → due ≤ now ∧
      (due = i64 (tick + 3600000000000) ∨ ∃ now' due', (now', due') ∈ older ∧ due = i64 (now' + 3600000000000)) :=
  (goodD_run A size alpha time tick es).due

/-- **C68** is false under concurrency for "one rescale per period": the deadline is read twice (lines 133 and 134), so two calls that both see the expired
deadline at the same tick both rescale, the second one with the deadline the first one has set. -/
theorem C68_once_refuted : ∃ es : List (Ev Act In),
    ((machine demoExact).run (init 1 (.fin 1) 0 0) es).shared.log = [(3600000000000, 3600000000000), (3600000000000, 3600000000000)] :=
  ⟨[.spawn .getSnapshot, .spawn .getSnapshot, .step 0 { tick := 3600000000000 }, .step 1 { tick := 3600000000000 }, .step 0 {}, .step 1 {},
    .step 0 {}, .step 0 {}, .step 1 {}, .step 1 {}], by decide +kernel⟩

/-! ## C69 -/

/-- **C69** is false: the weight is computed before the lock is taken. A rescale in between (the landmark moves from second 0 to second 10) leaves
a sample recorded at second 1 with the weight 2 ^ (1 - 0) instead of 2 ^ (1 - 10): it counts 1024 times too much. -/
theorem C69_refuted : ∃ es : List (Ev Act In),
    let p := (machine demoExact).run (init 1 (.fin 1) 0 0) es
    completed p = [⟨1, 1 / 2, 42⟩] ∧ p.shared.rsv.startTime = 10 ∧ p.shared.rsv.values.map (·.weight) = [.fin (2 ^ (1 : Int))] ∧
    (2 : ℚ) ^ (1 : Int) = 1024 * 2 ^ ((1 : Int) - 10) :=
  ⟨[.spawn (.updateN 42), .step 0 {}, .step 0 {}, .step 0 { time := 1000 }, .step 0 {},
    .spawn .getSnapshot, .step 1 { tick := 3600000000000 }, .step 1 {}, .step 1 {}, .step 1 {}, .step 1 { time := 10000 }, .step 0 {}], by
    refine ⟨by decide +kernel, by decide +kernel, by decide +kernel, by norm_num⟩⟩

/-- What a call may hold in its hands while the deadline has not come. -/
def okW (b : ℚ) (L D : Int) : PC → Prop
  | .check _ now => now < D
  | .reread _ _ _ => False
  | .cas _ _ _ _ => False
  | .lockScale _ => False
  | .weigh _ ts => ∃ t, InI64 t ∧ ts = currentTimeInSecond t
  | .lockRecord _ p w ts u _ => ∃ q : ℚ, 0 < q ∧ u = .fin q ∧ w = .fin (b ^ (ts - L)) ∧ p = .fin (b ^ (ts - L) / q)
  | .updated _ _ u _ => ∃ q : ℚ, 0 < q ∧ u = .fin q
  | _ => True

theorem after_okW (b : ℚ) (L D : Int) (act : Act) : okW b L D (after act) := by cases act <;> trivial

theorem TopK.perm {b : ℚ} {k : Int} {all all' kept : List Rec} (h : TopK b k all kept) (hp : all.Perm all') : TopK b k all' kept := by
  obtain ⟨d, hd, hd'⟩ := h.rest
  exact ⟨h.ascending, by rw [h.size, hp.length_eq], d, hd.trans hp, hd'⟩

theorem J.perm {a b : ℚ} {k : Int} {r : EDR} {all all' : List Rec} (h : J a b k r all) (hp : all.Perm all') : J a b k r all' := by
  obtain ⟨kept, hv, hk⟩ := h.held
  exact ⟨h.alpha, h.size, ⟨kept, hv, TopK.perm hk hp⟩, h.count0, by rw [← hp.length_eq]; exact h.countn, by rw [← hp.length_eq]; exact h.count⟩

structure GoodW (a b : ℚ) (k L D : Int) (n : Nat) (p : Pool Shared PC) : Prop where
  start : p.shared.rsv.startTime = L
  next : p.shared.rsv.nextScaleTime = D
  calls : ∀ c ∈ p.calls, okW b L D c
  len : (completed p).length ≤ n
  held : ((completed p).map (Rec.prio b)).Nodup → J a b k p.shared.rsv (completed p)
  alpha : p.shared.rsv.alpha = .fin a
  inv : InvA p.shared.rsv
  rsize : p.shared.rsv.size = k

theorem completed_pos {b : ℚ} {L D : Int} {cs : List PC} (h : ∀ c ∈ cs, okW b L D c) : ∀ e ∈ cs.filterMap PC.completed, 0 < e.u := by
  intro e he
  obtain ⟨c, hc, hce⟩ := List.mem_filterMap.1 he
  have := h c hc
  cases c <;> simp only [PC.completed, Option.some.injEq, reduceCtorEq] at hce
  obtain ⟨q, hq, hu⟩ := this
  subst hce
  simp only [hu, rat]; exact hq

theorem completed_same {pre post : List PC} {c c' : PC} (h : c.completed = c'.completed) :
    (pre ++ c' :: post).filterMap PC.completed = (pre ++ c :: post).filterMap PC.completed := by
  simp [List.filterMap_cons, h]

theorem completed_after (act : Act) : (after act).completed = none := by cases act <;> rfl

theorem goodW_step {A : Arith} {a b : ℚ} (hA : A.Exact a b) {size L D : Int} (hsz : 1 ≤ size) (hL : ∃ t, InI64 t ∧ L = currentTimeInSecond t)
    {n : Nat} (hn : (n : Int) + 1 < 9223372036854775808) {s : Shared} {pre post : List PC} {c : PC} (x : In) (hu : ∃ q : ℚ, x.u = .fin q ∧ 0 < q)
    (hi : InI64 x.time) (htick : x.tick < D) (h : GoodW a b size L D n ⟨s, pre ++ c :: post⟩) :
    GoodW a b size L D (n + 1) ⟨(callStep A s x c).1, pre ++ (callStep A s x c).2 :: post⟩ := by
  have hc := h.calls c (by simp)
  have hst : s.rsv.startTime = L := h.start
  have hnx : s.rsv.nextScaleTime = D := h.next
  have keep : ∀ c', okW b L D c' → c.completed = c'.completed → GoodW a b size L D (n + 1) ⟨s, pre ++ c' :: post⟩ := by
    intro c' hc' he
    refine ⟨h.start, h.next, forall_replace h.calls hc', ?_, ?_, h.alpha, h.inv, h.rsize⟩
    · have := h.len
      simp only [completed, completed_same he] at this ⊢
      omega
    · have := h.held
      simp only [completed, completed_same he] at this ⊢
      exact this
  cases c with
  | tick act => exact keep _ htick rfl
  | check act now =>
    have hlt : ¬ s.rsv.nextScaleTime ≤ now := by rw [hnx]; exact not_le.2 hc
    show GoodW a b size L D (n + 1) ⟨s, pre ++ (if s.rsv.nextScaleTime ≤ now then .reread act now s.rsv.nextScaleTime else after act) :: post⟩
    rw [if_neg hlt]
    exact keep _ (after_okW _ _ _ act) (completed_after act).symm
  | reread act now due => exact hc.elim
  | cas act now due next => exact hc.elim
  | lockScale act => exact hc.elim
  | time v => exact keep _ ⟨x.time, hi, rfl⟩ rfl
  | weigh v ts =>
    obtain ⟨t, hti, rfl⟩ := hc
    obtain ⟨t0, ht0, hL0⟩ := hL
    obtain ⟨q, hq, hq0⟩ := hu
    refine keep (.lockRecord v (priority A (weight A s.rsv.alpha (i64 (currentTimeInSecond t - s.rsv.startTime))) x.u)
      (weight A s.rsv.alpha (i64 (currentTimeInSecond t - s.rsv.startTime))) (currentTimeInSecond t) x.u s.rsv.startTime) ?_ rfl
    have hw : weight A s.rsv.alpha (i64 (currentTimeInSecond t - s.rsv.startTime)) = .fin (b ^ (currentTimeInSecond t - L)) := by
      rw [hst, show s.rsv.alpha = _ from h.alpha, hL0, i64_of_in (sec_diff ht0 hti), weight_exact hA]
    refine ⟨q, hq0, hq, hw, ?_⟩
    rw [hw, hq]
    unfold priority
    rw [hA.rnd]
    simp only [F64.div, hq0.ne', if_false, exact]
  | lockRecord v p w ts u l =>
    obtain ⟨q, hq0, rfl, rfl, rfl⟩ := hc
    have hperm : (completed ⟨s, pre ++ PC.updated v ts (.fin q) (s.rsv.startTime - l) :: post⟩).Perm (completed ⟨s, pre ++ PC.lockRecord v (.fin (b ^ (ts - L) / q)) (.fin (b ^ (ts - L))) ts (.fin q) l :: post⟩ ++ [⟨ts, q, v⟩]) := by
      simp only [completed, List.filterMap_append, List.filterMap_cons, PC.completed, rat]
      exact (List.perm_middle).trans (List.perm_append_singleton _ _).symm
    set old := completed ⟨s, pre ++ PC.lockRecord v (.fin (b ^ (ts - L) / q)) (.fin (b ^ (ts - L))) ts (.fin q) l :: post⟩ with hold
    have hpos : ∀ e ∈ old, 0 < e.u := completed_pos h.calls
    have hlen : old.length ≤ n := h.len
    obtain ⟨f1, f2, f3, f4⟩ := record_frame s.rsv (.fin (b ^ (ts - L) / q)) v (.fin (b ^ (ts - L)))
    have hJ : (old.map (Rec.prio b)).Nodup → (∀ y ∈ old, y.prio b ≠ Rec.prio b ⟨ts, q, v⟩) →
        J a b size (record s.rsv (.fin (b ^ (ts - L) / q)) v (.fin (b ^ (ts - L)))).state (old ++ [⟨ts, q, v⟩]) := by
      intro hd hne
      have := J_record hA hsz (h.held hd) hpos (show (old.length : Int) + 1 < 9223372036854775808 by omega) ⟨ts, q, v⟩ hne
      simp only at this
      rw [hst] at this
      exact this.2.1
    have hcalls : ∀ c ∈ pre ++ PC.updated v ts (.fin q) (s.rsv.startTime - l) :: post, okW b L D c := forall_replace h.calls ⟨q, hq0, rfl⟩
    have hdist : ((completed ⟨s, pre ++ PC.updated v ts (.fin q) (s.rsv.startTime - l) :: post⟩).map (Rec.prio b)).Nodup →
        (old.map (Rec.prio b)).Nodup ∧ ∀ y ∈ old, y.prio b ≠ Rec.prio b ⟨ts, q, v⟩ := by
      intro hd
      have hd' := ((hperm.map (Rec.prio b)).nodup_iff).1 hd
      rw [List.map_append] at hd'
      have := List.nodup_append.1 hd'
      exact ⟨this.1, fun y hy => this.2.2 _ (List.mem_map_of_mem hy) _ (by simp)⟩
    have hnn : F64.NonNeg (.fin (b ^ (ts - L) / q)) := F64.nonNeg_fin (div_nonneg (zpow_pos hA.pos _).le hq0.le)
    have hrs : s.rsv.size = size := h.rsize
    have hI := invA_record (w := .fin (b ^ (ts - L))) h.inv (show 1 ≤ s.rsv.size by omega) hnn v
    have hlen' := hperm.length_eq
    rw [List.length_append] at hlen'
    simp only [callStep]
    cases hr : record s.rsv (.fin (b ^ (ts - L) / q)) v (.fin (b ^ (ts - L))) with
    | ok r =>
      rw [hr] at f1 f2 f3 f4 hJ hI
      refine ⟨f3.trans hst, f4.trans hnx, hcalls, ?_, ?_, f1.trans h.alpha, hI.1, f2.trans h.rsize⟩
      · show (completed ⟨s, pre ++ PC.updated v ts (.fin q) (s.rsv.startTime - l) :: post⟩).length ≤ n + 1
        rw [hlen']; simp; omega
      · intro hd
        obtain ⟨h1, h2⟩ := hdist hd
        exact J.perm (hJ h1 h2) hperm.symm
    | panic r =>
      rw [hr] at hI
      simp at hI
  | lockSnap => exact keep _ trivial rfl
  | size1 =>
    refine keep (if s.rsv.size > s.rsv.count then .size2 else .sized s.rsv.size) ?_ ?_
    · split <;> trivial
    · split <;> rfl
  | size2 => exact keep _ trivial rfl
  | updated v ts u slip => exact keep _ hc rfl
  | snapshot l => exact keep _ hc rfl
  | sized n => exact keep _ hc rfl
  | panicked v => exact keep _ hc rfl

theorem goodW_spawn {a b : ℚ} {k L D : Int} {n : Nat} {s : Shared} {cs : List PC} (act : Act) (h : GoodW a b k L D n ⟨s, cs⟩) :
    GoodW a b k L D (n + 1) ⟨s, cs ++ [EDRConc.start act]⟩ := by
  have hcomp : completed ⟨s, cs ++ [EDRConc.start act]⟩ = completed ⟨s, cs⟩ := by
    cases act <;> simp [completed, EDRConc.start, PC.completed]
  refine ⟨h.start, h.next, ?_, ?_, ?_, h.alpha, h.inv, h.rsize⟩
  · intro c hc
    rcases List.mem_append.1 hc with hc | hc
    · exact h.calls c hc
    · rw [List.mem_singleton.1 hc]; cases act <;> trivial
  · rw [hcomp]; exact Nat.le_succ_of_le h.len
  · rw [hcomp]; exact h.held

theorem goodW_start (a b : ℚ) (size : Int) (hsz : 1 ≤ size) (time tick : Int) :
    GoodW a b size (currentTimeInSecond time) (i64 (tick + rescaleThreshold)) 0 (init size (.fin a) time tick) :=
  ⟨rfl, rfl, by simp [init, Machine.start], by simp [init, Machine.start, completed],
    fun _ => ⟨rfl, rfl, ⟨[], rfl, List.Pairwise.nil, by simp [init, Machine.start, completed]; omega, [], by simp [init, Machine.start, completed], by simp⟩,
      by simp [init, Machine.start, EDR.new], by simp [init, Machine.start, EDR.new], by simp [init, Machine.start, EDR.new, completed]⟩,
    rfl, invA_new size (.fin a) time tick, rfl⟩

theorem GoodW.top {a b : ℚ} {k time D : Int} {n : Nat} {p : Pool Shared PC} (h : GoodW a b k (currentTimeInSecond time) D n p)
    (hd : ((completed p).map (Rec.prio b)).Nodup) :
    ∃ kept, TopK b k (completed p) kept ∧ p.shared.rsv.getValues = kept.map (relative b (time.tdiv 1000)) := by
  obtain ⟨kept, hv, hk⟩ := (h.held hd).held
  refine ⟨kept, hk, ?_⟩
  rw [getValues_eq h.inv.keys, hv, show p.shared.rsv.startTime = _ from h.start]
  rfl

/-- **C69** (and **C64** under concurrency) hold while no rescale comes due: in every interleaving all of whose ticks stay below the first
deadline, with positive draws and distinct priorities, the reservoir holds exactly the top `size` completed updates by priority, each with the
weight `b ^ ts` relative to the landmark - whatever the order in which the calls got the lock. -/
theorem C69_no_rescale (A : Arith) (a b : ℚ) (hA : A.Exact a b) (size : Int) (hsz : 1 ≤ size) (time tick : Int) (ht : InI64 time)
    (es : List (Ev Act In)) (hn : (es.length : Int) < 9223372036854775808)
    (hu : ∀ i x, Ev.step i x ∈ es → (∃ q : ℚ, x.u = .fin q ∧ 0 < q) ∧ InI64 x.time ∧ x.tick < i64 (tick + 3600000000000)) :
    let p := (machine A).run (init size (.fin a) time tick) es
    ((completed p).map (Rec.prio b)).Nodup →
      ∃ kept, TopK b size (completed p) kept ∧ p.shared.rsv.getValues = kept.map (relative b (time.tdiv 1000)) := by
  intro p hd
  have h := (machine A).inv_runE (fun n p => (n : Int) < 9223372036854775808 → GoodW a b size (currentTimeInSecond time) (i64 (tick + rescaleThreshold)) n p)
    (fun e => ∀ i x, e = .step i x → (∃ q : ℚ, x.u = .fin q ∧ 0 < q) ∧ InI64 x.time ∧ x.tick < i64 (tick + rescaleThreshold))
    (fun n p h hn => by
      have h := h (by push_cast at hn; omega)
      exact ⟨h.start, h.next, h.calls, Nat.le_succ_of_le h.len, h.held, h.alpha, h.inv, h.rsize⟩)
    (fun n s cs act _ h hn => goodW_spawn act (h (by push_cast at hn; omega)))
    (fun n s pre c post x i hq h hn => goodW_step hA hsz ⟨time, ht, rfl⟩ (by push_cast at hn; omega) x (hq i x rfl).1 (hq i x rfl).2.1 (hq i x rfl).2.2
      (h (by push_cast at hn; omega)))
    (init size (.fin a) time tick) 0
    (fun _ => goodW_start a b size hsz time tick) es
    (fun e he i x hx => hu i x (hx ▸ he)) (by push_cast; omega)
  exact h.top hd

/-- The hypotheses are met: three interleaved updates into a reservoir of two; the one with the highest draw is not kept. -/
example : let es : List (Ev Act In) := [.spawn (.updateN 10), .spawn (.updateN 20), .spawn (.updateN 30)] ++
      [.step 0 {}, .step 1 {}, .step 2 {}, .step 2 {}, .step 1 {}, .step 0 {}, .step 0 {}, .step 1 {}, .step 2 {},
       .step 2 { u := .fin (1 / 4) }, .step 0 { u := .fin (1 / 2) }, .step 1 { u := .fin (1 / 3) }, .step 1 {}, .step 0 {}, .step 2 {}]
    ((machine demoExact).run (init 2 (.fin 1) 0 0) es).shared.rsv.getValues.map (·.value) = [20, 30] := by decide +kernel

end EDRConc
end GoMetrics
