import Verif.Proofs.UniformConcSample
import Verif.Props.Estimate
/-! # C119: a uniform reservoir used by many goroutines is still a fair sample of what they recorded

A schedule says which calls start and whose turn it is; each turn is given a random word, which is used if the turn draws one. The theorems compare
all the words the random source may deliver to one and the same schedule. -/
namespace GoMetrics
open Rounding UniformSnapshot UniformFair UniformReservoir UniformWords Estimate UniformConc

namespace UniformConc

/-- The words with which, at the end of the schedule, nobody is inside `UpdateN` and the updates of `vs` have been made in this order. -/
def inOrder (capacity : Nat) (sched : Schedule) (vs : List Int) : List (List Nat) :=
  (wordLists (2 ^ 63) (turns sched)).filter fun ws => decide ((after capacity (supplied sched ws)).shared.writer = false ∧
    (after capacity (supplied sched ws)).shared.log.map Prod.fst = vs)

/-- The words with which all the `UpdateN` calls are through at the end of the schedule. -/
def finished (capacity : Nat) (sched : Schedule) : List (List Nat) :=
  (wordLists (2 ^ 63) (turns sched)).filter fun ws => decide ((recorded (after capacity (supplied sched ws))).length = (updates sched).length)

/-- The reservoir at the end of the schedule. -/
def reservoir (capacity : Nat) (sched : Schedule) (ws : List Nat) : UniformReservoir := (after capacity (supplied sched ws)).shared.obj

/-- The value an updating call records. -/
def warg : GuardPC Int WPC Int Bool Query RPC Answer → Option Int
  | .wWait a => some a
  | .wIn a _ _ => some a
  | .wOut a _ => some a
  | .wDone a _ => some a
  | _ => none

theorem warg_step (s : Guard UniformReservoir Int Int Bool) (x : Int) (c : GuardPC Int WPC Int Bool Query RPC Answer) :
    warg (guarded.callStep s x c).2 = warg c := by
  cases c with
  | wWait a => simp only [Guarded.callStep]; split <;> rfl
  | wIn a ins l => simp only [Guarded.callStep]; split <;> rfl
  | rWait q => simp only [Guarded.callStep]; split <;> rfl
  | rIn q k => simp only [Guarded.callStep]; split <;> rfl
  | _ => rfl

theorem warg_run (sched : Schedule) : ∀ (p : P) (ws : List Nat),
    (guarded.machine.run p (supplied sched ws)).calls.filterMap warg = p.calls.filterMap warg ++ updates sched := by
  induction sched with
  | nil => intro p ws; simp [supplied, updates, Machine.run]
  | cons e es ih =>
    intro p ws
    cases e with
    | spawn a =>
      have := ih (guarded.machine.apply p (.spawn a)) ws
      simp only [supplied, Machine.run, List.foldl_cons] at this ⊢
      rw [this]
      cases a with
      | inl v => simp [Machine.apply, updates, Guarded.machine, warg]
      | inr q => simp [Machine.apply, updates, Guarded.machine, warg]
    | step i u =>
      have := ih (guarded.machine.apply p (.step i (ws.headD 0 : Nat))) ws.tail
      simp only [supplied, Machine.run, List.foldl_cons] at this ⊢
      rw [this, updates]
      congr 1
      cases hc : p.calls[i]? with
      | none => simp only [Machine.apply, hc]
      | some c0 =>
        obtain ⟨pre, post, e1, -, e2⟩ := guarded.machine.apply_step_eq (x := ((ws.headD 0 : Nat) : Int)) hc
        rw [e2, e1]
        simp only [List.filterMap_append, List.filterMap_cons]
        have := warg_step p.shared ((ws.headD 0 : Nat) : Int) c0
        simp only [Guarded.machine, this]

theorem warg_after (capacity : Nat) (sched : Schedule) (ws : List Nat) : (after capacity (supplied sched ws)).calls.filterMap warg = updates sched := by
  have := warg_run sched (Guarded.init (UniformReservoir.new capacity)) ws
  exact this

/-- The value of an updating call that is through. -/
def thru : GuardPC Int WPC Int Bool Query RPC Answer → Option Int
  | .wOut a _ => some a
  | .wDone a _ => some a
  | _ => none

theorem recorded_eq (p : P) : recorded p = p.calls.filterMap thru := by
  unfold recorded Guarded.written
  refine congrArg (fun f => List.filterMap f p.calls) ?_
  funext c
  cases c <;> rfl

/-- If as many updates are through as there are, nobody is inside. -/
theorem through {p : P} {n : Nat} (h : (p.calls.filterMap warg).length = n) (hr : (recorded p).length = n) :
    recorded p = p.calls.filterMap warg ∧ ∀ a ins l, GuardPC.wIn a ins l ∉ p.calls := by
  rw [recorded_eq] at hr ⊢
  have key : ∀ cs : List (GuardPC Int WPC Int Bool Query RPC Answer), (cs.filterMap thru).length ≤ (cs.filterMap warg).length ∧
      ((cs.filterMap thru).length = (cs.filterMap warg).length → cs.filterMap thru = cs.filterMap warg ∧ ∀ a ins l, GuardPC.wIn a ins l ∉ cs) := by
    intro cs
    induction cs with
    | nil => simp
    | cons c cs ih =>
      obtain ⟨i1, i2⟩ := ih
      cases c with
      | wWait a => simp only [List.filterMap_cons, warg, thru, List.length_cons]; exact ⟨by omega, fun h => by omega⟩
      | wIn a ins l => simp only [List.filterMap_cons, warg, thru, List.length_cons]; exact ⟨by omega, fun h => by omega⟩
      | wOut a r =>
        simp only [List.filterMap_cons, warg, thru, List.length_cons, List.mem_cons, reduceCtorEq, false_or]
        exact ⟨by omega, fun h => ⟨by rw [(i2 (by omega)).1], (i2 (by omega)).2⟩⟩
      | wDone a r =>
        simp only [List.filterMap_cons, warg, thru, List.length_cons, List.mem_cons, reduceCtorEq, false_or]
        exact ⟨by omega, fun h => ⟨by rw [(i2 (by omega)).1], (i2 (by omega)).2⟩⟩
      | rWait q => simp only [List.filterMap_cons, warg, thru, List.mem_cons, reduceCtorEq, false_or]; exact ⟨i1, i2⟩
      | rIn q k => simp only [List.filterMap_cons, warg, thru, List.mem_cons, reduceCtorEq, false_or]; exact ⟨i1, i2⟩
      | rOut q k => simp only [List.filterMap_cons, warg, thru, List.mem_cons, reduceCtorEq, false_or]; exact ⟨i1, i2⟩
      | rDone q k => simp only [List.filterMap_cons, warg, thru, List.mem_cons, reduceCtorEq, false_or]; exact ⟨i1, i2⟩
  exact (key p.calls).2 (by rw [hr, h])

theorem spawns_le (sched : Schedule) : spawns sched ≤ sched.length := by
  induction sched with
  | nil => simp [spawns]
  | cons e es ih => cases e <;> simp [spawns] <;> omega

theorem recorded_ghost (p : P) : recorded (ghost p) = recorded p := by
  rw [recorded_eq, recorded_eq]
  unfold ghost
  rw [List.filterMap_map]
  refine congrArg (fun f => List.filterMap f p.calls) ?_
  funext c
  cases c <;> rfl

theorem order_ghost (p : P) : (ghost p).shared.log.map Prod.fst = p.shared.log.map Prod.fst := by
  simp [ghost, ghostG, Function.comp_def]

/-- The words of a class, compared with the sequences of positions. -/
theorem class_draws {capacity : Nat} {sched : Schedule} (hl : sched.length < 2 ^ 63) (B : P → Bool) {vs : List Int} (hc : capacity ≤ vs.length)
    (hv : vs.length < 2 ^ 63)
    (hB : ∀ q : P, B (ghost q) = true → (∀ a ins l, GuardPC.wIn a ins l ∉ q.calls) ∧ q.shared.log.map Prod.fst = vs) (Q : List Int → Bool) :
    ((wordLists (2 ^ 63) (turns sched)).filter fun ws => B (ghost (after capacity (supplied sched ws)))).countP
        (fun ws => Q (reservoir capacity sched ws).values) * vs.length.factorial =
      ((wordLists (2 ^ 63) (turns sched)).filter fun ws => B (ghost (after capacity (supplied sched ws)))).length *
        (draws vs.length).countP fun s => Q (sampleOf capacity vs s) := by
  have e63 : (2 : Nat) ^ 63 = 9223372036854775808 := by norm_num
  have := count_good uniform_words sched (by have := spawns_le sched; omega) B vs hc (by omega) hB Q
  generalize (2 : Nat) ^ 63 = M at *
  rw [List.countP_filter, ← List.countP_eq_length_filter, ← this]
  congr 1
  refine List.countP_congr fun ws _ => ?_
  rw [Bool.and_comm]; rfl

/-- Not inside `UpdateN`. -/
def notIn : GuardPC Int WPC Int Bool Query RPC Answer → Bool
  | .wIn _ _ _ => false
  | _ => true

theorem notIn_ghost (p : P) : (ghost p).calls.all notIn = p.calls.all notIn := by
  unfold ghost
  rw [List.all_map]
  refine congrArg (fun f => p.calls.all f) ?_
  funext c
  cases c <;> rfl

theorem notIn_iff (p : P) : p.calls.all notIn = true ↔ ∀ a ins l, GuardPC.wIn a ins l ∉ p.calls := by
  rw [List.all_eq_true]
  constructor
  · intro h a ins l hm
    have := h _ hm
    simp [notIn] at this
  · intro h c hc
    cases c with
    | wIn a ins l => exact absurd hc (h a ins l)
    | _ => rfl

/-- Nobody is inside when the lock is free. -/
theorem free {capacity : Nat} {sched : Schedule} (hl : sched.length < 2 ^ 63) {ws : List Nat} (h : (after capacity (supplied sched ws)).shared.writer = false) :
    (after capacity (supplied sched ws)).calls.all notIn = true := by
  have hJ := j_run sched (Guarded.init (UniformReservoir.new capacity)) [] ws (j_start capacity)
    (by have := spawns_le sched; norm_num at hl; simp [Guarded.init, Machine.start]; omega)
  rw [notIn_iff]
  intro a ins l hm
  have h1 : 0 < ((after capacity (supplied sched ws)).calls.filter Guarded.wHolds).length := List.length_pos_of_mem (List.mem_filter.2 ⟨hm, rfl⟩)
  have h2 := hJ.base.writer
  change ((after capacity (supplied sched ws)).calls.filter Guarded.wHolds).length = if (after capacity (supplied sched ws)).shared.writer then 1 else 0 at h2
  rw [h] at h2
  simp only [Bool.false_eq_true, if_false] at h2
  omega

theorem sum_split {α : Type} (l : List α) (q : α → Bool) (g : α → ℝ) :
    (l.map g).sum = ((l.filter q).map g).sum + ((l.filter fun a => !q a).map g).sum := by
  induction l with
  | nil => simp
  | cons a l ih =>
    cases h : q a <;> simp [h, ih] <;> ring

/-- What holds of the total in each class holds of the total. -/
theorem by_key {α κ : Type} [DecidableEq κ] (key : α → κ) (g : α → ℝ) (n : Nat) : ∀ l : List α, l.length ≤ n →
    (∀ k, ((l.filter fun a => decide (key a = k)).map g).sum ≤ 0) → (l.map g).sum ≤ 0 := by
  induction n with
  | zero =>
    intro l hl _
    have : l = [] := List.length_eq_zero_iff.1 (by omega)
    subst this; simp
  | succ n ih =>
    intro l hl h
    cases l with
    | nil => simp
    | cons a t =>
      rw [sum_split (a :: t) (fun b => decide (key b = key a))]
      have h1 := h (key a)
      have h2 : ((List.filter (fun b => !decide (key b = key a)) (a :: t)).map g).sum ≤ 0 := by
        refine ih _ ?_ fun k => ?_
        · rw [List.filter_cons_of_neg (by simp)]
          have := List.length_filter_le (fun b => !decide (key b = key a)) t
          simp at hl; omega
        · rw [List.filter_filter]
          by_cases hk : k = key a
          · rw [List.filter_eq_nil_iff.2]
            · simp
            · intro b _; simp [hk]
          · have e : (a :: t).filter (fun b => decide (key b = k) && !decide (key b = key a)) = (a :: t).filter fun b => decide (key b = k) := by
              refine List.filter_congr fun b _ => ?_
              by_cases hb : key b = k
              · simp [hb, hk]
              · simp [hb]
            rw [e]; exact h k
      linarith

/-- The words with which all updates are through, in the order `vs`. -/
theorem class_sum {capacity : Nat} {sched : Schedule} (hl : sched.length < 2 ^ 63) {vs : List Int} (hc : capacity ≤ vs.length) (hv : vs.length < 2 ^ 63)
    (L : List (List Nat)) (e : P → Bool) (hL : L = (wordLists (2 ^ 63) (turns sched)).filter fun ws => e (ghost (after capacity (supplied sched ws))) &&
      ((after capacity (supplied sched ws)).calls.all notIn && decide ((after capacity (supplied sched ws)).shared.log.map Prod.fst = vs))) (f : List Int → ℚ) :
    (L.map fun ws => f (reservoir capacity sched ws).values).sum * vs.length.factorial = L.length * ((draws vs.length).map fun s => f (sampleOf capacity vs s)).sum := by
  have hB := class_draws hl (fun q => e q && (q.calls.all notIn && decide (q.shared.log.map Prod.fst = vs))) hc hv (by
    intro q hq
    simp only [Bool.and_eq_true, decide_eq_true_eq] at hq
    rw [notIn_ghost, notIn_iff, order_ghost] at hq
    exact hq.2)
  simp only [notIn_ghost, order_ghost] at hB
  rw [← hL] at hB
  have := sum_by_count (L.map fun ws => (reservoir capacity sched ws).values) ((draws vs.length).map fun s => sampleOf capacity vs s) vs.length.factorial L.length
    (fun x => by
      have := hB fun T => decide (T = x)
      rw [List.countP_map, List.countP_map]
      have h' : L.countP ((fun y => decide (y = x)) ∘ fun ws => (reservoir capacity sched ws).values) * vs.length.factorial =
        (draws vs.length).countP ((fun y => decide (y = x)) ∘ fun s => sampleOf capacity vs s) * L.length := by rw [Nat.mul_comm _ L.length]; exact this
      exact_mod_cast h') f
  rw [List.map_map, List.map_map] at this
  rw [mul_comm (L.length : ℚ)]
  exact this

theorem average_draws_reservoirs (c k : Nat) (vs : List Int) (hk : 1 ≤ k) (hc : c ≤ vs.length) (hl : vs.length < 2 ^ 63) (F : List Int → ℚ) :
    ((draws vs.length).map fun s => F (sampleOf c vs s)).sum = average (reservoirs c k vs) (fun u => F u.values) * vs.length.factorial := by
  have hnf : (0 : ℚ) < vs.length.factorial := by exact_mod_cast Nat.factorial_pos _
  rw [average_reservoirs c k vs hk hc hl F]
  unfold average
  rw [length_draws, div_mul_cancel₀ _ hnf.ne']

theorem share_eq_average {α : Type} (l : List α) (A : α → Bool) : share l A = average l fun a => if A a then 1 else 0 := by
  unfold share average
  congr 1
  induction l with
  | nil => simp
  | cons a l ih => rw [List.map_cons, List.sum_cons, ← ih, List.countP_cons]; cases A a <;> simp [add_comm]

/-- The order in which the updates were made. -/
abbrev order (capacity : Nat) (sched : Schedule) (ws : List Nat) : List Int := (after capacity (supplied sched ws)).shared.log.map Prod.fst

theorem order_perm {capacity : Nat} {sched : Schedule} {ws : List Nat} (h : ws ∈ finished capacity sched) : (order capacity sched ws).Perm (updates sched) := by
  unfold finished at h
  rw [List.mem_filter, decide_eq_true_eq] at h
  have h1 := Guarded.written_log (G := guarded) (UniformReservoir.new capacity) (supplied sched ws)
  obtain ⟨h2, -⟩ := through (p := after capacity (supplied sched ws)) (by rw [warg_after]) h.2
  rw [warg_after] at h2
  rw [← h2]
  exact h1

/-- What holds on the average after sequential updates, whatever their order, holds on the average after concurrent ones. -/
theorem transfer {capacity k : Nat} {sched : Schedule} (hk : 1 ≤ k) (hc : capacity ≤ (updates sched).length) (hl : sched.length < 2 ^ 63) (f : List Int → ℚ) (m : ℝ)
    (hne : finished capacity sched ≠ [])
    (h : ∀ vs : List Int, vs.Perm (updates sched) → ((average (reservoirs capacity k vs) fun u => f u.values : ℚ) : ℝ) ≤ m) :
    ((average (finished capacity sched) fun ws => f (reservoir capacity sched ws).values : ℚ) : ℝ) ≤ m := by
  have hul : (updates sched).length < 2 ^ 63 := by
    have : (updates sched).length ≤ sched.length := by
      clear h hne hc hl
      induction sched with
      | nil => simp [updates]
      | cons e es ih => rcases e with (v | q) | i <;> simp [updates] <;> omega
    omega
  have key := by_key (order capacity sched) (fun ws => ((f (reservoir capacity sched ws).values : ℚ) : ℝ) - m) _ (finished capacity sched) (le_refl _) (by
    intro vs
    by_cases hex : ∃ ws ∈ finished capacity sched, order capacity sched ws = vs
    · obtain ⟨ws0, hw0, rfl⟩ := hex
      have hp := order_perm hw0
      generalize order capacity sched ws0 = vs at hp
      have hlen := hp.length_eq
      have hcs := class_sum (capacity := capacity) hl (by rw [hlen]; exact hc) (by rw [hlen]; exact hul) ((finished capacity sched).filter fun ws => decide (order capacity sched ws = vs))
        (fun q => decide ((recorded q).length = (updates sched).length)) (by
          unfold finished
          rw [List.filter_filter]
          refine List.filter_congr fun ws _ => ?_
          rw [recorded_ghost]
          by_cases hr : (recorded (after capacity (supplied sched ws))).length = (updates sched).length
          · have := (through (p := after capacity (supplied sched ws)) (by rw [warg_after]) hr).2
            rw [← notIn_iff] at this
            simp [hr, this]
          · simp [hr]) f
      generalize (finished capacity sched).filter (fun ws => decide (order capacity sched ws = vs)) = L at *
      rw [average_draws_reservoirs capacity k vs hk (by rw [hlen]; exact hc) (by rw [hlen]; exact hul) f] at hcs
      have hnf : (0 : ℚ) < vs.length.factorial := by exact_mod_cast Nat.factorial_pos _
      have hcs' : (L.map fun ws => f (reservoir capacity sched ws).values).sum = L.length * average (reservoirs capacity k vs) fun u => f u.values := by
        apply mul_right_cancel₀ hnf.ne'
        rw [hcs]; ring
      have h1 := h vs hp
      have e : (L.map fun ws => ((f (reservoir capacity sched ws).values : ℚ) : ℝ) - m).sum =
          (((L.map fun ws => f (reservoir capacity sched ws).values).sum : ℚ) : ℝ) - L.length * m := by
        clear hcs hcs'
        induction L with
        | nil => simp
        | cons a L ih => simp only [List.map_cons, List.sum_cons, ih, List.length_cons]; push_cast; ring
      rw [e, hcs']
      push_cast
      have : (0 : ℝ) ≤ L.length := by positivity
      nlinarith
    · have : (finished capacity sched).filter (fun ws => decide (order capacity sched ws = vs)) = [] := by
        rw [List.filter_eq_nil_iff]
        intro ws hw hh
        exact hex ⟨ws, hw, by simpa using hh⟩
      rw [this]; simp)
  generalize finished capacity sched = L at *
  have e : (L.map fun ws => ((f (reservoir capacity sched ws).values : ℚ) : ℝ) - m).sum =
      (((L.map fun ws => f (reservoir capacity sched ws).values).sum : ℚ) : ℝ) - L.length * m := by
    clear key hne
    induction L with
    | nil => simp
    | cons a L ih => simp only [List.map_cons, List.sum_cons, ih, List.length_cons]; push_cast; ring
  rw [e] at key
  have hL : (0 : ℝ) < L.length := by exact_mod_cast List.length_pos_iff.2 hne
  unfold average
  push_cast
  rw [div_le_iff₀ hL]
  push_cast at key
  linarith

theorem transfer_share {capacity k : Nat} {sched : Schedule} (hk : 1 ≤ k) (hc : capacity ≤ (updates sched).length) (hl : sched.length < 2 ^ 63) (A : List Int → Bool)
    (β : ℝ) (hβ : 0 ≤ β) (h : ∀ vs : List Int, vs.Perm (updates sched) → ((share (reservoirs capacity k vs) fun u => A u.values : ℚ) : ℝ) ≤ β) :
    ((share (finished capacity sched) fun ws => A (reservoir capacity sched ws).values : ℚ) : ℝ) ≤ β := by
  by_cases hne : finished capacity sched = []
  · rw [hne]; simp [share, hβ]
  · rw [share_eq_average]
    refine transfer hk hc hl (fun T => if A T then 1 else 0) β hne fun vs hp => ?_
    rw [← share_eq_average (reservoirs capacity k vs) fun u => A u.values]
    exact h vs hp

/-- What holds of all reservoirs after sequential updates, whatever their order, holds after concurrent ones. -/
theorem transfer_all {capacity k : Nat} {sched : Schedule} (hk : 1 ≤ k) (hc : capacity ≤ (updates sched).length) (hl : sched.length < 2 ^ 63) (A : List Int → Prop)
    (h : ∀ vs : List Int, vs.Perm (updates sched) → ∀ u ∈ reservoirs capacity k vs, A u.values) : ∀ ws ∈ finished capacity sched, A (reservoir capacity sched ws).values := by
  classical
  have key := transfer_share hk hc hl (fun T => decide (¬ A T)) 0 (le_refl _) (by
    intro vs hp
    have : (reservoirs capacity k vs).countP (fun u => decide (¬ A u.values)) = 0 := by
      rw [List.countP_eq_zero]
      intro u hu hh
      exact (of_decide_eq_true hh) (h vs hp u hu)
    unfold share
    rw [this]; simp)
  intro ws hw
  by_contra hn
  have hpos : 0 < (finished capacity sched).countP (fun ws => decide (¬ A (reservoir capacity sched ws).values)) := List.countP_pos_iff.2 ⟨ws, hw, by simpa using hn⟩
  have hL : 0 < (finished capacity sched).length := List.length_pos_of_mem hw
  have : (0 : ℚ) < share (finished capacity sched) fun ws => decide (¬ A (reservoir capacity sched ws).values) := by
    unfold share
    have h1 : (0 : ℚ) < (finished capacity sched).countP (fun ws => decide (¬ A (reservoir capacity sched ws).values)) := by exact_mod_cast hpos
    have h2 : (0 : ℚ) < (finished capacity sched).length := by exact_mod_cast hL
    exact div_pos h1 h2
  have : (0 : ℝ) < ((share (finished capacity sched) fun ws => decide (¬ A (reservoir capacity sched ws).values) : ℚ) : ℝ) := by exact_mod_cast this
  linarith

theorem quantile_perm {vs vs' : List Int} (h : vs.Perm vs') (q δ x : ℚ) : IsQuantile vs q δ x ↔ IsQuantile vs' q δ x := by
  unfold IsQuantile; rw [perm_share h, perm_share h]

theorem variance_perm {vs vs' : List Int} (h : vs.Perm vs') : Estimate.variance vs = Estimate.variance vs' := by
  unfold Estimate.variance average
  rw [mean_perm h, (h.map _).sum_eq, h.length_eq]

theorem updates_le (sched : Schedule) : (updates sched).length ≤ sched.length := by
  induction sched with
  | nil => simp [updates]
  | cons e es ih => rcases e with (v | q) | i <;> simp [updates] <;> omega

end UniformConc

/-- **C119.** Many goroutines: fix what they do and whose turn it is. Of the random words with which nobody is inside `UpdateN` at the end and the updates of
`vs` have been made in this order, the same part leaves a given content in the reservoir as after the same updates made one after the other by a single
goroutine. (Which words are rejected decides the order, not what is drawn.) -/
theorem C119_order (capacity k : Nat) (sched : Schedule) (vs : List Int) (hk : 1 ≤ k) (hc : capacity ≤ vs.length) (hl : sched.length < 2 ^ 63)
    (hne : inOrder capacity sched vs ≠ []) (content : List Int → Bool) :
    share (inOrder capacity sched vs) (fun ws => content (reservoir capacity sched ws).values) = share (reservoirs capacity k vs) fun u => content u.values := by
  have hv : vs.length < 2 ^ 63 := by
    obtain ⟨ws, hw⟩ := List.exists_mem_of_ne_nil _ hne
    unfold inOrder at hw
    rw [List.mem_filter, decide_eq_true_eq] at hw
    have h1 := (Guarded.written_log (G := guarded) (UniformReservoir.new capacity) (supplied sched ws)).length_eq
    have h2 : ((after capacity (supplied sched ws)).shared.log.map Prod.fst).length = vs.length := by rw [hw.2.2]
    have h3 : (recorded (after capacity (supplied sched ws))).length ≤ ((after capacity (supplied sched ws)).calls.filterMap warg).length := by
      rw [recorded_eq]
      generalize (after capacity (supplied sched ws)).calls = cs
      induction cs with
      | nil => simp
      | cons c cs ih => cases c <;> simp [List.filterMap_cons, thru, warg] <;> omega
    rw [warg_after] at h3
    have h4 := updates_le sched
    have h5 : ((after capacity (supplied sched ws)).shared.log.map Prod.fst).length = (recorded (after capacity (supplied sched ws))).length := h1
    omega
  have hcs := class_sum (capacity := capacity) hl hc hv (inOrder capacity sched vs) (fun q => decide (q.shared.writer = false)) (by
    unfold inOrder
    refine List.filter_congr fun ws _ => ?_
    have eg : (ghost (after capacity (supplied sched ws))).shared.writer = (after capacity (supplied sched ws)).shared.writer := rfl
    rw [eg]
    by_cases hw : (after capacity (supplied sched ws)).shared.writer = false
    · rw [free hl hw, hw]; simp
    · simp [hw]) (fun T => if content T then 1 else 0)
  rw [average_draws_reservoirs capacity k vs hk hc hv fun T => if content T then 1 else 0] at hcs
  rw [share_eq_average, share_eq_average]
  have hnf : (0 : ℚ) < vs.length.factorial := by exact_mod_cast Nat.factorial_pos _
  have hL : (0 : ℚ) < (inOrder capacity sched vs).length := by exact_mod_cast List.length_pos_iff.2 hne
  conv_lhs => unfold average
  rw [div_eq_iff hL.ne']
  apply mul_right_cancel₀ hnf.ne'
  rw [hcs]; ring

/-- **C119.** So whatever can be said of the sample after sequential updates — whatever their order — can be said after concurrent ones: if a condition
fails for at most the part `β` of the words there, it fails for at most the part `β` of the words here with which all the updates get through. -/
theorem C119_estimate (capacity k : Nat) (sched : Schedule) (hk : 1 ≤ k) (hc : capacity ≤ (updates sched).length) (hl : sched.length < 2 ^ 63)
    (fails : List Int → Bool) (β : ℝ) (hβ : 0 ≤ β)
    (h : ∀ vs : List Int, vs.Perm (updates sched) → ((share (reservoirs capacity k vs) fun u => fails u.values : ℚ) : ℝ) ≤ β) :
    ((share (finished capacity sched) fun ws => fails (reservoir capacity sched ws).values : ℚ) : ℝ) ≤ β := transfer_share hk hc hl fails β hβ h

/-- **C119.** The mean of the sample is an unbiased estimate of the mean of everything that was recorded, by whomever. -/
theorem C119_mean (capacity : Nat) (sched : Schedule) (h0 : 0 < capacity) (hc : capacity ≤ (updates sched).length) (hl : sched.length < 2 ^ 63)
    (hne : finished capacity sched ≠ []) :
    average (finished capacity sched) (fun ws => mean (reservoir capacity sched ws).getSnapshot.getValues) = mean (updates sched) := by
  have hul := updates_le sched
  have hm : ∀ vs : List Int, vs.Perm (updates sched) → average (reservoirs capacity 1 vs) (fun u => mean u.values) = mean (updates sched) := by
    intro vs hp
    have := C116_mean capacity 1 vs (le_refl _) h0 (by rw [hp.length_eq]; exact hc) (by rw [hp.length_eq]; omega)
    simp only [mean_snapshot] at this
    rw [this, mean_perm hp]
  simp only [mean_snapshot]
  have h1 := transfer (le_refl 1) hc hl mean ((mean (updates sched) : ℚ) : ℝ) hne (fun vs hp => by rw [hm vs hp])
  have h2 := transfer (le_refl 1) hc hl (fun T => - mean T) ((- mean (updates sched) : ℚ) : ℝ) hne (fun vs hp => by
    rw [← hm vs hp]
    refine le_of_eq ?_
    norm_cast
    unfold average
    rw [← neg_div]
    congr 1
    generalize reservoirs capacity 1 vs = L
    induction L with
    | nil => simp
    | cons a L ih => simp only [List.map_cons, List.sum_cons, ih]; ring)
  have e : average (finished capacity sched) (fun ws => - mean (reservoir capacity sched ws).values) =
      - average (finished capacity sched) fun ws => mean (reservoir capacity sched ws).values := by
    unfold average
    rw [← neg_div]
    congr 1
    generalize finished capacity sched = L
    induction L with
    | nil => simp
    | cons a L ih => simp only [List.map_cons, List.sum_cons, ih]; ring
  rw [e] at h2
  have h1' : average (finished capacity sched) (fun ws => mean (reservoir capacity sched ws).values) ≤ mean (updates sched) := by exact_mod_cast h1
  have h2' : - average (finished capacity sched) (fun ws => mean (reservoir capacity sched ws).values) ≤ - mean (updates sched) := by exact_mod_cast h2
  linarith

/-- **C119.** It is off by `t` or more for at most the part `variance / (capacity · t²)` of the words. -/
theorem C119_mean_error (capacity : Nat) (sched : Schedule) (h0 : 0 < capacity) (hc : capacity ≤ (updates sched).length) (hl : sched.length < 2 ^ 63)
    (t : ℚ) (ht : 0 < t) :
    share (finished capacity sched) (fun ws => decide (t ≤ |mean (reservoir capacity sched ws).getSnapshot.getValues - mean (updates sched)|)) ≤
      variance (updates sched) / (capacity * t ^ 2) := by
  have hul := updates_le sched
  have hv : 0 ≤ Estimate.variance (updates sched) / (capacity * t ^ 2) := by
    refine div_nonneg ?_ (by positivity)
    unfold Estimate.variance average
    refine div_nonneg (List.sum_nonneg ?_) (by positivity)
    intro x hx
    obtain ⟨v, _, rfl⟩ := List.mem_map.1 hx
    positivity
  simp only [mean_snapshot]
  have := transfer_share (le_refl 1) hc hl (fun T => decide (t ≤ |mean T - mean (updates sched)|)) ((Estimate.variance (updates sched) / (capacity * t ^ 2) : ℚ) : ℝ)
    (by exact_mod_cast hv) (fun vs hp => by
      have h := C116_mean_error capacity 1 vs (le_refl _) h0 (by rw [hp.length_eq]; exact hc) (by rw [hp.length_eq]; omega) t ht
      simp only [mean_snapshot] at h
      rw [mean_perm hp, variance_perm hp] at h
      exact_mod_cast h)
  exact_mod_cast this

/-- **C119.** The quantiles: after concurrent updates `GetValue(q)` is a `q`-quantile of everything that was recorded up to `ε + 2 / capacity`, except for at
most the part `2 exp(-2 · capacity · ε²)` of the words. -/
theorem C119_percentile (R : Rounding) (hR : R.Lawful) (hI : R.Ints) (capacity : Nat) (sched : Schedule) (h0 : 0 < capacity) (hcap : capacity + 1 < 2 ^ 52)
    (hc : capacity ≤ (updates sched).length) (hl : sched.length < 2 ^ 63) (hv : ∀ v ∈ updates sched, |v| < 2 ^ 52) (q : ℚ) (hq0 : 0 ≤ q) (hq1 : q ≤ 1)
    (ε : ℚ) (hε : 0 ≤ ε) :
    ∃ reported : List Nat → ℚ, (∀ ws ∈ finished capacity sched, (reservoir capacity sched ws).getSnapshot.getValue R (.fin q) = .ok (.fin (reported ws))) ∧
      ((share (finished capacity sched) fun ws => decide (¬ IsQuantile (updates sched) q (ε + 2 / capacity) (reported ws)) : ℚ) : ℝ) ≤
        2 * Real.exp (-2 * capacity * (ε : ℝ) ^ 2) := by
  have hul := updates_le sched
  obtain ⟨rep, hrep⟩ : ∃ rep : List Int → ℚ, ∀ T r, (UniformSnapshot.new T).getValue R (.fin q) = .ok (.fin r) → rep T = r := by
    classical
    refine ⟨fun T => if h : ∃ r, (UniformSnapshot.new T).getValue R (.fin q) = .ok (.fin r) then h.choose else 0, fun T r h => ?_⟩
    have hex : ∃ r, (UniformSnapshot.new T).getValue R (.fin q) = .ok (.fin r) := ⟨r, h⟩
    simp only [dif_pos hex]
    have := hex.choose_spec
    have h' := h.symm.trans this
    simp only [Ret.ok.injEq, F64.fin.injEq] at h'
    exact h'.symm
  have hseq : ∀ vs : List Int, vs.Perm (updates sched) → (∀ u ∈ reservoirs capacity 1 vs, (UniformSnapshot.new u.values).getValue R (.fin q) = .ok (.fin (rep u.values))) ∧
      ((share (reservoirs capacity 1 vs) fun u => decide (¬ IsQuantile (updates sched) q (ε + 2 / capacity) (rep u.values)) : ℚ) : ℝ) ≤
        2 * Real.exp (-2 * capacity * (ε : ℝ) ^ 2) := by
    intro vs hp
    obtain ⟨r, r1, r2⟩ := C116_percentile R hR hI capacity 1 vs h0 hcap (by rw [hp.length_eq]; exact hc) (by rw [hp.length_eq]; omega)
      (fun v h => hv v (hp.mem_iff.1 h)) q hq0 hq1 ε hε
    have hr : ∀ u ∈ reservoirs capacity 1 vs, rep u.values = r u := fun u hu => hrep _ _ (r1 u hu)
    refine ⟨fun u hu => by rw [hr u hu]; exact r1 u hu, le_trans ?_ r2⟩
    have : share (reservoirs capacity 1 vs) (fun u => decide (¬ IsQuantile (updates sched) q (ε + 2 / capacity) (rep u.values))) ≤
        share (reservoirs capacity 1 vs) (fun u => decide (¬ IsQuantile vs q (ε + 2 / capacity) (r u))) := by
      refine share_mono _ fun u hu h => ?_
      rw [hr u hu, decide_eq_true_eq] at h
      rw [decide_eq_true_eq, quantile_perm hp]
      exact h
    exact_mod_cast this
  refine ⟨fun ws => rep (reservoir capacity sched ws).values, ?_, ?_⟩
  · exact transfer_all (le_refl 1) hc hl (fun T => (UniformSnapshot.new T).getValue R (.fin q) = .ok (.fin (rep T))) fun vs hp => (hseq vs hp).1
  · exact transfer_share (le_refl 1) hc hl (fun T => decide (¬ IsQuantile (updates sched) q (ε + 2 / capacity) (rep T))) _ (by positivity) fun vs hp => (hseq vs hp).2

/-- **C119.** If the values are different, each of them is in the sample for exactly the part `capacity / n` of the words: nobody's updates are favoured,
neither the first ones nor those of a goroutine that got more turns. -/
theorem C119_fair (capacity : Nat) (sched : Schedule) (hnd : (updates sched).Nodup) (hc : capacity ≤ (updates sched).length) (hl : sched.length < 2 ^ 63)
    (hne : finished capacity sched ≠ []) (x : Int) (hx : x ∈ updates sched) :
    share (finished capacity sched) (fun ws => decide (x ∈ (reservoir capacity sched ws).getSnapshot.getValues)) = capacity / (updates sched).length := by
  have hul := updates_le sched
  have hsn : ∀ u : UniformReservoir, decide (x ∈ u.getSnapshot.getValues) = decide (x ∈ u.values) := by
    intro u
    have : x ∈ u.getSnapshot.getValues ↔ x ∈ u.values := (perm_new u.values).mem_iff
    simp only [this]
  simp only [hsn]
  have hn0 : 0 < (updates sched).length := List.length_pos_of_mem hx
  have hnq : (0 : ℚ) < (updates sched).length := by exact_mod_cast hn0
  have hm : ∀ vs : List Int, vs.Perm (updates sched) → average (reservoirs capacity 1 vs) (fun u => if decide (x ∈ u.values) then (1 : ℚ) else 0) = capacity / (updates sched).length := by
    intro vs hp
    have hlen := hp.length_eq
    rw [average_reservoirs capacity 1 vs (le_refl _) (by rw [hlen]; exact hc) (by rw [hlen]; omega) (fun T => if decide (x ∈ T) then (1 : ℚ) else 0),
      ← share_eq_average (draws vs.length) fun s => decide (x ∈ sampleOf capacity vs s)]
    have h := C52_fair capacity vs (hp.nodup_iff.2 hnd) (by rw [hlen]; exact hc) (by rw [hlen]; omega) x (hp.mem_iff.2 hx)
    have hd : (0 : ℚ) < (draws vs.length).length := by rw [length_draws]; exact_mod_cast Nat.factorial_pos _
    unfold share
    rw [div_eq_div_iff hd.ne' hnq.ne', ← hlen]
    exact_mod_cast h
  rw [share_eq_average]
  have h1 := transfer (le_refl 1) hc hl (fun T => if decide (x ∈ T) then (1 : ℚ) else 0) ((capacity / (updates sched).length : ℚ) : ℝ) hne (fun vs hp => by rw [hm vs hp])
  have neg_average : ∀ {α : Type} (L : List α) (f : α → ℚ), average L (fun a => - f a) = - average L f := by
    intro α L f
    unfold average
    rw [← neg_div]
    congr 1
    induction L with
    | nil => simp
    | cons a L ih => simp only [List.map_cons, List.sum_cons, ih]; ring
  have h2 := transfer (le_refl 1) hc hl (fun T => - if decide (x ∈ T) then (1 : ℚ) else 0) ((-(capacity / (updates sched).length) : ℚ) : ℝ) hne (fun vs hp => by
    rw [neg_average, hm vs hp])
  rw [neg_average] at h2
  have h1' := (Rat.cast_le (K := ℝ)).1 h1
  have h2' := (Rat.cast_le (K := ℝ)).1 h2
  linarith

/-- **C119.** In numbers: with the default capacity of 1024 (impl/uniform_reservoir.go:33) each quantile reported after concurrent updates is a quantile of
everything recorded up to 5.2 percentage points, except for at most one in eighty of the words. -/
theorem C119_default (R : Rounding) (hR : R.Lawful) (hI : R.Ints) (sched : Schedule) (hc : 1024 ≤ (updates sched).length) (hl : sched.length < 2 ^ 63)
    (hv : ∀ v ∈ updates sched, |v| < 2 ^ 52) (q : ℚ) (hq0 : 0 ≤ q) (hq1 : q ≤ 1) :
    ∃ reported : List Nat → ℚ, (∀ ws ∈ finished 1024 sched, (reservoir 1024 sched ws).getSnapshot.getValue R (.fin q) = .ok (.fin (reported ws))) ∧
      share (finished 1024 sched) (fun ws => decide (¬ IsQuantile (updates sched) q (52 / 1000) (reported ws))) ≤ 1 / 80 := by
  have hul := updates_le sched
  obtain ⟨rep, hr, -⟩ := C119_percentile R hR hI 1024 sched (by norm_num) (by norm_num) hc hl hv q hq0 hq1 0 (le_refl _)
  obtain ⟨rep', hrep'⟩ : ∃ rep' : List Int → ℚ, ∀ T r, (UniformSnapshot.new T).getValue R (.fin q) = .ok (.fin r) → rep' T = r := by
    classical
    refine ⟨fun T => if h : ∃ r, (UniformSnapshot.new T).getValue R (.fin q) = .ok (.fin r) then h.choose else 0, fun T r h => ?_⟩
    have hex : ∃ r, (UniformSnapshot.new T).getValue R (.fin q) = .ok (.fin r) := ⟨r, h⟩
    simp only [dif_pos hex]
    have := hex.choose_spec
    have h' := h.symm.trans this
    simp only [Ret.ok.injEq, F64.fin.injEq] at h'
    exact h'.symm
  refine ⟨rep, hr, ?_⟩
  have h1 := C119_estimate 1024 1 sched (le_refl _) hc hl (fun T => decide (¬ IsQuantile (updates sched) q (52 / 1000) (rep' T))) ((1 / 80 : ℚ) : ℝ) (by norm_num)
    (fun vs hp => by
      obtain ⟨r, r1, r2⟩ := C116_default R hR hI 1 vs (by rw [hp.length_eq]; exact hc) (by rw [hp.length_eq]; omega) (fun v h => hv v (hp.mem_iff.1 h)) q hq0 hq1
      have hm : share (reservoirs 1024 1 vs) (fun u => decide (¬ IsQuantile (updates sched) q (52 / 1000) (rep' u.values))) ≤
          share (reservoirs 1024 1 vs) (fun u => decide (¬ IsQuantile vs q (52 / 1000) (r u))) := by
        refine share_mono _ fun u hu h => ?_
        rw [hrep' _ _ (r1 u hu), decide_eq_true_eq] at h
        rw [decide_eq_true_eq, quantile_perm hp]
        exact h
      exact_mod_cast le_trans hm r2)
  have h2 : share (finished 1024 sched) (fun ws => decide (¬ IsQuantile (updates sched) q (52 / 1000) (rep ws))) ≤
      share (finished 1024 sched) (fun ws => decide (¬ IsQuantile (updates sched) q (52 / 1000) (rep' (reservoir 1024 sched ws).values))) := by
    refine share_mono _ fun ws hw h => ?_
    rw [hrep' _ _ (hr ws hw)]
    exact h
  have h3 := (Rat.cast_le (K := ℝ)).1 h1
  exact le_trans h2 h3

namespace UniformConc

/-- Three goroutines record 5, 7 and 9; the second and the third wait for the lock, the third gets it first; a snapshot is taken meanwhile. -/
def trio : Schedule :=
  [.spawn (.inl 5), .spawn (.inl 7), .spawn (.inl 9), .step 0 (), .step 1 (), .step 0 (), .step 2 (), .step 0 (), .step 0 (), .step 0 (), .spawn (.inr .snapshot),
   .step 2 (), .step 2 (), .step 2 (), .step 3 (), .step 2 (), .step 1 (), .step 2 (), .step 2 (), .step 3 (), .step 3 (), .step 3 (), .step 3 (),
   .step 1 (), .step 1 (), .step 1 (), .step 1 (), .step 1 (), .step 1 ()]

/-- Zeros, except for the word drawn by the third update and the word after it. -/
def trioWords (w : Nat) : List Nat := List.replicate 22 0 ++ [w, w, 0]

end UniformConc

/-- The words that make the hypotheses true exist, and what is drawn matters: with the word 0 all updates get through, in the order 5, 9, 7, and 7 is left in the
one slot; with the word 1 it is the 9; and the word 2^63 - 1 is rejected (of the 2^63 words two too many fall on three positions), so that not all get through. -/
example : trioWords 0 ∈ finished 1 trio ∧ trioWords 0 ∈ inOrder 1 trio [5, 9, 7] ∧ (reservoir 1 trio (trioWords 0)).values = [7] ∧
    trioWords 1 ∈ finished 1 trio ∧ (reservoir 1 trio (trioWords 1)).values = [9] ∧ trioWords 9223372036854775807 ∉ finished 1 trio ∧
    updates trio = [5, 7, 9] := by
  have e63 : (2 : Nat) ^ 63 = 9223372036854775808 := by norm_num
  have hm : ∀ w, w < 2 ^ 63 → trioWords w ∈ wordLists (2 ^ 63) (turns trio) := by
    intro w hw
    rw [mem_wordLists]
    refine ⟨by simp [trioWords, turns, trio], ?_⟩
    intro r hr
    simp only [trioWords, List.mem_append, List.mem_replicate, List.mem_cons, List.not_mem_nil, or_false] at hr
    omega
  have m0 := hm 0 (by norm_num)
  have m1 := hm 1 (by norm_num)
  refine ⟨List.mem_filter.2 ⟨m0, ?_⟩, List.mem_filter.2 ⟨m0, ?_⟩, ?_, List.mem_filter.2 ⟨m1, ?_⟩, ?_, fun h => ?_, ?_⟩
  · decide +kernel
  · decide +kernel
  · decide +kernel
  · decide +kernel
  · decide +kernel
  · have h2 := (List.mem_filter.1 h).2
    revert h2
    decide +kernel
  · decide +kernel

end GoMetrics
