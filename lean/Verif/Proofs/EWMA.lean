import Verif.Spec.EWMA
import Verif.Proofs.Float
import Mathlib.Algebra.BigOperators.Ring.Finset
import Mathlib.Algebra.BigOperators.Intervals
namespace GoMetrics
namespace EWMA
open Rounding

theorem run_snoc (R e h op) : run R e (h ++ [op]) = step R (run R e h) op := by simp [run]

theorem step_const (R e op) : (step R e op).alpha = e.alpha ∧ (step R e op).interval = e.interval := by
  cases op <;> simp [step, update, tick, tickN]

theorem run_const (R e h) : (run R e h).alpha = e.alpha ∧ (run R e h).interval = e.interval := by
  induction h using List.reverseRecOn with
  | nil => simp [run]
  | append_singleton h op ih =>
    rw [run_snoc]
    have := step_const R (run R e h) op
    exact ⟨this.1.trans ih.1, this.2.trans ih.2⟩

/-- Forget the pending updates: only the ticked counts matter for the rate. -/
def core (e : EWMA) : Bool × F64 := (e.initialized, e.rate)

/-- The effect of a tick on `core`. -/
def coreTick (R : Rounding) (alpha : F64) (interval : Int) (p : Bool × F64) (c : Int) : Bool × F64 :=
  (true, newRate R p.1 alpha p.2 (F64.div R (F64.ofInt R c) (F64.ofInt R interval)))

theorem core_run (R : Rounding) (h : List Op) : ∀ (e : EWMA) (acc : Int), i64 acc = e.uncounted →
    core (run R e h) = (Spec.tickCounts acc h).foldl (coreTick R e.alpha e.interval) (core e) := by
  induction h with
  | nil => intro e acc _; rfl
  | cons op h ih =>
    intro e acc hu
    cases op with
    | update n =>
      have := ih (e.update n) (acc + n) (by simp [update, ← hu, i64_add_left])
      simpa [run, step, Spec.tickCounts, update, core] using this
    | tick =>
      have := ih (e.tick R) 0 (by simp [tick, tickN])
      simpa [run, step, Spec.tickCounts, tick, tickN, core, coreTick, instantRate, hu] using this
    | tickN c =>
      have := ih (e.tickN R c) acc (by simpa [tickN] using hu)
      simpa [run, step, Spec.tickCounts, tickN, core, coreTick, instantRate] using this

theorem exact_ofInt (n : Int) : F64.ofInt exact n = .fin n := rfl

theorem exact_instant (c : Int) {I : Int} (hI : I ≠ 0) :
    F64.div exact (F64.ofInt exact c) (F64.ofInt exact I) = .fin ((c : ℚ) / I) := by
  have : (I : ℚ) ≠ 0 := by exact_mod_cast hI
  simp [F64.div, F64.ofInt, exact, this]

theorem exact_newRate (a r i : ℚ) :
    newRate exact true (.fin a) (.fin r) (.fin i) = .fin (r + a * (i - r)) := by
  simp [newRate, F64.add, F64.mul, F64.sub, F64.neg, exact, sub_eq_add_neg]

theorem exact_getRate {e : EWMA} {r : ℚ} {unit : Int} (h : e.rate = .fin r) :
    e.getRate exact unit = .fin (r * unit) := by
  unfold getRate
  rw [h]; rfl

theorem tick_rate {R : Rounding} (e : EWMA) (h : e.uncounted = 0) :
    (e.tick R).rate = newRate R e.initialized e.alpha e.rate (e.instantRate R 0) := by
  simp [tick, tickN, h, instantRate]

theorem average_snoc (a : ℚ) (I : Int) (c0 : Int) (cs : List Int) (c : Int) :
    Spec.average a I c0 (cs ++ [c]) = (1 - a) * Spec.average a I c0 cs + a * ((c : ℚ) / I) := by
  unfold Spec.average
  rw [List.length_append, List.length_singleton, Finset.sum_range_succ, mul_add, Finset.mul_sum]
  have h1 : ∀ k ∈ Finset.range cs.length,
      a * (1 - a) ^ (cs.length + 1 - 1 - k) * (((cs ++ [c]).getD k 0 : Int) / I : ℚ) =
        (1 - a) * (a * (1 - a) ^ (cs.length - 1 - k) * ((cs.getD k 0 : Int) / I)) := by
    intro k hk
    have hk' : k < cs.length := Finset.mem_range.1 hk
    have e1 : cs.length + 1 - 1 - k = (cs.length - 1 - k) + 1 := by omega
    have e2 : (cs ++ [c]).getD k 0 = cs.getD k 0 := by
      simp [List.getD, List.getElem?_append_left hk']
    rw [e1, e2, pow_succ]
    ring
  rw [Finset.sum_congr rfl h1]
  have e3 : (cs ++ [c]).getD cs.length 0 = c := by simp [List.getD]
  have e4 : cs.length + 1 - 1 - cs.length = 0 := by omega
  rw [e3, e4, pow_succ, pow_zero]
  ring

theorem foldl_exact (a : ℚ) {I : Int} (hI : I ≠ 0) (r0 : F64) (c0 : Int) (cs : List Int) :
    (c0 :: cs).foldl (coreTick exact (.fin a) I) (false, r0) = (true, .fin (Spec.average a I c0 cs)) := by
  induction cs using List.reverseRecOn with
  | nil =>
    simp only [List.foldl_cons, List.foldl_nil, coreTick]
    rw [exact_instant _ hI]
    simp [newRate, Spec.average]
  | append_singleton cs c ih =>
    rw [← List.cons_append, List.foldl_append, ih]
    simp only [List.foldl_cons, List.foldl_nil, coreTick]
    rw [exact_instant _ hI, exact_newRate, average_snoc]
    congr 2
    ring

theorem average_range {a : ℚ} (ha : 0 ≤ a) (ha' : a ≤ 1) {lo hi : ℚ} {I c0 : Int} {cs : List Int}
    (h : ∀ c ∈ c0 :: cs, lo ≤ (c : ℚ) / I ∧ (c : ℚ) / I ≤ hi) :
    lo ≤ Spec.average a I c0 cs ∧ Spec.average a I c0 cs ≤ hi := by
  induction cs using List.reverseRecOn with
  | nil =>
    have := h c0 (by simp)
    simpa [Spec.average] using this
  | append_singleton cs c ih =>
    have h1 := ih (fun x hx => h x (by simp at hx ⊢; tauto))
    have h2 := h c (by simp)
    rw [average_snoc]
    constructor <;> nlinarith [h1.1, h1.2, h2.1, h2.2]

end EWMA
end GoMetrics
