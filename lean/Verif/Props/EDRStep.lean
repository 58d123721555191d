import Verif.Proofs.EDRStep
import Verif.Props.EDR
/-! # C64: one update of the decaying reservoir, with equal priorities and rounding -/
namespace GoMetrics
namespace EDR

theorem run_snoc (A : Arith) (r : EDR) (h : List Op) (o : Op) : run A r (h ++ [o]) = (step A (run A r h) o).state := by
  unfold run; rw [List.foldl_append]; rfl

theorem run_frame (A : Arith) (h : List Op) (r : EDR) : (run A r h).alpha = r.alpha ∧ (run A r h).size = r.size := by
  induction h generalizing r with
  | nil => exact ⟨rfl, rfl⟩
  | cons o h ih => exact ⟨(ih _).1.trans (step_frame r o).1, (ih _).2.trans (step_frame r o).2⟩

/-- **C64.** One update, in every lawful arithmetic (rounding included), priorities that are equal to a held one included: after any history with
positive draws in which the landmark never moves back so far that the factor overflows, an update that is not due to rescale brings the
sample (priority `weight / draw`, value, weight `exp (alpha * age of the landmark in seconds)`) and `Admitted` says what the reservoir then holds;
no two samples ever have the same priority. -/
theorem C64_one_update (A : Arith) (hA : A.Lawful) (size : Int) (hsz : 1 ≤ size) (a : ℚ) (time tick : Int) (h : List Op)
    (hf : (time :: scaleTimes h).Pairwise fun s t => scalingFactor A (.fin a) (s.tdiv 1000) (t.tdiv 1000) ≠ .inf false)
    (hu : ∀ u ∈ draws h, ∃ q : ℚ, u = .fin q ∧ 0 < q) (hn : (h.length : Int) + 1 < 9223372036854775808) (env : Env) (v : Int)
    (hdraw : ∃ q : ℚ, env.u = .fin q ∧ 0 < q) :
    let r := run A (new size (.fin a) time tick) h
    let w := A.exp (F64.mul A.R (.fin a) (F64.ofInt A.R (i64 (env.time.tdiv 1000 - r.startTime))))
    env.tick < r.nextScaleTime →
    (r.getValues.map (·.key)).Nodup ∧ (updateN A r env v).panicked = false ∧
    Admitted ⟨F64.div A.R w env.u, v, w⟩ (r.getSize = size) r.getValues (updateN A r env v).state.getValues := by
  intro r w hdue
  obtain ⟨q, hq, hq0⟩ := hdraw
  have hB := invB_run hA a h _ 0 time (invB_new size (by omega) (.fin a) time tick) le_rfl rfl hsz rfl hf hu (by omega)
  have hAi := (invA_run hA h _ (invA_new size (.fin a) time tick) hsz fun u hu' => by
    obtain ⟨q, rfl, hq⟩ := hu u hu'
    exact F64.nonNeg_fin hq.le).1
  obtain ⟨fa, fs⟩ := run_frame A h (new size (.fin a) time tick)
  have fa' : r.alpha = .fin a := fa
  have fs' : r.size = size := fs
  have hB' : InvB r (h.length : Int) := by simpa using hB
  have hAi' : InvA r := hAi
  have hres : rescaleIfNeeded A r env.tick env.scaleTime = r := by unfold rescaleIfNeeded; rw [if_neg (by omega)]
  have hup : updateN A r env v = record r (priority A w env.u) v w := by
    unfold updateN
    simp only [hres, fa']
    rfl
  have hpn : priority A w env.u ≠ .nan := by rw [hq]; exact prio_ne_nan hA a _ hq0
  have hpp : (priority A w env.u).NonNeg := by rw [hq]; exact F64.nonNeg_div hA.rnd (hA.nonneg _) (F64.nonNeg_fin hq0.le)
  have hrec := record_admitted (w := w) hAi' hB' (by omega) (by omega) hpn v
  have hB2 := invB_record (w := w) hB' (by omega) (by omega) hpp hpn v
  rw [hup, getValues_eq hB'.keys, getValues_eq hB2.keys]
  refine ⟨?_, hrec.1, ?_⟩
  · have := ((SkipList.sorted_iff_keys _).1 hB'.sorted).1
    exact this.imp fun {x y} hlt heq => by rw [heq] at hlt; exact F64.lt_irrefl _ hlt
  · have hfull : (r.getSize = size) = (r.size ≤ r.count) := by
      rw [getSize_eq, fs']
      exact propext ⟨fun h => by omega, fun h => by omega⟩
    rw [hfull]
    exact hrec.2

/-! ## C67: no capacity -/

/-- Nothing is held and `n` bounds the count. -/
def Hollow (n : Int) (r : EDR) : Prop := r.values = [] ∧ 0 ≤ r.count ∧ r.count ≤ n

theorem hollow_rescale (A : Arith) {n : Int} {r : EDR} (h : Hollow n r) (hn : 0 ≤ n) (tick t : Int) : Hollow n (rescaleIfNeeded A r tick t) := by
  unfold rescaleIfNeeded
  split
  · unfold rescaleLocked
    simp only
    split
    · exact ⟨rfl, le_rfl, hn⟩
    · have : (rescaleLoop A (scalingFactor A r.alpha r.startTime (currentTimeInSecond t))
          (getValues { r with nextScaleTime := i64 (tick + rescaleThreshold), startTime := currentTimeInSecond t }) r.values) = [] := by
        simp [getValues, h.1, SkipList.iter, rescaleLoop]
      refine ⟨this, ?_⟩
      simp only [this]
      exact ⟨by decide, hn⟩
  · exact h

theorem hollow_record {n : Int} {r : EDR} (h : Hollow n r) (hsz : r.size ≤ 0) (hn : n + 1 < 9223372036854775808) (prio w : F64) (v : Int) :
    (record r prio v w).panicked = true ∧ Hollow (n + 1) (record r prio v w).state := by
  obtain ⟨h1, h2, h3⟩ := h
  have hi : i64 (r.count + 1) = r.count + 1 := by apply i64_of_in; unfold InI64; omega
  unfold record
  simp only [hi]
  rw [if_neg (by omega)]
  have hg : getValues { r with count := r.count + 1 } = [] := by simp [getValues, h1, SkipList.iter]
  rw [hg]
  exact ⟨rfl, h1, by show 0 ≤ r.count + 1; omega, by show r.count + 1 ≤ n + 1; omega⟩

/-- **C67.** With capacity 0 (or less) every update panics, whatever was called before and whether or not a rescale is due; `Size()` never exceeds
the capacity and nothing is ever held. -/
theorem C67_capacity_zero_always (A : Arith) (size : Int) (hsz : size ≤ 0) (alpha : F64) (time tick : Int) (h : List Op)
    (hn : (h.length : Int) + 1 < 9223372036854775808) (env : Env) (v : Int) :
    let r := run A (new size alpha time tick) h
    (updateN A r env v).panicked = true ∧ r.getValues = [] ∧ r.getSize ≤ size := by
  intro r
  have key : ∀ (h : List Op) (n : Int) (r : EDR), 0 ≤ n → n + h.length < 9223372036854775808 → r.size ≤ 0 → Hollow n r →
      Hollow (n + h.length) (run A r h) ∧ (run A r h).size ≤ 0 := by
    intro h
    induction h with
    | nil => intro n r _ _ hs hr; exact ⟨by simpa [run] using hr, hs⟩
    | cons o h ih =>
      intro n r h0 hn hs hr
      simp only [List.length_cons] at hn ⊢
      push_cast at hn ⊢
      have hst : Hollow (n + 1) (step A r o).state := by
        cases o with
        | getSnapshot tk t =>
          have := hollow_rescale A hr h0 tk t
          exact ⟨this.1, this.2.1, by have := this.2.2; show (rescaleIfNeeded A r tk t).count ≤ n + 1; omega⟩
        | updateN env v =>
          exact (hollow_record (hollow_rescale A hr h0 env.tick env.scaleTime)
            (by rw [(rescale_frame (A := A) r env.tick env.scaleTime).2.1]; exact hs) (by omega) _ _ v).2
      have := ih (n + 1) (step A r o).state (by omega) (by omega) (by rw [(step_frame (A := A) r o).2]; exact hs) hst
      rw [show n + ((h.length : Int) + 1) = n + 1 + h.length by ring]
      exact this
  obtain ⟨hh, hs⟩ := key h 0 (new size alpha time tick) le_rfl (by omega) hsz ⟨rfl, le_rfl, le_rfl⟩
  have hh' : Hollow (0 + h.length) r := hh
  refine ⟨(hollow_record (hollow_rescale A hh' (by omega) env.tick env.scaleTime)
      (by rw [(rescale_frame (A := A) r env.tick env.scaleTime).2.1]; exact hs) (by omega) _ _ v).1, ?_, ?_⟩
  · simp [getValues, hh'.1, SkipList.iter]
  · have h2 := hh'.2.1
    have hsize : r.size = size := (run_frame A h _).2
    unfold getSize
    split <;> omega

/-- Three updates and a rescale with capacity 0: the fourth update panics like the others. -/
example : (updateN demoExact (run demoExact (new 0 (.fin 1) 0 0) history) ⟨0, 0, 5000, .fin (1 / 2)⟩ 3).panicked = true := by decide +kernel

/-! ## Concrete cases of C64 -/

/-- Capacity 2; priorities 2 and 4 are held. -/
def tieHistory : List Op := [.updateN ⟨0, 0, 0, .fin (1 / 2)⟩ 7, .updateN ⟨0, 0, 0, .fin (1 / 4)⟩ 8]

/-- All cases of `Admitted` occur: equal to the lowest of a full reservoir (nothing changes), equal to another (it is replaced), equal in a
reservoir that is not full (replaced), lower than all (nothing), higher (the lowest leaves). -/
example :
    let r := run demoExact (new 2 (.fin 1) 0 0) tieHistory
    let upd := fun (r : EDR) (t : Int) (u : ℚ) => ((updateN demoExact r ⟨0, 0, t, .fin u⟩ 9).state.getValues.map fun s => (s.key, s.value, s.weight))
    upd r 0 (1 / 2) = [(.fin 2, 7, .fin 1), (.fin 4, 8, .fin 1)] ∧
    upd r 1000 (1 / 2) = [(.fin 2, 7, .fin 1), (.fin 4, 9, .fin 2)] ∧
    upd (run demoExact (new 3 (.fin 1) 0 0) tieHistory) 1000 1 = [(.fin 2, 9, .fin 2), (.fin 4, 8, .fin 1)] ∧
    upd r 0 1 = [(.fin 2, 7, .fin 1), (.fin 4, 8, .fin 1)] ∧
    upd r 0 (1 / 3) = [(.fin 3, 9, .fin 1), (.fin 4, 8, .fin 1)] := by
  decide +kernel

example : (∀ u ∈ draws tieHistory, ∃ q : ℚ, u = .fin q ∧ 0 < q) ∧
    (0 : Int) < (run demoExact (new 2 (.fin 1) 0 0) tieHistory).nextScaleTime := by
  refine ⟨?_, by decide +kernel⟩
  simp only [draws, tieHistory, List.mem_cons, List.not_mem_nil, or_false, forall_eq_or_imp, forall_eq]
  exact ⟨⟨1 / 2, rfl, by norm_num⟩, 1 / 4, rfl, by norm_num⟩

/-- The hypotheses of `C64_one_update` for this history, in binary64. -/
example : demo.Lawful ∧ (∀ t ∈ (0 : Int) :: scaleTimes tieHistory, t = 0) ∧ scalingFactor demo (.fin 1) 0 0 ≠ .inf false := by
  refine ⟨demo_lawful, by simp [scaleTimes, tieHistory], by decide +kernel⟩

end EDR
end GoMetrics
