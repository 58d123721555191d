import Verif.Proofs.EDRAccuracy
/-! # The weights of a decaying reservoir in binary64 over a history: proofs -/
namespace GoMetrics
open Rounding
namespace EDR
variable {A : Arith}

theorem sec_span {s t d : Int} (h : t ≤ s + d) : 1000 * (currentTimeInSecond t - currentTimeInSecond s) ≤ d + 1000 + 999 := by
  have b : ∀ x : Int, 1000 * currentTimeInSecond x ≤ x + 999 ∧ x ≤ 1000 * currentTimeInSecond x + 999 := by
    intro x
    unfold currentTimeInSecond secondToMsRate
    rcases le_total 0 x with h0 | h0
    · rw [Int.tdiv_eq_ediv_of_nonneg h0]; omega
    · obtain ⟨y, rfl⟩ : ∃ y, x = -y := ⟨-x, by omega⟩
      rw [Int.neg_tdiv, Int.tdiv_eq_ediv_of_nonneg (by omega)]; omega
  have h1 := b s
  have h2 := b t
  omega

/-- The fixed data of a run: creation, longest pause in milliseconds and duration in hours. -/
structure Setup (A : Arith) (a : ℚ) (size tick time G : Int) (K : ℕ) : Prop where
  R : A.R = binary64
  law : A.Lawful
  exp : GoodExp A.exp
  rate : 0 ≤ a
  size : 1 ≤ size
  pause : a * (3605 + (G : ℚ) / 1000) ≤ 600
  G0 : 0 ≤ G
  hours : K ≤ 2 ^ 30

/-- One reading of both clocks. -/
structure Stamp (tick time : Int) (K : ℕ) (τ t : Int) : Prop where
  agree : |(τ - tick) - (t - time) * 1000000| ≤ 1000000000
  inT : InI64 t
  inτ : InI64 (τ + 3600000000000)
  hours : τ ≤ tick + K * 3600000000000

/-- The state of a run, `last` being the last reading of the time. -/
structure RunInv (A : Arith) (a : ℚ) (size tick time : Int) (K : ℕ) (r : EDR) (n : Int) (k : ℕ) (all : List Rec) (last : Int) : Prop where
  B : InvB r n
  n0 : 0 ≤ n
  held : KeysHeld A r.values
  alpha : r.alpha = .fin a
  size : r.size = size
  matched : Matched a r.startTime k r.values all
  mark : ∃ t0 τ0, r.startTime = currentTimeInSecond t0 ∧ Stamp tick time K τ0 t0 ∧ t0 ≤ last ∧ last ≤ t0 + 3602000 ∧
    r.nextScaleTime = τ0 + 3600000000000 ∧ (k : Int) * 3600000000000 ≤ τ0 - tick

theorem RunInv.kle {a : ℚ} {size tick time : Int} {K : ℕ} {r : EDR} {n : Int} {k : ℕ} {all : List Rec} {last : Int}
    (h : RunInv A a size tick time K r n k all last) : k ≤ K := by
  obtain ⟨t0, τ0, -, hs, -, -, -, h2⟩ := h.mark
  have := hs.hours
  omega

theorem rate_bound {a : ℚ} (ha : 0 ≤ a) {G d : Int} (hG : a * (3605 + (G : ℚ) / 1000) ≤ 600) (hd : 1000 * d ≤ 3605000 + G) : a * d ≤ 600 := by
  refine le_trans (mul_le_mul_of_nonneg_left ?_ ha) hG
  have : (1000 * d : ℚ) ≤ 3605000 + G := by exact_mod_cast hd
  linarith

theorem runInv_rescale {a : ℚ} {size tick time G : Int} {K : ℕ} (S : Setup A a size tick time G K) {r : EDR} {n : Int} {k : ℕ} {all : List Rec} {last τ t : Int}
    (h : RunInv A a size tick time K r n k all last) (hn : n < 9223372036854775808) (hs : Stamp tick time K τ t) (hl : last ≤ t) (hg : t ≤ last + G) :
    ∃ k', RunInv A a size tick time K (rescaleIfNeeded A r τ t) n k' all t ∧ τ < (rescaleIfNeeded A r τ t).nextScaleTime := by
  obtain ⟨t0, τ0, h1, h2, h3, h4, h5, h6⟩ := h.mark
  have ag := hs.agree
  have ag0 := h2.agree
  rw [abs_le] at ag ag0
  by_cases hdue : r.nextScaleTime ≤ τ
  · have hr : rescaleIfNeeded A r τ t = rescaleLocked A { r with nextScaleTime := i64 (τ + rescaleThreshold) } t := by
      unfold rescaleIfNeeded; rw [if_pos hdue]
    have hnx : i64 (τ + rescaleThreshold) = τ + 3600000000000 := i64_of_in hs.inτ
    have hf := rescaleLocked_frame (A := A) { r with nextScaleTime := i64 (τ + rescaleThreshold) } t
    rw [← hr] at hf
    have hsp := sec_span (s := t0) (t := t) (d := 3602000 + G) (by omega)
    have hLd : r.startTime ≤ currentTimeInSecond t := by rw [h1]; exact sec_mono (h3.trans hl)
    have hi : InI64 (currentTimeInSecond t - r.startTime) := by rw [h1]; exact sec_diff h2.inT hs.inT
    have hB' := invB_rescale S.law h.B h.alpha (by rw [h.size]; linarith [S.size]) hn h.n0 τ t
      (by rw [h.alpha, h1]; exact factor_forward S.law S.rate h2.inT hs.inT (h3.trans hl))
    have hkK := S.hours
    have hh := hs.hours
    refine ⟨k + 1, ⟨hB', h.n0, held_rescale S.law.rnd h.held τ t, hf.1.trans h.alpha, hf.2.1.trans h.size, ?_, ?_⟩, ?_⟩
    · rw [hf.2.2.1, hr]
      refine matched_rescale S.R S.law S.exp S.rate (r := { r with nextScaleTime := i64 (τ + rescaleThreshold) }) (n := n)
        ⟨h.B.sorted, h.B.keys, h.B.le_size, h.B.le_count, h.B.count_le⟩ h.held h.alpha (by omega) h.matched hLd hi ?_
      have := rate_bound S.rate S.pause (d := currentTimeInSecond t - r.startTime) (by rw [h1]; omega)
      push_cast at this
      exact this
    · refine ⟨t, τ, hf.2.2.1, hs, le_rfl, by omega, hf.2.2.2.trans hnx, ?_⟩
      push_cast
      omega
    · rw [hf.2.2.2]
      show τ < i64 (τ + rescaleThreshold)
      omega
  · have hr : rescaleIfNeeded A r τ t = r := by
      unfold rescaleIfNeeded; rw [if_neg hdue]
    rw [hr]
    exact ⟨k, ⟨h.B, h.n0, h.held, h.alpha, h.size, h.matched, t0, τ0, h1, h2, by omega, by omega, h5, h6⟩, by omega⟩

theorem runInv_record {a : ℚ} {size tick time G : Int} {K : ℕ} (S : Setup A a size tick time G K) {r : EDR} {n : Int} {k : ℕ} {all : List Rec} {last τ t u' : Int}
    (h : RunInv A a size tick time K r n k all last) (hn : n + 1 < 9223372036854775808) (hs : Stamp tick time K τ t) (hl : last ≤ t) (hτ : τ < r.nextScaleTime)
    {u : F64} (hu : IsDraw u) (v : Int) (hu' : u' = currentTimeInSecond t) :
    RunInv A a size tick time K (record r (priority A (weight A r.alpha (i64 (u' - r.startTime))) u) v (weight A r.alpha (i64 (u' - r.startTime)))).state (n + 1) k
      (all ++ [⟨u', rat u, v⟩]) t := by
  subst hu'
  obtain ⟨t0, τ0, h1, h2, h3, h4, h5, h6⟩ := h.mark
  have ag := hs.agree
  have ag0 := h2.agree
  rw [abs_le] at ag ag0
  obtain ⟨q, rfl, hq0, -⟩ := hu
  have hf := record_frame r (priority A (weight A r.alpha (i64 (currentTimeInSecond t - r.startTime))) (.fin q)) v (weight A r.alpha (i64 (currentTimeInSecond t - r.startTime)))
  have hi : InI64 (currentTimeInSecond t - r.startTime) := by rw [h1]; exact sec_diff h2.inT hs.inT
  have hsp := sec_span (s := t0) (t := t) (d := 3602000) (by omega)
  have hLd : r.startTime ≤ currentTimeInSecond t := by rw [h1]; exact sec_mono (h3.trans hl)
  refine ⟨?_, by have := h.n0; omega, held_record h.held (F64.held_div S.law.rnd _ _) v, hf.1.trans h.alpha, hf.2.1.trans h.size, ?_, ?_⟩
  · refine invB_record h.B (by rw [h.size]; exact S.size) hn ?_ ?_ v
    · exact F64.nonNeg_div S.law.rnd (S.law.nonneg _) (F64.nonNeg_fin hq0)
    · rw [h.alpha, h1]; exact prio_forward S.law.rnd (weight_forward S.law S.rate h2.inT hs.inT (h3.trans hl)) hq0
  · rw [hf.2.2.1]
    refine matched_record h.matched (fun key => ?_)
    refine good_new S.R S.law S.exp hi ?_ k _ _ rfl rfl ?_
    · have h7 := rate_bound S.rate S.pause (d := currentTimeInSecond t - r.startTime) (by rw [h1]; have := S.G0; omega)
      push_cast at h7
      have h8 : (0 : ℚ) ≤ (currentTimeInSecond t : ℚ) - r.startTime := by
        have : (0 : ℚ) ≤ ((currentTimeInSecond t - r.startTime : Int) : ℚ) := by exact_mod_cast (by omega)
        push_cast at this; exact this
      rw [abs_of_nonneg (mul_nonneg S.rate h8)]
      exact h7
    · rw [i64_of_in hi, h.alpha]
  · exact ⟨t0, τ0, hf.2.2.1.trans h1, h2, by omega, by omega, hf.2.2.2.trans h5, h6⟩

/-- What is asked of the readings of a history. -/
structure Clocks (tick time G : Int) (K : ℕ) (last : Int) (h : List Op) : Prop where
  times : ∀ t ∈ readings h, InI64 t
  chain : (last :: readings h).IsChain fun s t => s ≤ t ∧ t ≤ s + G
  agree : Agree tick time h
  ticks : ∀ τ ∈ ticks h, InI64 (τ + 3600000000000) ∧ τ ≤ tick + K * 3600000000000

theorem runInv_run {a : ℚ} {size tick time G : Int} {K : ℕ} (S : Setup A a size tick time G K) (h : List Op) (r : EDR) (n : Int) (k : ℕ) (all : List Rec) (last : Int)
    (hr : RunInv A a size tick time K r n k all last) (hn : n + h.length < 9223372036854775808) (hc : Clocks tick time G K last h)
    (hu : ∀ u ∈ draws h, IsDraw u) :
    ∃ n' k' last', RunInv A a size tick time K (run A r h) n' k' (all ++ recs h) last' := by
  induction h generalizing r n k all last with
  | nil => exact ⟨n, k, last, by simpa [run, recs] using hr⟩
  | cons o h ih =>
    obtain ⟨c1, c2, c3, c4⟩ := hc
    simp only [List.length_cons] at hn
    push_cast at hn
    cases o with
    | getSnapshot τ t =>
      simp only [readings, draws, EDR.ticks, Agree, stamps, List.mem_cons, forall_eq_or_imp, List.isChain_cons_cons] at c1 c2 c3 c4 hu
      obtain ⟨k', hk', -⟩ := runInv_rescale S hr (by omega) ⟨c3.1, c1.1, c4.1.1, c4.1.2⟩ c2.1.1 c2.1.2
      exact ih (step A r (.getSnapshot τ t)).state n k' all t hk' (by omega) ⟨c1.2, c2.2, c3.2, c4.2⟩ hu
    | updateN env v =>
      simp only [readings, draws, EDR.ticks, Agree, stamps, List.mem_cons, forall_eq_or_imp, List.isChain_cons_cons] at c1 c2 c3 c4 hu
      obtain ⟨k', hk', hτ⟩ := runInv_rescale S hr (by omega) ⟨c3.1, c1.1, c4.1.1, c4.1.2⟩ c2.1.1 c2.1.2
      have h2 := runInv_record S hk' (by omega) ⟨c3.2.1, c1.2.1, c4.1.1, c4.1.2⟩ c2.2.1.1 hτ hu.1 v rfl
      obtain ⟨n', k'', last', h3⟩ := ih (step A r (.updateN env v)).state (n + 1) k' _ env.time h2 (by omega) ⟨c1.2.2, c2.2.2, c3.2.2, c4.2⟩ hu.2
      rw [List.append_assoc] at h3
      exact ⟨n', k'', last', h3⟩

theorem runInv_new {a : ℚ} {size tick time G : Int} {K : ℕ} (S : Setup A a size tick time G K) (ht : InI64 time) (hτ : InI64 (tick + 3600000000000)) :
    RunInv A a size tick time K (new size (.fin a) time tick) 0 0 [] time := by
  refine ⟨invB_new size (by linarith [S.size]) (.fin a) time tick, le_rfl, by simp [new, KeysHeld], rfl, rfl, ⟨[], rfl, by simp, by simp⟩, time, tick, rfl, ?_, le_rfl, by omega, ?_, by simp⟩
  · exact ⟨by simp, ht, hτ, by have : (0 : Int) ≤ K := Int.natCast_nonneg K; omega⟩
  · exact i64_of_in hτ

theorem Near.mono {a : ℚ} {L : Int} {k K : ℕ} (hk : k ≤ K) {s : WeightedSample} {e : Rec} (h : Near a L k s e) : Near a L K s e := by
  obtain ⟨h1, w, h2, h3, h4⟩ := h
  refine ⟨h1, w, h2, h3, h4.trans ?_⟩
  have hkr : (k : ℝ) ≤ K := by exact_mod_cast hk
  have hp := Real.exp_pos ((a : ℝ) * (e.ts - L))
  have p1 : (0 : ℝ) < 2 ^ (-40 : Int) := by positivity
  have p2 : (0 : ℝ) < 2 ^ (-1074 : Int) := by positivity
  clear h4 h2
  apply add_le_add
  · exact mul_le_mul_of_nonneg_right (mul_le_mul_of_nonneg_right (by linarith) p1.le) hp.le
  · exact mul_le_mul_of_nonneg_right hkr p2.le

/-! ## The mean -/

theorem abs_sum_le {α : Type} (l : List α) (f : α → ℝ) : |(l.map f).sum| ≤ (l.map fun x => |f x|).sum := by
  induction l with
  | nil => simp
  | cons x t ih =>
    simp only [List.map_cons, List.sum_cons]
    exact (abs_add_le _ _).trans (by linarith)

/-- The weighted mean for weights that are slightly off. -/
theorem mean_shift {α : Type} (l : List α) (v w W : α → ℝ) {M D Sw : ℝ} (hv : ∀ x ∈ l, |v x| ≤ M) (hW : ∀ x ∈ l, 0 ≤ W x)
    (hWs : 0 < (l.map W).sum) (hSw : Sw = (l.map w).sum) (hSw0 : 0 < Sw) (hD : (l.map fun x => |w x - W x|).sum ≤ D) :
    |(l.map fun x => v x * w x).sum / Sw - (l.map fun x => v x * W x).sum / (l.map W).sum| ≤ 2 * M * D / Sw := by
  set m := (l.map fun x => v x * W x).sum / (l.map W).sum with hm
  have hM0 : 0 ≤ M := by
    cases l with
    | nil => simp at hWs
    | cons x t => exact (abs_nonneg _).trans (hv x (by simp))
  have hmM : |m| ≤ M := by
    rw [hm, abs_div, abs_of_pos hWs, div_le_iff₀ hWs]
    have : |(l.map fun x => v x * W x).sum| ≤ (l.map fun x => |v x * W x|).sum := abs_sum_le _ _
    refine this.trans ?_
    rw [← List.sum_map_mul_left]
    apply List.sum_le_sum
    intro x hx
    rw [abs_mul, abs_of_nonneg (hW x hx)]
    exact mul_le_mul_of_nonneg_right (hv x hx) (hW x hx)
  have e1 : (l.map fun x => v x * w x).sum / Sw - m = (l.map fun x => (v x - m) * (w x - W x)).sum / Sw := by
    rw [eq_div_iff hSw0.ne', sub_mul, div_mul_cancel₀ _ hSw0.ne']
    have e2 : (l.map fun x => (v x - m) * (w x - W x)).sum = (l.map fun x => v x * w x).sum - m * (l.map w).sum - ((l.map fun x => v x * W x).sum - m * (l.map W).sum) := by
      clear_value m
      clear hm hmM hD hSw hSw0 hWs hW hv
      induction l with
      | nil => simp
      | cons x t ih => simp only [List.map_cons, List.sum_cons, ih]; ring
    rw [e2, ← hSw]
    have e3 : m * (l.map W).sum = (l.map fun x => v x * W x).sum := by rw [hm]; exact div_mul_cancel₀ _ hWs.ne'
    rw [e3]; ring
  rw [e1, abs_div, abs_of_pos hSw0]
  apply div_le_div_of_nonneg_right _ hSw0.le
  have h1 : |(l.map fun x => (v x - m) * (w x - W x)).sum| ≤ (l.map fun x => |(v x - m) * (w x - W x)|).sum := abs_sum_le _ _
  refine h1.trans ?_
  have h2 : (l.map fun x => |(v x - m) * (w x - W x)|).sum ≤ (l.map fun x => 2 * M * |w x - W x|).sum := by
    apply List.sum_le_sum
    intro x hx
    rw [abs_mul]
    refine mul_le_mul_of_nonneg_right ?_ (abs_nonneg _)
    refine (abs_sub _ _).trans ?_
    linarith [hv x hx]
  refine h2.trans ?_
  rw [List.sum_map_mul_left]
  exact mul_le_mul_of_nonneg_left hD (by linarith)

end EDR
end GoMetrics
