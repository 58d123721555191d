import Verif.Spec.EDRTop
import Verif.Props.EDR
/-! # The highest priorities win, in any arithmetic (for C115) -/
namespace GoMetrics.EDR
open WeightedSample

variable {k : Int} {all kept : List WeightedSample}

theorem Highest.mem (h : Highest k all kept) {e : WeightedSample} (he : e ∈ kept) : e ∈ all := by
  obtain ⟨d, hd, -⟩ := h.rest
  exact hd.mem_iff.1 (by simp [he])

theorem cut_at (hs : kept.Pairwise fun s t => s.key.lt t.key) (e : WeightedSample) (hne : ∀ x ∈ kept, x.key.lt e.key ∨ e.key.lt x.key) :
    ∃ pre post, kept = pre ++ post ∧ (∀ x ∈ pre, x.key.lt e.key) ∧ ∀ x ∈ post, e.key.lt x.key := by
  induction kept with
  | nil => exact ⟨[], [], rfl, by simp, by simp⟩
  | cons x t ih =>
    have hp := List.pairwise_cons.1 hs
    rcases hne x (by simp) with hlt | hgt
    · obtain ⟨pre, post, rfl, h1, h2⟩ := ih hp.2 fun y hy => hne y (List.mem_cons_of_mem _ hy)
      refine ⟨x :: pre, post, rfl, ?_, h2⟩
      intro y hy
      rcases List.mem_cons.1 hy with rfl | hy
      · exact hlt
      · exact h1 y hy
    · refine ⟨[], x :: t, rfl, by simp, ?_⟩
      intro y hy
      rcases List.mem_cons.1 hy with rfl | hy
      · exact hgt
      · exact F64.lt_trans hgt (hp.1 y hy)

theorem ascending_mid {pre post : List WeightedSample} {e : WeightedSample} (hs : (pre ++ post).Pairwise fun s t => s.key.lt t.key)
    (h1 : ∀ x ∈ pre, x.key.lt e.key) (h2 : ∀ x ∈ post, e.key.lt x.key) : (pre ++ e :: post).Pairwise fun s t => s.key.lt t.key := by
  have hp := List.pairwise_append.1 hs
  refine List.pairwise_append.2 ⟨hp.1, List.pairwise_cons.2 ⟨h2, hp.2.1⟩, ?_⟩
  intro x hx y hy
  rcases List.mem_cons.1 hy with rfl | hy
  · exact h1 x hx
  · exact hp.2.2 x hx y hy

/-- The state after the updates that made the samples `all`. -/
structure Ranked (k : Int) (r : EDR) (all : List WeightedSample) : Prop where
  size : r.size = k
  held : Highest k all r.values
  count0 : 0 ≤ r.count
  count : r.count = all.length

theorem ranked_record (hk : 1 ≤ k) {r : EDR} (h : Ranked k r all) (hnn : KeysNonNeg all)
    (hn : (all.length : Int) + 1 < 9223372036854775808) (e : WeightedSample) (hne : ∀ x ∈ all, x.key.lt e.key ∨ e.key.lt x.key) :
    Ranked k (record r e.key e.value e.weight).state (all ++ [e]) := by
  have hK := h.held
  have hc := h.count
  have hks := hK.size
  obtain ⟨dropped, hperm, hdrop⟩ := hK.rest
  have hi : i64 (r.count + 1) = r.count + 1 := by apply i64_of_in; unfold InI64; omega
  have hkne : ∀ x ∈ r.values, x.key.lt e.key ∨ e.key.lt x.key := fun x hx => hne x (hK.mem hx)
  have hg : getValues { r with count := r.count + 1 } = r.values := getValues_eq fun s hs => hnn s (hK.mem hs)
  have hlen := hperm.length_eq
  rw [List.length_append] at hlen
  have hrs := h.size
  unfold record
  simp only [hi, hg]
  by_cases h1 : r.count + 1 ≤ r.size
  · rw [if_pos h1]
    have hdn : dropped = [] := List.length_eq_zero_iff.1 (by omega)
    subst hdn
    obtain ⟨pre, post, hv, hp1, hp2⟩ := cut_at hK.ascending e hkne
    have hasc := hK.ascending
    rw [hv] at hasc hks hperm hlen
    refine ⟨hrs, ⟨?_, ?_, [], ?_, by simp⟩, ?_, ?_⟩
    · simp only [Res.state]; rw [hv, SkipList.insert_split hp1 hp2]; exact ascending_mid hasc hp1 hp2
    · simp only [Res.state]; rw [hv, SkipList.insert_split hp1 hp2]
      simp only [List.length_append, List.length_cons, List.length_nil] at *; omega
    · simp only [Res.state]; rw [hv, SkipList.insert_split hp1 hp2]
      rw [List.append_nil] at *
      exact (List.perm_middle).trans ((List.Perm.cons e hperm).trans (List.perm_append_singleton e all).symm)
    · simp only [Res.state]; have := h.count0; omega
    · simp only [Res.state, List.length_append, List.length_cons, List.length_nil]; push_cast; omega
  · rw [if_neg h1]
    cases hkc : r.values with
    | nil => exfalso; rw [hkc] at hks; simp only [List.length_nil] at hks; omega
    | cons first t =>
      have hasc := hK.ascending
      rw [hkc] at hks hperm hdrop hkne hasc hlen
      have hpc := List.pairwise_cons.1 hasc
      simp only
      by_cases h2 : e.key.le first.key
      · rw [if_pos h2]
        have h2' : e.key.lt first.key := by
          rcases hkne first (by simp) with g | g
          · exact absurd (F64.lt_of_le_of_lt h2 g) (F64.lt_irrefl _)
          · exact g
        refine ⟨hrs, ⟨?_, ?_, e :: dropped, ?_, ?_⟩, ?_, ?_⟩
        · simp only [Res.state, hkc]; exact hasc
        · simp only [Res.state, hkc, List.length_append, List.length_cons, List.length_nil] at *; push_cast at *; omega
        · simp only [Res.state, hkc]
          exact (List.perm_middle).trans ((List.Perm.cons e hperm).trans (List.perm_append_singleton e all).symm)
        · simp only [Res.state, hkc]
          intro d hd x hx
          rcases List.mem_cons.1 hd with rfl | hd
          · rcases List.mem_cons.1 hx with rfl | hx
            · exact h2'
            · exact F64.lt_trans h2' (hpc.1 x hx)
          · exact hdrop d hd x hx
        · simp only [Res.state]; have := h.count0; omega
        · simp only [Res.state, List.length_append, List.length_cons, List.length_nil]; push_cast; omega
      · rw [if_neg h2]
        have h2' : first.key.lt e.key := by
          rcases hkne first (by simp) with g | g
          · exact g
          · exact absurd ((F64.le_iff (F64.lt_ne_nan g).1 (F64.lt_ne_nan g).2).2 (F64.lt_asymm g)) h2
        have hget : SkipList.get? (⟨e.key, e.value, e.weight⟩ : WeightedSample) (first :: t) = none := by
          apply SkipList.get?_none
          intro x hx
          rw [compare_zero]
          rintro ⟨q1, q2⟩
          rcases hkne x hx with g | g
          · exact q1 g
          · exact q2 g
        rw [hget, SkipList.delete_head]
        simp only
        obtain ⟨pre, post, rfl, hp1, hp2⟩ := cut_at hpc.2 e fun x hx => hkne x (List.mem_cons_of_mem _ hx)
        have hins : SkipList.insert (⟨e.key, e.value, e.weight⟩ : WeightedSample) (pre ++ post) = pre ++ e :: post := SkipList.insert_split hp1 hp2
        rw [hins]
        refine ⟨hrs, ⟨ascending_mid hpc.2 hp1 hp2, ?_, first :: dropped, ?_, ?_⟩, ?_, ?_⟩
        · simp only [Res.state, List.length_append, List.length_cons, List.length_nil] at *; push_cast at *; omega
        · simp only [Res.state]
          have q1 : (pre ++ e :: post).Perm (e :: (pre ++ post)) := List.perm_middle
          have q2 : ((pre ++ e :: post) ++ first :: dropped).Perm (e :: ((pre ++ post) ++ first :: dropped)) := q1.append_right _
          have q3 : ((pre ++ post) ++ first :: dropped).Perm (first :: (pre ++ post) ++ dropped) := by
            simpa using (List.perm_middle (a := first) (l₁ := pre ++ post) (l₂ := dropped))
          exact q2.trans ((List.Perm.cons e (q3.trans hperm)).trans (List.perm_append_singleton e all).symm)
        · simp only [Res.state]
          intro d hd x hx
          have hxf : first.key.lt x.key := by
            simp only [List.mem_append, List.mem_cons] at hx
            rcases hx with hx | rfl | hx
            · exact hpc.1 x (by simp [hx])
            · exact h2'
            · exact hpc.1 x (by simp [hx])
          rcases List.mem_cons.1 hd with rfl | hd
          · exact hxf
          · exact F64.lt_trans (hdrop d hd first (by simp)) hxf
        · simp only [Res.state]; have := h.count0; omega
        · simp only [Res.state, List.length_append, List.length_cons, List.length_nil]; push_cast; omega

theorem nonNeg_sampleOf {A : Arith} (hA : A.Lawful) (alpha : F64) (L ts : Int) {u : F64} (hu : u.NonNeg) (v : Int) : (sampleOf A alpha L ts u v).key.NonNeg :=
  F64.nonNeg_div hA.rnd (hA.nonneg _) hu

theorem nonNeg_samples {A : Arith} (hA : A.Lawful) (alpha : F64) (L : Int) (h : List Op) (hu : ∀ u ∈ draws h, F64.NonNeg u) : KeysNonNeg (samples A alpha L h) := by
  induction h with
  | nil => intro s hs; simp [samples] at hs
  | cons o h ih =>
    cases o with
    | getSnapshot tick t => exact ih hu
    | updateN env v =>
      simp only [draws, List.mem_cons, forall_eq_or_imp] at hu
      intro s hs
      simp only [samples, List.mem_cons] at hs
      rcases hs with rfl | hs
      · exact nonNeg_sampleOf hA _ _ _ hu.1 _
      · exact ih hu.2 s hs

theorem ranked_run {A : Arith} (hA : A.Lawful) {size : Int} (hsz : 1 ≤ size) (alpha : F64) (time D : Int) (ht : InI64 time) (h : List Op) (r : EDR) (all : List WeightedSample)
    (hr : Ranked size r all) (hst : r.startTime = time.tdiv 1000) (hal : r.alpha = alpha) (hnext : r.nextScaleTime = D) (hall : KeysNonNeg all)
    (hread : ∀ t ∈ readings h, InI64 t) (hticks : ∀ x ∈ ticks h, x < D) (hu : ∀ u ∈ draws h, F64.NonNeg u)
    (hd : Distinct (all ++ samples A alpha (time.tdiv 1000) h)) (hn : (all.length : Int) + h.length < 9223372036854775808) :
    Ranked size (run A r h) (all ++ samples A alpha (time.tdiv 1000) h) := by
  induction h generalizing r all with
  | nil => simpa [run, samples] using hr
  | cons o h ih =>
    have key : ∀ tick time, tick < D → rescaleIfNeeded A r tick time = r := by
      intro tick time hlt
      unfold rescaleIfNeeded; rw [if_neg (by omega)]
    cases o with
    | getSnapshot tick t =>
      simp only [readings, ticks, draws, samples, List.length_cons, List.mem_cons, forall_eq_or_imp] at *
      have hs : (step A r (.getSnapshot tick t)).state = r := key tick t hticks.1
      have := ih (step A r (.getSnapshot tick t)).state all (by rw [hs]; exact hr) (by rw [hs]; exact hst) (by rw [hs]; exact hal) (by rw [hs]; exact hnext) hall hread.2 hticks.2 hu hd
        (by push_cast at hn ⊢; omega)
      simpa [run] using this
    | updateN env v =>
      simp only [readings, ticks, draws, samples, List.length_cons, List.mem_cons, forall_eq_or_imp] at *
      have hs : (step A r (.updateN env v)).state = (record r (sampleOf A alpha (time.tdiv 1000) (env.time.tdiv 1000) env.u v).key v
          (sampleOf A alpha (time.tdiv 1000) (env.time.tdiv 1000) env.u v).weight).state := by
        have hw : i64 (currentTimeInSecond env.time - r.startTime) = env.time.tdiv 1000 - time.tdiv 1000 := by
          have := sec_diff ht hread.2.1
          rw [hst]
          exact i64_of_in this
        simp only [step, updateN, key env.tick env.scaleTime hticks.1, hw, hal]
        rfl
      have hstep := ranked_record hsz hr hall (by push_cast at hn; omega) (sampleOf A alpha (time.tdiv 1000) (env.time.tdiv 1000) env.u v) (by
        intro x hx
        exact (List.pairwise_append.1 hd).2.2 x hx _ (by simp))
      have hf := record_frame r (sampleOf A alpha (time.tdiv 1000) (env.time.tdiv 1000) env.u v).key v (sampleOf A alpha (time.tdiv 1000) (env.time.tdiv 1000) env.u v).weight
      have := ih (step A r (.updateN env v)).state (all ++ [sampleOf A alpha (time.tdiv 1000) (env.time.tdiv 1000) env.u v]) (by rw [hs]; exact hstep)
        (by rw [hs, hf.2.2.1]; exact hst) (by rw [hs, hf.1]; exact hal) (by rw [hs, hf.2.2.2]; exact hnext)
        (by
          intro s hs'
          rcases List.mem_append.1 hs' with hs' | hs'
          · exact hall s hs'
          · rw [List.mem_singleton.1 hs']; exact nonNeg_sampleOf hA _ _ _ hu.1 _)
        hread.2.2 hticks.2 hu.2 (by simpa using hd) (by simp only [List.length_append, List.length_cons, List.length_nil]; push_cast at hn ⊢; omega)
      simpa [run] using this

/-- Being among the `k` highest is having fewer than `k` above. -/
theorem Highest.mem_iff (h : Highest k all kept) {e : WeightedSample} (he : e ∈ all) :
    e ∈ kept ↔ (all.countP (fun d => decide (e.key.lt d.key)) : Int) < k := by
  obtain ⟨dropped, hp, hlt⟩ := h.rest
  have hc := hp.countP_eq (fun d => decide (e.key.lt d.key))
  rw [List.countP_append] at hc
  constructor
  · intro hek
    have h0 : dropped.countP (fun d => decide (e.key.lt d.key)) = 0 := by
      rw [List.countP_eq_zero]
      intro d hd
      have := hlt d hd e hek
      simp only [decide_eq_true_eq]; exact F64.lt_asymm this
    have h1 : kept.countP (fun d => decide (e.key.lt d.key)) < kept.length := by
      rcases Nat.lt_or_ge (kept.countP (fun d => decide (e.key.lt d.key))) kept.length with g | g
      · exact g
      · have := List.countP_eq_length.1 (le_antisymm List.countP_le_length g) e hek
        simp only [decide_eq_true_eq] at this
        exact absurd this (F64.lt_irrefl _)
    have := h.size
    omega
  · intro hlt'
    by_contra hek
    have hed : e ∈ dropped := by
      have := hp.mem_iff.2 he
      rcases List.mem_append.1 this with g | g
      · exact absurd g hek
      · exact g
    have h1 : kept.countP (fun d => decide (e.key.lt d.key)) = kept.length :=
      List.countP_eq_length.2 fun d hd => by simpa using hlt e hed d hd
    have h2 := h.size
    have h3 : kept.length + dropped.length = all.length := by rw [← List.length_append]; exact hp.length_eq
    have h4 : 0 < dropped.length := List.length_pos_of_mem hed
    omega

end GoMetrics.EDR
