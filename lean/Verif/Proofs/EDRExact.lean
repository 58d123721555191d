import Verif.Proofs.EDR
/-! # The decaying reservoir in exact arithmetic -/
namespace GoMetrics
open Rounding
namespace EDR
open WeightedSample
variable {A : Arith} {a b : ℚ}

theorem Arith.Exact.pos (hA : A.Exact a b) : 0 < b := lt_of_lt_of_le one_pos hA.base

theorem weight_exact (hA : A.Exact a b) (t : Int) : weight A (.fin a) t = .fin (b ^ t) := by
  unfold weight
  rw [hA.rnd]
  exact hA.exp t

theorem factor_exact (hA : A.Exact a b) {old new : Int} (h : InI64 (new - old)) : scalingFactor A (.fin a) old new = .fin (b ^ (old - new)) := by
  unfold scalingFactor
  rw [hA.rnd, i64_of_in h]
  have : F64.mul exact (F64.fin a).neg (F64.ofInt exact (new - old)) = .fin (a * ((old - new : Int) : ℚ)) := by
    simp only [F64.neg, F64.ofInt, exact, F64.mul, F64.fin.injEq]; push_cast; ring
  rw [this]
  exact hA.exp _

theorem prio_rel {e : Rec} (hb : 0 < b) (L : Int) : b ^ (e.ts - L) / e.u = e.prio b * b ^ (-L) := by
  unfold Rec.prio
  rw [sub_eq_add_neg, zpow_add₀ hb.ne']; ring

theorem rel_lt (hb : 0 < b) (L : Int) (e e' : Rec) : (relative b L e).key.lt (relative b L e').key ↔ e.prio b < e'.prio b := by
  have hL : 0 < b ^ (-L) := zpow_pos hb _
  simp only [relative, F64.lt, prio_rel hb]
  exact mul_lt_mul_iff_left₀ hL

theorem rel_le (hb : 0 < b) (L : Int) (e e' : Rec) : (relative b L e).key.le (relative b L e').key ↔ e.prio b ≤ e'.prio b := by
  have hL : 0 < b ^ (-L) := zpow_pos hb _
  simp only [relative, F64.le, prio_rel hb]
  exact mul_le_mul_iff_left₀ hL

theorem rel_scale (hA : A.Exact a b) (L L' : Int) (e : Rec) : scale A (.fin (b ^ (L - L'))) (relative b L e) = relative b L' e := by
  have hz : b ^ (e.ts - L) * b ^ (L - L') = b ^ (e.ts - L') := by
    rw [← zpow_add₀ hA.pos.ne']; congr 1; ring
  unfold scale relative
  rw [hA.rnd]
  simp only [F64.mul, exact]
  congr 2
  rw [← hz]; ring

/-- A later landmark makes keys smaller. -/
theorem rel_shrink (hA : A.Exact a b) {L L' : Int} (hL : L ≤ L') {e e' : Rec} (hu : 0 < e.u) (h : e.prio b < e'.prio b) :
    (relative b L' e).key.lt (relative b L e').key := by
  refine F64.lt_of_le_of_lt ?_ ((rel_lt hA.pos L e e').2 h)
  simp only [relative, F64.le]
  apply div_le_div_of_nonneg_right _ hu.le
  exact zpow_le_zpow_right₀ hA.base (by omega)

theorem loop_exact (hA : A.Exact a b) {L L' : Int} (hL : L ≤ L') (rest done : List Rec)
    (hs : (done ++ rest).Pairwise fun e e' => e.prio b < e'.prio b) (hu : ∀ e ∈ done ++ rest, 0 < e.u) :
    rescaleLoop A (.fin (b ^ (L - L'))) (rest.map (relative b L)) (done.map (relative b L') ++ rest.map (relative b L))
      = (done ++ rest).map (relative b L') := by
  induction rest generalizing done with
  | nil => simp [rescaleLoop]
  | cons e t ih =>
    have hp := List.pairwise_append.1 hs
    have hp2 := List.pairwise_cons.1 hp.2.1
    have hstep : SkipList.insert (relative b L' e) (SkipList.delete (relative b L e) (done.map (relative b L') ++ relative b L e :: t.map (relative b L)))
        = (done ++ [e]).map (relative b L') ++ t.map (relative b L) := by
      rw [SkipList.delete_split _ (compare_self _), SkipList.insert_split]
      · simp
      · intro x hx
        obtain ⟨y, hy, rfl⟩ := List.mem_map.1 hx
        exact (rel_lt hA.pos L' y e).2 (hp.2.2 y hy e (by simp))
      · intro x hx
        obtain ⟨y, hy, rfl⟩ := List.mem_map.1 hx
        exact rel_shrink hA hL (hu e (by simp)) (hp2.1 y hy)
      · intro x hx
        obtain ⟨y, hy, rfl⟩ := List.mem_map.1 hx
        exact rel_shrink hA hL (hu y (by simp [hy])) (hp.2.2 y hy e (by simp))
    have : rescaleLoop A (.fin (b ^ (L - L'))) ((e :: t).map (relative b L)) (done.map (relative b L') ++ (e :: t).map (relative b L))
        = rescaleLoop A (.fin (b ^ (L - L'))) (t.map (relative b L)) ((done ++ [e]).map (relative b L') ++ t.map (relative b L)) := by
      rw [← hstep]
      simp only [List.map_cons, rescaleLoop, List.foldl_cons, rel_scale hA]
    rw [this, ih (done ++ [e])]
    · simp
    · simpa using hs
    · simpa using hu

theorem nonneg_rel (hb : 0 < b) (L : Int) {kept : List Rec} (hu : ∀ e ∈ kept, 0 < e.u) : KeysNonNeg (kept.map (relative b L)) := by
  intro s hs
  obtain ⟨e, he, rfl⟩ := List.mem_map.1 hs
  exact F64.nonNeg_fin (div_nonneg (zpow_pos hb _).le (hu e he).le)

/-- The state after the updates `all`. -/
structure J (a b : ℚ) (k : Int) (r : EDR) (all : List Rec) : Prop where
  alpha : r.alpha = .fin a
  size : r.size = k
  held : ∃ kept, r.values = kept.map (relative b r.startTime) ∧ TopK b k all kept
  count0 : 0 ≤ r.count
  countn : r.count ≤ all.length
  count : min r.count k = min (all.length : Int) k

theorem TopK.mem {k : Int} {all kept : List Rec} (h : TopK b k all kept) {e : Rec} (he : e ∈ kept) : e ∈ all := by
  obtain ⟨d, hd, -⟩ := h.rest
  exact hd.mem_iff.1 (by simp [he])

theorem rescaleLocked_exact (hA : A.Exact a b) {r : EDR} {time : Int} {kept : List Rec} (ha : r.alpha = .fin a)
    (hv : r.values = kept.map (relative b r.startTime)) (hs : kept.Pairwise fun e e' => e.prio b < e'.prio b) (hu : ∀ e ∈ kept, 0 < e.u)
    (hi : InI64 (currentTimeInSecond time - r.startTime)) (hL : r.startTime ≤ currentTimeInSecond time) :
    rescaleLocked A r time = { r with startTime := currentTimeInSecond time, values := kept.map (relative b (currentTimeInSecond time)),
                                      count := i64 kept.length } := by
  have hg : getValues { r with startTime := currentTimeInSecond time } = r.values :=
    getValues_eq (by simp only [hv]; exact nonneg_rel hA.pos _ hu)
  have hne : ¬ F64.eq (.fin (b ^ (r.startTime - currentTimeInSecond time))) (.fin 0) := by
    have := zpow_pos hA.pos (r.startTime - currentTimeInSecond time)
    simp only [F64.eq, F64.le]; intro h; linarith [h.1]
  unfold rescaleLocked
  simp only
  rw [hg, ha, factor_exact hA hi, if_neg hne]
  have := loop_exact hA hL kept [] (by simpa using hs) (by simpa using hu)
  simp only [List.map_nil, List.nil_append] at this
  rw [hv, this]
  simp [ha]

theorem J_rescale (hA : A.Exact a b) {size : Int} (hsz : 0 ≤ size) {r : EDR} {all : List Rec} (h : J a b size r all) (hu : ∀ e ∈ all, 0 < e.u)
    (hn : (all.length : Int) < 9223372036854775808) (tick time : Int) (hi : InI64 (currentTimeInSecond time - r.startTime))
    (hL : r.startTime ≤ currentTimeInSecond time) :
    J a b size (rescaleIfNeeded A r tick time) all ∧
      ((rescaleIfNeeded A r tick time).startTime = r.startTime ∨ (rescaleIfNeeded A r tick time).startTime = currentTimeInSecond time) := by
  unfold rescaleIfNeeded
  split
  · obtain ⟨kept, hv, hk⟩ := h.held
    rw [rescaleLocked_exact hA (r := { r with nextScaleTime := i64 (tick + rescaleThreshold) }) (kept := kept) h.alpha hv hk.ascending
      (fun e he => hu e (hk.mem he)) hi hL]
    have h1 := hk.size
    have hi' : i64 (kept.length : Int) = kept.length := by apply i64_of_in; unfold InI64; omega
    refine ⟨⟨h.alpha, h.size, ⟨kept, rfl, hk⟩, ?_, ?_, ?_⟩, Or.inr rfl⟩ <;> simp only [hi'] <;> omega
  · exact ⟨h, Or.inl rfl⟩

theorem split_at {kept : List Rec} (hs : kept.Pairwise fun e e' => e.prio b < e'.prio b) (e : Rec) (hne : ∀ x ∈ kept, x.prio b ≠ e.prio b) :
    ∃ pre post, kept = pre ++ post ∧ (∀ x ∈ pre, x.prio b < e.prio b) ∧ ∀ x ∈ post, e.prio b < x.prio b := by
  induction kept with
  | nil => exact ⟨[], [], rfl, by simp, by simp⟩
  | cons x t ih =>
    have hp := List.pairwise_cons.1 hs
    rcases lt_or_gt_of_ne (hne x (by simp)) with hlt | hgt
    · obtain ⟨pre, post, rfl, h1, h2⟩ := ih hp.2 fun y hy => hne y (List.mem_cons_of_mem _ hy)
      refine ⟨x :: pre, post, rfl, ?_, h2⟩
      intro y hy
      rcases List.mem_cons.1 hy with rfl | hy
      · exact hlt
      · exact h1 y hy
    · refine ⟨[], x :: t, rfl, by simp, ?_⟩
      intro y hy
      rcases List.mem_cons.1 hy with rfl | hy
      · exact hgt
      · exact lt_trans hgt (hp.1 y hy)

theorem pairwise_mid {pre post : List Rec} {e : Rec} (hs : (pre ++ post).Pairwise fun e e' => e.prio b < e'.prio b)
    (h1 : ∀ x ∈ pre, x.prio b < e.prio b) (h2 : ∀ x ∈ post, e.prio b < x.prio b) :
    (pre ++ e :: post).Pairwise fun e e' => e.prio b < e'.prio b := by
  have hp := List.pairwise_append.1 hs
  refine List.pairwise_append.2 ⟨hp.1, List.pairwise_cons.2 ⟨h2, hp.2.1⟩, ?_⟩
  intro x hx y hy
  rcases List.mem_cons.1 hy with rfl | hy
  · exact h1 x hx
  · exact hp.2.2 x hx y hy

theorem insert_rel (hb : 0 < b) (L : Int) {pre post : List Rec} {e : Rec}
    (h1 : ∀ x ∈ pre, x.prio b < e.prio b) (h2 : ∀ x ∈ post, e.prio b < x.prio b) :
    SkipList.insert (relative b L e) ((pre ++ post).map (relative b L)) = (pre ++ e :: post).map (relative b L) := by
  rw [List.map_append, SkipList.insert_split]
  · simp
  · intro x hx
    obtain ⟨y, hy, rfl⟩ := List.mem_map.1 hx
    exact (rel_lt hb L y e).2 (h1 y hy)
  · intro x hx
    obtain ⟨y, hy, rfl⟩ := List.mem_map.1 hx
    exact (rel_lt hb L e y).2 (h2 y hy)

theorem J_record (hA : A.Exact a b) {size : Int} (hsz : 1 ≤ size) {r : EDR} {all : List Rec} (h : J a b size r all) (hu : ∀ e ∈ all, 0 < e.u)
    (hn : (all.length : Int) + 1 < 9223372036854775808) (e : Rec) (hne : ∀ x ∈ all, x.prio b ≠ e.prio b) :
    (record r (.fin (b ^ (e.ts - r.startTime) / e.u)) e.value (.fin (b ^ (e.ts - r.startTime)))).panicked = false ∧
    J a b size (record r (.fin (b ^ (e.ts - r.startTime) / e.u)) e.value (.fin (b ^ (e.ts - r.startTime)))).state (all ++ [e]) ∧
    (record r (.fin (b ^ (e.ts - r.startTime) / e.u)) e.value (.fin (b ^ (e.ts - r.startTime)))).state.startTime = r.startTime := by
  obtain ⟨kept, hv, hk⟩ := h.held
  have hb := hA.pos
  have h0 := h.count0
  have hcn := h.countn
  have hc := h.count
  have hks := hk.size
  obtain ⟨dropped, hperm, hdrop⟩ := hk.rest
  have hi : i64 (r.count + 1) = r.count + 1 := by apply i64_of_in; unfold InI64; omega
  have hku : ∀ x ∈ kept, 0 < x.u := fun x hx => hu x (hk.mem hx)
  have hkne : ∀ x ∈ kept, x.prio b ≠ e.prio b := fun x hx => hne x (hk.mem hx)
  have hg : getValues { r with count := r.count + 1 } = r.values :=
    getValues_eq (by simp only [hv]; exact nonneg_rel hb _ hku)
  have hlen := hperm.length_eq
  rw [List.length_append] at hlen
  have hsample : (⟨.fin (b ^ (e.ts - r.startTime) / e.u), e.value, .fin (b ^ (e.ts - r.startTime))⟩ : WeightedSample) = relative b r.startTime e := rfl
  have hrs := h.size
  unfold record
  simp only [hi, hg, hsample]
  by_cases h1 : r.count + 1 ≤ r.size
  · rw [if_pos h1]
    have hdn : dropped = [] := List.length_eq_zero_iff.1 (by omega)
    subst hdn
    obtain ⟨pre, post, rfl, hp1, hp2⟩ := split_at hk.ascending e hkne
    refine ⟨rfl, ⟨h.alpha, hrs, ⟨pre ++ e :: post, ?_, pairwise_mid hk.ascending hp1 hp2, ?_, [], ?_, by simp⟩, ?_, ?_, ?_⟩, rfl⟩
    · simp only [Res.state]; rw [hv, insert_rel hb _ hp1 hp2]
    · simp only [List.length_append, List.length_cons, List.length_nil] at *; omega
    · rw [List.append_nil] at *
      exact (List.perm_middle).trans ((List.Perm.cons e hperm).trans (List.perm_append_singleton e all).symm)
    · simp only [Res.state]; omega
    · simp only [Res.state, List.length_append, List.length_cons, List.length_nil]; push_cast; omega
    · simp only [Res.state, List.length_append, List.length_cons, List.length_nil]; push_cast; omega
  · rw [if_neg h1]
    simp only [hv]
    cases hkc : kept with
    | nil => exfalso; rw [hkc] at hks; simp only [List.length_nil] at hks; omega
    | cons first t =>
      rw [hkc] at hks hperm hdrop hku hkne
      have hasc := hk.ascending
      rw [hkc] at hasc
      have hpc := List.pairwise_cons.1 hasc
      simp only [List.map_cons]
      have hle := rel_le hb r.startTime e first
      by_cases h2 : e.prio b ≤ first.prio b
      · rw [if_pos (show F64.le (.fin (b ^ (e.ts - r.startTime) / e.u)) (relative b r.startTime first).key from hle.2 h2)]
        have h2' : e.prio b < first.prio b := lt_of_le_of_ne h2 fun h' => hkne first (by simp) h'.symm
        refine ⟨rfl, ⟨h.alpha, hrs, ⟨first :: t, rfl, hasc, ?_, e :: dropped, ?_, ?_⟩, ?_, ?_, ?_⟩, rfl⟩
        · simp only [List.length_append, List.length_cons, List.length_nil] at *; omega
        · exact (List.perm_middle).trans ((List.Perm.cons e hperm).trans (List.perm_append_singleton e all).symm)
        · intro d hd x hx
          rcases List.mem_cons.1 hd with rfl | hd
          · rcases List.mem_cons.1 hx with rfl | hx
            · exact h2'
            · exact lt_trans h2' (hpc.1 x hx)
          · exact hdrop d hd x hx
        · simp only [Res.state]; omega
        · simp only [Res.state, List.length_append, List.length_cons, List.length_nil]; push_cast; omega
        · simp only [Res.state, List.length_append, List.length_cons, List.length_nil] at *; push_cast at *; omega
      · rw [if_neg (show ¬ F64.le (.fin (b ^ (e.ts - r.startTime) / e.u)) (relative b r.startTime first).key from fun h' => h2 (hle.1 h'))]
        push Not at h2
        have hget : SkipList.get? (relative b r.startTime e) (relative b r.startTime first :: t.map (relative b r.startTime)) = none := by
          apply SkipList.get?_none
          intro x hx
          rw [← List.map_cons] at hx
          obtain ⟨y, hy, rfl⟩ := List.mem_map.1 hx
          rw [compare_zero, rel_lt hb, rel_lt hb]
          rintro ⟨q1, q2⟩
          exact hkne y hy (le_antisymm (not_lt.1 q2) (not_lt.1 q1))
        rw [hget, SkipList.delete_head]
        simp only
        obtain ⟨pre, post, rfl, hp1, hp2⟩ := split_at hpc.2 e fun x hx => hkne x (List.mem_cons_of_mem _ hx)
        refine ⟨rfl, ⟨h.alpha, hrs, ⟨pre ++ e :: post, ?_, pairwise_mid hpc.2 hp1 hp2, ?_, first :: dropped, ?_, ?_⟩, ?_, ?_, ?_⟩, rfl⟩
        · simp only [Res.state]; rw [insert_rel hb _ hp1 hp2]
        · simp only [List.length_append, List.length_cons, List.length_nil] at *; omega
        · have q1 : (pre ++ e :: post).Perm (e :: (pre ++ post)) := List.perm_middle
          have q2 : ((pre ++ e :: post) ++ first :: dropped).Perm (e :: ((pre ++ post) ++ first :: dropped)) := q1.append_right _
          have q3 : ((pre ++ post) ++ first :: dropped).Perm (first :: (pre ++ post) ++ dropped) := by
            simpa using (List.perm_middle (a := first) (l₁ := pre ++ post) (l₂ := dropped))
          exact q2.trans ((List.Perm.cons e (q3.trans hperm)).trans (List.perm_append_singleton e all).symm)
        · intro d hd x hx
          have hxf : first.prio b < x.prio b := by
            simp only [List.mem_append, List.mem_cons] at hx
            rcases hx with hx | rfl | hx
            · exact hpc.1 x (by simp [hx])
            · exact h2
            · exact hpc.1 x (by simp [hx])
          rcases List.mem_cons.1 hd with rfl | hd
          · exact hxf
          · exact lt_trans (hdrop d hd first (by simp)) hxf
        · simp only [Res.state]; omega
        · simp only [Res.state, List.length_append, List.length_cons, List.length_nil]; push_cast; omega
        · simp only [Res.state, List.length_append, List.length_cons, List.length_nil] at *; push_cast at *; omega

/-! ## Histories -/

theorem sec_bounds {t : Int} (h : InI64 t) : -9223372036854776 ≤ currentTimeInSecond t ∧ currentTimeInSecond t ≤ 9223372036854776 := by
  unfold InI64 at h
  unfold currentTimeInSecond secondToMsRate
  rcases le_total 0 t with h0 | h0
  · rw [Int.tdiv_eq_ediv_of_nonneg h0]; omega
  · obtain ⟨s, rfl⟩ : ∃ s, t = -s := ⟨-t, by omega⟩
    rw [Int.neg_tdiv, Int.tdiv_eq_ediv_of_nonneg (by omega)]; omega

theorem sec_diff {s t : Int} (hs : InI64 s) (ht : InI64 t) : InI64 (currentTimeInSecond t - currentTimeInSecond s) := by
  have := sec_bounds hs
  have := sec_bounds ht
  unfold InI64; omega

theorem sec_mono {s t : Int} (h : s ≤ t) : currentTimeInSecond s ≤ currentTimeInSecond t :=
  Int.tdiv_le_tdiv (by decide) h

theorem recs_append (h h' : List Op) : recs (h ++ h') = recs h ++ recs h' := by
  induction h with
  | nil => rfl
  | cons o h ih => cases o <;> simp [recs, ih]

theorem J_new (a b : ℚ) (size : Int) (hsz : 0 ≤ size) (time tick : Int) : J a b size (new size (.fin a) time tick) [] :=
  ⟨rfl, rfl, ⟨[], rfl, by simp, by simpa using hsz, [], by simp, by simp⟩, by simp [new], by simp [new], by simp [new]⟩

theorem J_run (hA : A.Exact a b) {size : Int} (hsz : 1 ≤ size) (h : List Op) (r : EDR) (all : List Rec) (t0 : Int) (hJ : J a b size r all)
    (hall : ∀ e ∈ all, 0 < e.u) (hst : r.startTime = currentTimeInSecond t0) (ht0 : InI64 t0) (hr : ∀ t ∈ readings h, InI64 t)
    (hm : (t0 :: scaleTimes h).Pairwise (· ≤ ·)) (hu : ∀ u ∈ draws h, ∃ q : ℚ, u = .fin q ∧ 0 < q)
    (hd : ((all ++ recs h).map (Rec.prio b)).Nodup) (hn : (all.length : Int) + h.length < 9223372036854775808) :
    J a b size (run A r h) (all ++ recs h) := by
  induction h generalizing r all t0 with
  | nil => simpa [run, recs] using hJ
  | cons o h ih =>
    have hm' := List.pairwise_cons.1 hm
    cases o with
    | getSnapshot tick t =>
      simp only [scaleTimes, readings, recs, draws, List.length_cons, List.mem_cons, forall_eq_or_imp] at *
      obtain ⟨h1, h2⟩ := J_rescale hA (by omega) hJ hall (by omega) tick t (by rw [hst]; exact sec_diff ht0 hr.1) (by rw [hst]; exact sec_mono hm'.1.1)
      have hm2 := List.pairwise_cons.1 hm'.2
      rcases h2 with h2 | h2
      · exact ih _ all t0 h1 hall (by rw [← hst]; exact h2) ht0 hr.2 (List.pairwise_cons.2 ⟨hm'.1.2, hm2.2⟩) hu hd (by push_cast at hn ⊢; omega)
      · exact ih _ all t h1 hall h2 hr.1 hr.2 (List.pairwise_cons.2 ⟨hm2.1, hm2.2⟩) hu hd (by push_cast at hn ⊢; omega)
    | updateN env v =>
      simp only [scaleTimes, readings, recs, draws, List.length_cons, List.mem_cons, forall_eq_or_imp] at *
      obtain ⟨h1, h2⟩ := J_rescale hA (by omega) hJ hall (by omega) env.tick env.scaleTime (by rw [hst]; exact sec_diff ht0 hr.1)
        (by rw [hst]; exact sec_mono hm'.1.1)
      obtain ⟨⟨u, huu, hu0⟩, hu'⟩ := hu
      have hm2 := List.pairwise_cons.1 hm'.2
      set r1 := rescaleIfNeeded A r env.tick env.scaleTime with hr1
      obtain ⟨t1, hst1, ht1, hm3⟩ : ∃ t1, r1.startTime = currentTimeInSecond t1 ∧ InI64 t1 ∧ (t1 :: scaleTimes h).Pairwise (· ≤ ·) := by
        rcases h2 with h2 | h2
        · exact ⟨t0, h2.trans hst, ht0, List.pairwise_cons.2 ⟨hm'.1.2, hm2.2⟩⟩
        · exact ⟨env.scaleTime, h2, hr.1, List.pairwise_cons.2 ⟨hm2.1, hm2.2⟩⟩
      have hw : weight A r1.alpha (i64 (currentTimeInSecond env.time - r1.startTime)) = .fin (b ^ (env.time.tdiv 1000 - r1.startTime)) := by
        rw [hst1, i64_of_in (sec_diff ht1 hr.2.1), h1.alpha, weight_exact hA]; rfl
      have hp : priority A (.fin (b ^ (env.time.tdiv 1000 - r1.startTime))) env.u = .fin (b ^ (env.time.tdiv 1000 - r1.startTime) / u) := by
        unfold priority
        rw [huu, hA.rnd]
        simp only [F64.div, hu0.ne', if_false, exact]
      have hrat : rat env.u = u := by rw [huu]; rfl
      rw [hrat] at hd ⊢
      obtain ⟨-, h3, h4⟩ := J_record hA hsz h1 hall (by omega) ⟨env.time.tdiv 1000, u, v⟩ (by
        intro x hx hxe
        rw [List.map_append] at hd
        have := (List.nodup_append.1 hd).2.2 (x.prio b) (List.mem_map_of_mem hx) (Rec.prio b ⟨env.time.tdiv 1000, u, v⟩) (by simp)
        exact this hxe)
      have hs : (step A r (.updateN env v)).state =
          (record r1 (.fin (b ^ (env.time.tdiv 1000 - r1.startTime) / u)) v (.fin (b ^ (env.time.tdiv 1000 - r1.startTime)))).state := by
        simp only [step, updateN, ← hr1, hw, hp]
      have := ih (step A r (.updateN env v)).state (all ++ [⟨env.time.tdiv 1000, u, v⟩]) t1 (by rw [hs]; exact h3)
        (by intro e he; rcases List.mem_append.1 he with he | he
            · exact hall e he
            · rw [List.mem_singleton.1 he]; exact hu0)
        (by rw [hs, h4, hst1]) ht1 hr.2.2 hm3 hu' (by simpa using hd) (by simp only [List.length_append, List.length_cons, List.length_nil]; push_cast at hn ⊢; omega)
      simpa [run] using this

end EDR
end GoMetrics
