import Verif.Proofs.BucketCounter
import Mathlib.Data.List.Induction
/-! # Bucket counter histories refine the specification of Spec/Buckets.lean -/
namespace GoMetrics
open Spec

theorem Spec.credited_append (I m : Int) (h : List (Int × Int)) (t n : Int) :
    credited I m (h ++ [(t, n)]) = credited I m h ++
      [(max (h.foldl (fun m e => max m (intervalStart I e.1)) m) (intervalStart I t), n)] := by
  induction h generalizing m with
  | nil => rfl
  | cons e h ih =>
    obtain ⟨t', n'⟩ := e
    simp only [List.cons_append, credited, List.foldl_cons, ih]

theorem Spec.amount_append (l : List (Int × Int)) (a n ts : Int) :
    amount (l ++ [(a, n)]) ts = amount l ts + if a = ts then n else 0 := by
  unfold amount
  rw [List.filter_append, List.map_append, List.sum_append]
  by_cases h : a = ts <;> simp [h]

theorem Spec.amount_eq_zero (l : List (Int × Int)) (ts : Int) (h : ts ∉ l.map Prod.fst) :
    amount l ts = 0 := by
  unfold amount
  have : l.filter (fun e => e.1 = ts) = [] := by
    rw [List.filter_eq_nil_iff]
    intro e he hd
    exact h (List.mem_map.2 ⟨e, he, by simpa using hd⟩)
  simp [this]

theorem Spec.credited_le (I m : Int) (h : List (Int × Int)) :
    ∀ x ∈ (credited I m h).map Prod.fst,
      x ≤ h.foldl (fun m e => max m (intervalStart I e.1)) m := by
  induction h using List.reverseRecOn generalizing m with
  | nil => simp [credited]
  | append_singleton h e ih =>
    obtain ⟨t, n⟩ := e
    intro x hx
    rw [credited_append, List.map_append, List.mem_append] at hx
    rw [List.foldl_append]
    simp only [List.foldl_cons, List.foldl_nil]
    rcases hx with hx | hx
    · exact le_trans (ih m x hx) (le_max_left _ _)
    · simp at hx; omega

theorem Spec.le_credited (I m : Int) (h : List (Int × Int)) :
    ∀ x ∈ (credited I m h).map Prod.fst, m ≤ x := by
  induction h generalizing m with
  | nil => simp [credited]
  | cons e h ih =>
    obtain ⟨t, n⟩ := e
    intro x hx
    simp only [credited, List.map_cons, List.mem_cons] at hx
    rcases hx with rfl | hx
    · exact le_max_left _ _
    · exact le_trans (le_max_left _ _) (ih _ x hx)

/-- The credited times do not depend on the amounts. -/
theorem Spec.credited_map_fst (I m : Int) (h : List (Int × Int)) (f : Int → Int) :
    credited I m (h.map (fun e => (e.1, f e.2))) = (credited I m h).map (fun e => (e.1, f e.2)) := by
  induction h generalizing m with
  | nil => rfl
  | cons e h ih => obtain ⟨t, n⟩ := e; simp [credited, ih]

theorem i64_sum_map_i64 (l : List Int) : i64 (l.map i64).sum = i64 l.sum := by
  induction l with
  | nil => rfl
  | cons x l ih =>
    simp only [List.map_cons, List.sum_cons]
    rw [i64_add_left, ← i64_add_right, ih, i64_add_right]

namespace BucketCounter

/-- Abstract run. -/
def absRun (I : Int) (h : List (Int × Int)) : List Bucket × Int :=
  h.foldl (fun s e => absStep s.1 s.2 (intervalStart I e.1) e.2) ([], 0)

theorem absRun_append (I : Int) (h : List (Int × Int)) (t n : Int) :
    absRun I (h ++ [(t, n)]) = absStep (absRun I h).1 (absRun I h).2 (intervalStart I t) n := by
  simp [absRun]

theorem headTs_absStep (R : List Bucket) (c0 a n : Int) :
    headTs (absStep R c0 a n).1 = max (headTs R) a := by
  unfold absStep
  split
  · rename_i h
    rw [max_eq_right (by omega)]; rfl
  · cases R <;> simp_all [headTs]

theorem headTs_absRun (I : Int) (h : List (Int × Int)) :
    headTs (absRun I h).1 = h.foldl (fun m e => max m (intervalStart I e.1)) (-1) := by
  induction h using List.reverseRecOn with
  | nil => rfl
  | append_singleton h e ih =>
    obtain ⟨t, n⟩ := e
    rw [absRun_append, headTs_absStep, ih, List.foldl_append]; rfl

/-- Main link between the bucket list and the declarative specification. -/
theorem absRun_spec (I : Int) (h : List (Int × Int)) :
    (∀ ts, 0 ≤ ts → ((∃ x ∈ (absRun I h).1, x.timestamp = ts) ↔ ts ∈ (credited I (-1) h).map Prod.fst)) ∧
    (∀ x ∈ (absRun I h).1, 0 ≤ x.timestamp) ∧
    (absRun I h).1.Pairwise (fun x y => y.timestamp < x.timestamp) ∧
    (∀ x ∈ (absRun I h).1, x.count = i64 (amount (credited I (-1) h) x.timestamp)) := by
  induction h using List.reverseRecOn with
  | nil => simp [absRun, credited]
  | append_singleton h e ih =>
    obtain ⟨t, n⟩ := e
    obtain ⟨hmem, hpos, hsort, hcnt⟩ := ih
    have hhead := headTs_absRun I h
    have hle := Spec.credited_le I (-1) h
    rw [← hhead] at hle
    rw [absRun_append, Spec.credited_append, ← hhead]
    generalize (absRun I h).1 = R at *
    generalize (absRun I h).2 = c0
    generalize intervalStart I t = a
    generalize hl : credited I (-1) h = l at *
    have hm1 : -1 ≤ headTs R := by
      cases R with
      | nil => simp [headTs]
      | cons y R' => have := hpos y (List.mem_cons_self ..); simp only [headTs]; omega
    unfold absStep
    by_cases hgt : a > headTs R
    · simp only [hgt, if_true]
      have hmax : max (headTs R) a = a := by omega
      rw [hmax]
      have hnot : a ∉ l.map Prod.fst := by
        intro hc
        have := hle a hc
        omega
      refine ⟨?_, ?_, ?_, ?_⟩
      · intro ts hts
        simp only [List.mem_cons, exists_eq_or_imp, List.map_append, List.map_cons, List.map_nil,
          List.mem_append, List.not_mem_nil, or_false]
        rw [hmem ts hts]
        constructor
        · rintro (h | h)
          · exact Or.inr h.symm
          · exact Or.inl h
        · rintro (h | h)
          · exact Or.inr h
          · exact Or.inl h.symm
      · intro x hx
        rcases List.mem_cons.1 hx with rfl | hx
        · simp only; omega
        · exact hpos x hx
      · refine List.pairwise_cons.2 ⟨?_, hsort⟩
        intro y hy
        have : y.timestamp ≤ headTs R := hle _ ((hmem _ (hpos y hy)).1 ⟨y, hy, rfl⟩)
        simp only; omega
      · intro x hx
        rw [Spec.amount_append]
        rcases List.mem_cons.1 hx with rfl | hx
        · simp [Spec.amount_eq_zero _ _ hnot]
        · have hne : ¬ a = x.timestamp := by
            intro e
            exact hnot (e ▸ (hmem _ (hpos x hx)).1 ⟨x, hx, rfl⟩)
          simp [hne, hcnt x hx]
    · simp only [hgt, if_false]
      have hmax : max (headTs R) a = headTs R := by omega
      rw [hmax]
      cases R with
      | nil =>
        simp only [headTs] at *
        refine ⟨?_, ?_, ?_, ?_⟩
        · intro ts hts
          have := hmem ts hts
          simp only [List.map_append, List.mem_append]
          rw [← this]
          simp
          omega
        · simp
        · exact List.Pairwise.nil
        · simp
      | cons x R' =>
        simp only [headTs] at *
        have hsort' := List.pairwise_cons.1 hsort
        refine ⟨?_, ?_, ?_, ?_⟩
        · intro ts hts
          have := hmem ts hts
          simp only [List.mem_cons, exists_eq_or_imp] at this
          simp only [List.mem_cons, exists_eq_or_imp, List.map_append, List.mem_append, List.map_cons,
            List.map_nil, List.not_mem_nil, or_false, ← this]
          constructor
          · exact Or.inl
          · rintro (h | h)
            · exact h
            · exact Or.inl h.symm
        · intro y hy
          rcases List.mem_cons.1 hy with rfl | hy
          · exact hpos x (List.mem_cons_self ..)
          · exact hpos y (List.mem_cons_of_mem _ hy)
        · exact List.pairwise_cons.2 ⟨hsort'.1, hsort'.2⟩
        · intro y hy
          rw [Spec.amount_append]
          rcases List.mem_cons.1 hy with rfl | hy
          · simp only [if_true]
            rw [hcnt x (List.mem_cons_self ..), i64_add_left]
          · have hlt := hsort'.1 y hy
            have hne : ¬ x.timestamp = y.timestamp := by omega
            simp [hne, hcnt y (List.mem_cons_of_mem _ hy)]

theorem alignTimestamp_eq {interval t : Int} (h : wholeSeconds interval ≠ 0) :
    alignTimestamp interval t = some (intervalStart (wholeSeconds interval) t) := by
  simp [alignTimestamp, h, intervalStart, secondToMsRate]

/-- The amount a call passes on to `UpdateN`. -/
def rawAmount : Op → Int
  | .update => 1
  | .updateN n => n
  | .inc => 1
  | .incN n => n
  | .dec => -1
  | .decN n => i64 (-n)

theorem step_eq (b : BucketCounter) (t : Int) (op : Op) :
    b.step t op = b.updateN t (rawAmount op) := by
  cases op <;> rfl

theorem updateN_interval (b : BucketCounter) (t n : Int) :
    (b.updateN t n).state.interval = b.interval := by
  unfold updateN; simp only; split <;> simp

theorem updateN_flag (b : BucketCounter) (t n : Int) :
    (b.updateN t n).state.updateTotalCount = b.updateTotalCount := by
  unfold updateN; simp only; split <;> simp

theorem updateN_init (b : BucketCounter) (t n : Int) :
    (b.updateN t n).state.initTimestamp = b.initTimestamp := by
  unfold updateN; simp only; split <;> simp

theorem updateN_count (b : BucketCounter) (t n : Int) :
    (b.updateN t n).state.getCount =
      if b.updateTotalCount then i64 (b.getCount + n) else b.getCount := by
  have : (b.updateN t n).state.getCount = (b.bumpTotal n).getCount := by
    unfold updateN getCount; simp only; split <;> simp
  rw [this]
  unfold bumpTotal getCount
  split <;> rfl

theorem run_append (b : BucketCounter) (h : List (Int × Op)) (c : Int × Op) :
    run b (h ++ [c]) = ((run b h).step c.1 c.2).state := by simp [run]

theorem run_interval (b : BucketCounter) (h : List (Int × Op)) : (run b h).interval = b.interval := by
  induction h using List.reverseRecOn with
  | nil => rfl
  | append_singleton h c ih => rw [run_append, step_eq, updateN_interval, ih]

theorem run_init (b : BucketCounter) (h : List (Int × Op)) :
    (run b h).initTimestamp = b.initTimestamp := by
  induction h using List.reverseRecOn with
  | nil => rfl
  | append_singleton h c ih => rw [run_append, step_eq, updateN_init, ih]

theorem run_flag (b : BucketCounter) (h : List (Int × Op)) :
    (run b h).updateTotalCount = b.updateTotalCount := by
  induction h using List.reverseRecOn with
  | nil => rfl
  | append_singleton h c ih => rw [run_append, step_eq, updateN_flag, ih]

theorem run_count (b : BucketCounter) (h : List (Int × Op)) (hb : InI64 b.getCount) :
    (run b h).getCount =
      if b.updateTotalCount then i64 (b.getCount + (h.map (fun c => rawAmount c.2)).sum)
      else b.getCount := by
  induction h using List.reverseRecOn with
  | nil => simp [run, i64_of_in hb]
  | append_singleton h c ih =>
    rw [run_append, step_eq, updateN_count, run_flag, ih]
    cases b.updateTotalCount
    · simp
    · simp only [if_true, List.map_append, List.sum_append, List.map_cons, List.map_nil,
        List.sum_cons, List.sum_nil, add_zero]
      rw [i64_add_left, add_assoc]

theorem rep_run (interval : Int) (N : Nat) (t0 : Int) (u : Bool) (hI : wholeSeconds interval ≠ 0)
    (h : List (Int × Op)) :
    Rep N (run (new interval N t0 u) h)
      (absRun (wholeSeconds interval) (h.map (fun c => (c.1, rawAmount c.2)))).1
      (absRun (wholeSeconds interval) (h.map (fun c => (c.1, rawAmount c.2)))).2 := by
  induction h using List.reverseRecOn with
  | nil => exact rep_new interval N t0 u
  | append_singleton h c ih =>
    rw [run_append, step_eq, List.map_append, List.map_cons, List.map_nil, absRun_append]
    apply rep_updateN ih
    rw [run_interval]
    exact alignTimestamp_eq hI

/-- A strictly decreasing list: membership in the first `N` elements. -/
theorem mem_take_iff {R : List Bucket} (hs : R.Pairwise (fun x y => y.timestamp < x.timestamp))
    (N : Nat) (x : Bucket) :
    x ∈ R.take N ↔ x ∈ R ∧
      ((R.map Bucket.timestamp).toFinset.filter (fun y => x.timestamp < y)).card < N := by
  induction R generalizing N with
  | nil => simp
  | cons y R ih =>
    have hs' := List.pairwise_cons.1 hs
    cases N with
    | zero => simp
    | succ N =>
      rw [List.take_succ_cons, List.mem_cons, ih hs'.2, List.mem_cons]
      simp only [List.map_cons, List.toFinset_cons, Finset.filter_insert]
      constructor
      · rintro (rfl | ⟨hx, hc⟩)
        · refine ⟨Or.inl rfl, ?_⟩
          simp only [lt_irrefl, if_false]
          have : (R.map Bucket.timestamp).toFinset.filter (fun y => x.timestamp < y) = ∅ := by
            apply Finset.filter_eq_empty_iff.2
            intro z hz
            simp only [List.mem_toFinset, List.mem_map] at hz
            obtain ⟨w, hw, rfl⟩ := hz
            have := hs'.1 w hw
            omega
          rw [this]; simp
        · refine ⟨Or.inr hx, ?_⟩
          have hlt := hs'.1 x hx
          simp only [hlt, if_true]
          rw [Finset.card_insert_of_notMem]
          · omega
          · simp only [Finset.mem_filter, List.mem_toFinset, List.mem_map, not_and]
            rintro ⟨w, hw, he⟩
            have := hs'.1 w hw
            omega
      · rintro ⟨rfl | hx, hc⟩
        · exact Or.inl rfl
        · right
          refine ⟨hx, ?_⟩
          have hlt := hs'.1 x hx
          simp only [hlt, if_true] at hc
          rw [Finset.card_insert_of_notMem] at hc
          · omega
          · simp only [Finset.mem_filter, List.mem_toFinset, List.mem_map, not_and]
            rintro ⟨w, hw, he⟩
            have := hs'.1 w hw
            omega

/-- Query result in terms of the represented bucket list, for start times that exclude placeholders. -/
theorem Rep.query {N b R c0} (h : Rep N b R c0) (hI : wholeSeconds b.interval ≠ 0) (t s : Int)
    (hs : -1000 < s) :
    ∃ m, b.getBucketCountsSince t s = some m ∧ m.WF ∧
      ∀ k v, m.get? k = some v ↔ ∃ x ∈ R.take N, k = 1000 * x.timestamp ∧ s ≤ k ∧
        x.timestamp ≤ intervalStart (wholeSeconds b.interval) t ∧ v = x.count := by
  refine ⟨_, by rw [getBucketCountsSince, alignTimestamp_eq hI], ?_, ?_⟩
  · rw [foldl_collect]; exact wf_foldl_collectB _ _ _ _ GoMap.wf_nil
  · intro k v
    rw [foldl_collect, h.bucketList, get?_foldl_collectB]
    have hfil : ((R ++ (⟨-1, c0⟩ : Bucket) :: List.replicate N newBucket).take N).filter
        (fun x => decide (secondToMsRate * x.timestamp ≥ s ∧
          x.timestamp ≤ intervalStart (wholeSeconds b.interval) t ∧
          secondToMsRate * x.timestamp = k)) =
        (R.take N).filter (fun x => decide (secondToMsRate * x.timestamp ≥ s ∧
          x.timestamp ≤ intervalStart (wholeSeconds b.interval) t ∧
          secondToMsRate * x.timestamp = k)) := by
      rw [List.take_append, List.filter_append]
      convert List.append_nil _
      rw [List.filter_eq_nil_iff]
      intro x hx
      have hx' := List.mem_of_mem_take hx
      have : x.timestamp = -1 := by
        rcases List.mem_cons.1 hx' with rfl | hx'
        · rfl
        · rw [List.eq_of_mem_replicate hx']; rfl
      simp only [secondToMsRate, this, decide_eq_true_eq]
      omega
    rw [hfil]
    cases hl : ((R.take N).filter (fun x => decide (secondToMsRate * x.timestamp ≥ s ∧
          x.timestamp ≤ intervalStart (wholeSeconds b.interval) t ∧
          secondToMsRate * x.timestamp = k))).getLast? with
    | none =>
      rw [List.getLast?_eq_none_iff, List.filter_eq_nil_iff] at hl
      simp only [GoMap.get?_nil, reduceCtorEq, false_iff]
      rintro ⟨x, hx, hk, hs', hn, -⟩
      exact hl x hx (decide_eq_true (by unfold secondToMsRate; omega))
    | some x =>
      have hx := List.mem_of_getLast? hl
      rw [List.mem_filter] at hx
      obtain ⟨hx1, hx2⟩ := hx
      have hx2 := of_decide_eq_true hx2
      unfold secondToMsRate at hx2
      simp only [Option.some.injEq]
      constructor
      · intro hv
        exact ⟨x, hx1, by omega, by omega, hx2.2.1, hv.symm⟩
      · rintro ⟨y, hy, hk, hs', hn, rfl⟩
        have hxy : x.timestamp = y.timestamp := by omega
        have hsort := h.sorted.sublist (List.take_sublist N R)
        have : x = y := by
          by_contra hne
          have hR : ∀ (L : List Bucket), L.Pairwise (fun x y => y.timestamp < x.timestamp) →
              x ∈ L → y ∈ L → False := by
            intro L
            induction L with
            | nil => simp
            | cons z L ih =>
              intro hp hx hy
              have hp' := List.pairwise_cons.1 hp
              rcases List.mem_cons.1 hx with hx' | hx' <;> rcases List.mem_cons.1 hy with hy' | hy'
              · exact hne (hx'.trans hy'.symm)
              · have := hp'.1 y hy'; rw [← hx'] at this; omega
              · have := hp'.1 x hx'; rw [← hy'] at this; omega
              · exact ih hp'.2 hx' hy'
          exact hR _ hsort hx1 hy
        rw [this]

end BucketCounter
end GoMetrics
