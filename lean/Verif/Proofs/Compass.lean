import Verif.Spec.Compass
import Verif.Proofs.BucketHistory
import Verif.Proofs.FastCompass
/-! # Compass: sequential histories -/
namespace GoMetrics
namespace Compass
open Spec BucketCounter
variable {σ X : Type}

theorem run_snoc (R : Rounding) (S : ReservoirImpl σ X) (c : Compass σ) (h e) :
    run R S c (h ++ [e]) = (step R S (run R S c h) e.1 e.2).state := by simp [run]

/-- `c'` differs from `c` at most in the moving averages, the tick clock and the pending count. -/
structure Frame (c c' : Compass σ) : Prop where
  total : c'.totalCount = c.totalCount
  success : c'.successCount = c.successCount
  errs : c'.errorCodes = c.errorCodes
  adds : c'.addons = c.addons
  start : c'.startTime = c.startTime
  maxErr : c'.maxErrorCodeCount = c.maxErrorCodeCount
  maxAdd : c'.maxAddonCount = c.maxAddonCount
  interval : c'.bucketInterval = c.bucketInterval
  n : c'.numberOfBucket = c.numberOfBucket
  res : c'.reservoir = c.reservoir

theorem Frame.refl (c : Compass σ) : Frame c c := ⟨rfl, rfl, rfl, rfl, rfl, rfl, rfl, rfl, rfl, rfl⟩

theorem Frame.trans {a b c : Compass σ} (h : Frame a b) (g : Frame b c) : Frame a c :=
  ⟨g.total.trans h.total, g.success.trans h.success, g.errs.trans h.errs, g.adds.trans h.adds, g.start.trans h.start,
    g.maxErr.trans h.maxErr, g.maxAdd.trans h.maxAdd, g.interval.trans h.interval, g.n.trans h.n, g.res.trans h.res⟩

theorem frame_iterate (R : Rounding) (k : Nat) (c : Compass σ) : Frame c ((tickOnce R)^[k] c) := by
  induction k generalizing c with
  | zero => exact Frame.refl c
  | succ k ih =>
    rw [Function.iterate_succ_apply]
    have h1 : Frame c (tickOnce R c) := ⟨rfl, rfl, rfl, rfl, rfl, rfl, rfl, rfl, rfl, rfl⟩
    exact h1.trans (ih _)

theorem tick_frame (R : Rounding) (c : Compass σ) (tick : Int) : Frame c (c.tickIfNecessary R tick).state := by
  unfold tickIfNecessary
  by_cases h : c.age tick > tickInterval
  · by_cases h2 : c.bucketInterval = 0
    · simp only [if_pos h, if_pos h2]; exact Frame.refl c
    · simp only [if_pos h, if_neg h2, Res.state_ok]
      have h1 : Frame c { c with lastTick := i64 (tick - (c.age tick).tmod c.bucketInterval) } :=
        ⟨rfl, rfl, rfl, rfl, rfl, rfl, rfl, rfl, rfl, rfl⟩
      exact h1.trans (frame_iterate R _ _)
  · simp only [if_neg h]; exact Frame.refl c

theorem tick_ok (R : Rounding) (c : Compass σ) (tick : Int) (h : c.bucketInterval ≠ 0) :
    c.tickIfNecessary R tick = .ok (c.tickIfNecessary R tick).state := by
  unfold tickIfNecessary
  by_cases h1 : c.age tick > tickInterval
  · simp only [if_pos h1, if_neg h, Res.state_ok]
  · simp only [if_neg h1, Res.state_ok]

theorem wholeSeconds_ne {I : Int} (h : 1000000000 ≤ I) : wholeSeconds I ≠ 0 := by
  unfold wholeSeconds
  rw [Int.tdiv_eq_ediv_of_nonneg (by omega)]
  omega

theorem update_ok (b : BucketCounter) (t : Int) (h : 1000000000 ≤ b.interval) :
    b.update t = .ok (b.update t).state := by
  unfold BucketCounter.update
  rw [updateN_of_align (alignTimestamp_eq (wholeSeconds_ne h))]
  rfl

/-- The reservoir never panics. -/
def Quiet (S : ReservoirImpl σ X) : Prop := ∀ s x d, (S.updateN s x d).panicked = false

theorem Quiet.ok {S : ReservoirImpl σ X} (h : Quiet S) (s : σ) (x : X) (d : Int) :
    S.updateN s x d = .ok (S.updateN s x d).state := by
  have := h s x d
  cases hh : S.updateN s x d with
  | ok s' => rfl
  | panic s' => rw [hh] at this; simp at this

/-- With a non-zero interval, `Update` always counts the event, even if it then panics. -/
theorem update_total (R : Rounding) (S : ReservoirImpl σ X) (c : Compass σ) (env : Env X) (d : Int)
    (hI : c.bucketInterval ≠ 0) :
    (c.update R S env d).state.totalCount = (c.totalCount.update env.tTotal).state ∧
    (c.update R S env d).state.successCount = c.successCount ∧
    (c.update R S env d).state.errorCodes = c.errorCodes ∧
    (c.update R S env d).state.addons = c.addons ∧
    (c.update R S env d).state.startTime = c.startTime ∧
    (c.update R S env d).state.maxErrorCodeCount = c.maxErrorCodeCount ∧
    (c.update R S env d).state.maxAddonCount = c.maxAddonCount ∧
    (c.update R S env d).state.bucketInterval = c.bucketInterval ∧
    (c.update R S env d).state.numberOfBucket = c.numberOfBucket ∧
    (c.update R S env d).state.m1Rate = (c.tickIfNecessary R env.tick).state.m1Rate ∧
    (c.update R S env d).state.m5Rate = (c.tickIfNecessary R env.tick).state.m5Rate ∧
    (c.update R S env d).state.m15Rate = (c.tickIfNecessary R env.tick).state.m15Rate ∧
    (c.update R S env d).state.lastTick = (c.tickIfNecessary R env.tick).state.lastTick := by
  have f := tick_frame R c env.tick
  have hok := tick_ok R c env.tick hI
  unfold update
  rw [hok]
  simp only [Res.andThen, Res.state_ok]
  generalize (c.tickIfNecessary R env.tick).state = c1 at *
  have e : c1.addUncounted.totalCount = c.totalCount := f.total
  rw [e]
  cases hb : c.totalCount.update env.tTotal with
  | ok b =>
    simp only [Res.lift, Res.state_ok]
    cases S.updateN c1.addUncounted.reservoir env.x d <;>
      exact ⟨rfl, f.success, f.errs, f.adds, f.start, f.maxErr, f.maxAdd, f.interval, f.n, rfl, rfl, rfl, rfl⟩
  | panic b =>
    simp only [Res.lift]
    exact ⟨rfl, f.success, f.errs, f.adds, f.start, f.maxErr, f.maxAdd, f.interval, f.n, rfl, rfl, rfl, rfl⟩

/-- With a proper interval and a reservoir that does not panic, `Update` does not panic. -/
theorem update_quiet (R : Rounding) (S : ReservoirImpl σ X) (hS : Quiet S) (c : Compass σ) (env : Env X) (d : Int)
    (hI : c.bucketInterval ≠ 0) (ht : 1000000000 ≤ c.totalCount.interval) :
    c.update R S env d = .ok (c.update R S env d).state := by
  have f := tick_frame R c env.tick
  unfold update
  rw [tick_ok R c env.tick hI]
  simp only [Res.andThen, Res.state_ok]
  generalize (c.tickIfNecessary R env.tick).state = c1 at *
  have e : c1.addUncounted.totalCount = c.totalCount := f.total
  rw [e, update_ok _ _ ht]
  simp only [Res.lift]
  rw [hS.ok]
  rfl

/-! ### First names -/

theorem firstNames_snoc (limit : Int) (l : List String) (s : String) :
    firstNames limit (l ++ [s]) =
      if s ≠ "" ∧ s ∉ firstNames limit l ∧ ((firstNames limit l).length : Int) < limit then firstNames limit l ++ [s]
      else firstNames limit l := by
  unfold firstNames
  rw [List.foldl_append]
  rfl

theorem firstNames_nodup (limit : Int) (l : List String) : (firstNames limit l).Nodup := by
  induction l using List.reverseRecOn with
  | nil => simp [firstNames]
  | append_singleton l s ih =>
    rw [firstNames_snoc]
    split
    · rename_i h
      rw [List.nodup_append]
      refine ⟨ih, by simp, ?_⟩
      intro a ha b hb
      simp at hb
      subst hb
      rintro rfl
      exact h.2.1 ha
    · exact ih

theorem firstNames_length (limit : Int) (l : List String) : ((firstNames limit l).length : Int) ≤ max limit 0 := by
  induction l using List.reverseRecOn with
  | nil => simp [firstNames]
  | append_singleton l s ih =>
    rw [firstNames_snoc]
    split
    · rename_i h
      simp only [List.length_append, List.length_singleton, Nat.cast_add, Nat.cast_one]
      omega
    · exact ih

/-- While there is room, everything seen is admitted. -/
theorem mem_firstNames (limit : Int) (l : List String) (s : String) (hs : s ≠ "") (hm : s ∈ l)
    (hroom : ((firstNames limit l).length : Int) < limit) : s ∈ firstNames limit l := by
  induction l using List.reverseRecOn with
  | nil => simp at hm
  | append_singleton l x ih =>
    rw [firstNames_snoc] at hroom ⊢
    by_cases hx : x ≠ "" ∧ x ∉ firstNames limit l ∧ ((firstNames limit l).length : Int) < limit
    · rw [if_pos hx]
      rcases List.mem_append.1 hm with h | h
      · exact List.mem_append_left _ (ih h hx.2.2)
      · simp at h; subst h; simp
    · rw [if_neg hx] at hroom ⊢
      rcases List.mem_append.1 hm with h | h
      · exact ih h hroom
      · simp at h; subst h
        by_contra hc
        exact hx ⟨hs, hc, hroom⟩

theorem firstNames_subset (limit : Int) (l : List String) (s : String) (h : s ∈ firstNames limit l) :
    s ∈ l ∧ s ≠ "" := by
  induction l using List.reverseRecOn with
  | nil => simp [firstNames] at h
  | append_singleton l x ih =>
    rw [firstNames_snoc] at h
    split at h
    · rename_i hx
      rcases List.mem_append.1 h with h | h
      · exact ⟨List.mem_append_left _ (ih h).1, (ih h).2⟩
      · simp at h; subst h; exact ⟨by simp, hx.1⟩
    · exact ⟨List.mem_append_left _ (ih h).1, (ih h).2⟩

/-! ### Keyed counters -/

/-- The updates of one key, as a history of a bucket counter. -/
def keyOps (ks : List (String × Int)) (k : String) : List (Int × BucketCounter.Op) :=
  (ks.filter (fun e => e.1 = k)).map (fun e => (e.2, .update))

/-- `m` is the map of counters after the keys `ks` (each with the clock reading of its update) reached it. -/
structure Keyed (I : Int) (n : Nat) (limit : Int) (ks : List (String × Int)) (m : GoMap String BucketCounter) : Prop where
  keys : m.keys = firstNames limit (ks.map Prod.fst)
  counters : ∀ k bc, m.get? k = some bc → ∃ t0, bc = BucketCounter.run (BucketCounter.new I n t0 true) (keyOps ks k)

theorem keyed_nil (I n limit) : Keyed I n limit [] [] := ⟨rfl, by simp⟩

theorem Keyed.wf {I n limit ks m} (h : Keyed I n limit ks m) : m.WF := by
  unfold GoMap.WF; rw [h.keys]; exact firstNames_nodup _ _

theorem Keyed.length {I n limit ks m} (h : Keyed I n limit ks m) :
    m.length = (firstNames limit (ks.map Prod.fst)).length := by
  rw [← h.keys]; simp [GoMap.keys]

theorem keyOps_snoc_same (ks : List (String × Int)) (k : String) (t : Int) :
    keyOps (ks ++ [(k, t)]) k = keyOps ks k ++ [(t, .update)] := by
  simp [keyOps, List.filter_append]

theorem keyOps_snoc_ne (ks : List (String × Int)) (k k' : String) (t : Int) (h : k ≠ k') :
    keyOps (ks ++ [(k, t)]) k' = keyOps ks k' := by
  simp [keyOps, List.filter_append, h]

theorem keys_set_of_mem (m : GoMap String BucketCounter) (k v) (h : k ∈ m.keys) : (m.set k v).keys = m.keys := by
  induction m with
  | nil => simp [GoMap.keys] at h
  | cons p t ih =>
    obtain ⟨a, b⟩ := p
    by_cases hk : a = k
    · simp [GoMap.set, GoMap.keys, hk]
    · have hk' : ¬ k = a := fun e => hk e.symm
      simp only [GoMap.keys, List.map_cons, List.mem_cons, hk', false_or] at h
      have := ih h
      simp only [GoMap.set, hk, if_false, GoMap.keys, List.map_cons] at this ⊢
      rw [this]

theorem keys_set_of_not_mem (m : GoMap String BucketCounter) (k v) (h : k ∉ m.keys) :
    (m.set k v).keys = m.keys ++ [k] := by
  induction m with
  | nil => simp [GoMap.set, GoMap.keys]
  | cons p t ih =>
    obtain ⟨a, b⟩ := p
    simp only [GoMap.keys, List.map_cons, List.mem_cons, not_or] at h
    have hk : ¬ a = k := fun e => h.1 e.symm
    have := ih h.2
    simp only [GoMap.set, hk, if_false, GoMap.keys, List.map_cons, List.cons_append] at this ⊢
    rw [this]

/-- One keyed update: it is refused exactly if the key is new and there is no room. -/
theorem keyed_bump {I n limit ks m} (h : Keyed I n limit ks m) (hI : 1000000000 ≤ I) (k : String) (hk : k ≠ "")
    (t0 t : Int) :
    Keyed I n limit (ks ++ [(k, t)]) (bump I n limit m k t0 t).state ∧
      ((bump I n limit m k t0 t).panicked = true ↔ k ∉ firstNames limit ((ks ++ [(k, t)]).map Prod.fst)) := by
  have hmap : (ks ++ [(k, t)]).map Prod.fst = ks.map Prod.fst ++ [k] := by simp
  rw [hmap, firstNames_snoc]
  have hkeys := h.keys
  unfold bump
  cases hg : m.get? k with
  | some bc =>
    have hmem : k ∈ m.keys := (GoMap.mem_keys_iff m k).2 ⟨bc, hg⟩
    have hmem' : k ∈ firstNames limit (ks.map Prod.fst) := by rw [← hkeys]; exact hmem
    obtain ⟨t1, hbc⟩ := h.counters k bc hg
    have hint : bc.interval = I := by rw [hbc, run_interval]; rfl
    simp only
    rw [update_ok bc t (by omega)]
    simp only [Res.lift, Res.state_ok, Res.panicked_ok, hmem', not_true_eq_false, false_and, and_false, if_false,
      Bool.false_eq_true, iff_self, and_true]
    refine ⟨?_, ?_⟩
    · rw [keys_set_of_mem _ _ _ hmem, hkeys, hmap, firstNames_snoc, if_neg (by tauto)]
    · intro k' bc' hg'
      rw [GoMap.get?_set] at hg'
      by_cases hkk : k = k'
      · subst hkk
        simp only [if_true, Option.some.injEq] at hg'
        refine ⟨t1, ?_⟩
        rw [keyOps_snoc_same, run_append, ← hbc, ← hg']; rfl
      · rw [if_neg hkk] at hg'
        rw [keyOps_snoc_ne _ _ _ _ hkk]
        exact h.counters k' bc' hg'
  | none =>
    have hnm : k ∉ m.keys := (GoMap.get?_eq_none_iff m k).1 hg
    have hnm' : k ∉ firstNames limit (ks.map Prod.fst) := by rw [← hkeys]; exact hnm
    simp only
    by_cases hroom : (m.length : Int) < limit
    · have hroom' : ((firstNames limit (ks.map Prod.fst)).length : Int) < limit := by rw [← h.length]; exact hroom
      rw [if_pos hroom, update_ok (BucketCounter.new I n t0 true) t hI]
      have hcond : k ≠ "" ∧ k ∉ firstNames limit (ks.map Prod.fst) ∧
          ((firstNames limit (ks.map Prod.fst)).length : Int) < limit := ⟨hk, hnm', hroom'⟩
      rw [if_pos hcond]
      simp only [Res.lift, Res.state_ok, Res.panicked_ok]
      refine ⟨⟨?_, ?_⟩, by simp⟩
      · rw [keys_set_of_not_mem _ _ _ hnm, hkeys, hmap, firstNames_snoc, if_pos hcond]
      · intro k' bc' hg'
        rw [GoMap.get?_set] at hg'
        by_cases hkk : k = k'
        · subst hkk
          simp only [if_true, Option.some.injEq] at hg'
          have hnone : keyOps ks k = [] := by
            unfold keyOps
            rw [List.map_eq_nil_iff, List.filter_eq_nil_iff]
            intro e he hek
            simp only [decide_eq_true_eq] at hek
            exact hnm' (mem_firstNames limit _ k hk (List.mem_map.2 ⟨e, he, hek⟩) hroom')
          refine ⟨t0, ?_⟩
          rw [keyOps_snoc_same, run_append, hnone, ← hg']; rfl
        · rw [if_neg hkk] at hg'
          rw [keyOps_snoc_ne _ _ _ _ hkk]
          exact h.counters k' bc' hg'
    · have hroom' : ¬ ((firstNames limit (ks.map Prod.fst)).length : Int) < limit := by rw [← h.length]; exact hroom
      rw [if_neg hroom, if_neg (by tauto)]
      simp only [Res.state_panic, Res.panicked_panic, true_iff]
      refine ⟨⟨?_, ?_⟩, hnm'⟩
      · rw [hkeys, hmap, firstNames_snoc, if_neg (by tauto)]
      · intro k' bc' hg'
        have hkk : k ≠ k' := by
          rintro rfl
          rw [hg] at hg'; simp at hg'
        rw [keyOps_snoc_ne _ _ _ _ hkk]
        exact h.counters k' bc' hg'

/-! ### Histories -/

theorem firstNames_filter (limit : Int) (l : List String) : firstNames limit (l.filter (fun s => s ≠ "")) = firstNames limit l := by
  induction l using List.reverseRecOn with
  | nil => rfl
  | append_singleton l s ih =>
    rw [List.filter_append, firstNames_snoc]
    by_cases hs : s = ""
    · have : [s].filter (fun s => decide (s ≠ "")) = [] := by simp [hs]
      rw [this, List.append_nil, ih, if_neg (by simp [hs])]
    · have : [s].filter (fun s => decide (s ≠ "")) = [s] := by simp [hs]
      rw [this, firstNames_snoc, ih]

theorem length_pos_iff (s : String) : s.length > 0 ↔ s ≠ "" := by
  rw [gt_iff_lt, Nat.pos_iff_ne_zero, ne_eq, ne_eq, FastCompass.string_length_eq_zero]

/-- What one call contributes to `labels`. -/
def label : Op → Option (String × String)
  | .updateWithError _ _ code addon => some (code, addon)
  | _ => none

/-- Keys for the error-code map, with the clock readings of their updates. -/
def codeKs (h : List (Env X × Op)) : List (String × Int) := h.filterMap fun e =>
  match label e.2 with
  | some (code, _) => if code ≠ "" then some (code, e.1.tErr) else none
  | none => none

/-- Does the call get past its error code, given the admitted codes? -/
def passes (adm : List String) (code : String) : Bool := decide (code = "" ∨ code ∈ adm)

/-- Keys for the addon map. -/
def addonKs (adm : List String) (h : List (Env X × Op)) : List (String × Int) := h.filterMap fun e =>
  match label e.2 with
  | some (code, addon) => if passes adm code = true ∧ addon ≠ "" then some (addon, e.1.tAddon) else none
  | none => none

theorem labels_eq (h : List (Env X × Op)) : labels h = h.filterMap (fun e => label e.2) := by
  unfold labels label
  rfl

theorem codeKs_fst (h : List (Env X × Op)) :
    (codeKs h).map Prod.fst = ((labels h).map Prod.fst).filter (fun s => s ≠ "") := by
  rw [labels_eq]
  induction h with
  | nil => rfl
  | cons e h ih =>
    unfold codeKs at *
    simp only [List.filterMap_cons]
    cases hl : label e.2 with
    | none => simpa using ih
    | some p =>
      by_cases hp : p.1 = ""
      · simpa [hp] using ih
      · simpa [hp] using ih

theorem codeKs_names (limit : Int) (h : List (Env X × Op)) :
    firstNames limit ((codeKs h).map Prod.fst) = admittedCodes limit h := by
  rw [codeKs_fst, firstNames_filter]; rfl

theorem addonKs_fst (adm : List String) (h : List (Env X × Op)) :
    (addonKs adm h).map Prod.fst =
      (((labels h).filter (fun l => l.1 = "" ∨ l.1 ∈ adm)).map Prod.snd).filter (fun s => s ≠ "") := by
  rw [labels_eq]
  induction h with
  | nil => rfl
  | cons e h ih =>
    unfold addonKs at *
    simp only [List.filterMap_cons]
    cases hl : label e.2 with
    | none => simpa using ih
    | some p =>
      by_cases hp : p.1 = "" ∨ p.1 ∈ adm
      · by_cases ha : p.2 = ""
        · simpa [hp, ha, passes] using ih
        · simpa [hp, ha, passes] using ih
      · simpa [hp, passes] using ih

theorem addonKs_names (limit limit' : Int) (h : List (Env X × Op)) :
    firstNames limit' ((addonKs (admittedCodes limit h) h).map Prod.fst) = admittedAddons limit limit' h := by
  rw [addonKs_fst, firstNames_filter]; rfl

theorem labels_snoc (h : List (Env X × Op)) (e) : labels (h ++ [e]) = labels h ++ (label e.2).toList := by
  rw [labels_eq, labels_eq, List.filterMap_append]
  cases hl : label e.2 <;> simp [hl]

theorem admittedCodes_snoc (limit : Int) (h : List (Env X × Op)) (e) :
    admittedCodes limit (h ++ [e]) =
      match label e.2 with
      | some (code, _) =>
        if code ≠ "" ∧ code ∉ admittedCodes limit h ∧ ((admittedCodes limit h).length : Int) < limit
        then admittedCodes limit h ++ [code] else admittedCodes limit h
      | none => admittedCodes limit h := by
  unfold admittedCodes
  rw [labels_snoc]
  cases hl : label e.2 with
  | none => simp
  | some p =>
    simp only [Option.toList, List.map_append, List.map_cons, List.map_nil]
    rw [firstNames_snoc]

/-- Admission of the codes of a history is settled: a later call does not change it. -/
theorem admitted_stable (limit : Int) (h : List (Env X × Op)) (e) (x : String) (hx : x ∈ (labels h).map Prod.fst) :
    (x = "" ∨ x ∈ admittedCodes limit (h ++ [e])) ↔ (x = "" ∨ x ∈ admittedCodes limit h) := by
  by_cases h0 : x = ""
  · simp [h0]
  · simp only [h0, false_or]
    rw [admittedCodes_snoc]
    cases hl : label e.2 with
    | none => rfl
    | some p =>
      obtain ⟨code, addon⟩ := p
      simp only
      split
      · rename_i hc
        simp only [List.mem_append, List.mem_singleton]
        constructor
        · rintro (h1 | h1)
          · exact h1
          · exact mem_firstNames limit _ x h0 hx hc.2.2
        · exact Or.inl
      · rfl

theorem addonKs_stable (limit : Int) (h : List (Env X × Op)) (e) :
    addonKs (admittedCodes limit (h ++ [e])) h = addonKs (admittedCodes limit h) h := by
  unfold addonKs
  apply List.filterMap_congr
  intro e' he'
  cases hl : label e'.2 with
  | none => rfl
  | some p =>
    have hx : p.1 ∈ (labels h).map Prod.fst := by
      rw [labels_eq]
      exact List.mem_map.2 ⟨p, List.mem_filterMap.2 ⟨e', he', hl⟩, rfl⟩
    have := admitted_stable limit h e p.1 hx
    have hp : passes (admittedCodes limit (h ++ [e])) p.1 = passes (admittedCodes limit h) p.1 := by
      unfold passes; exact decide_eq_decide.2 this
    simp only [hp]

theorem addonKs_snoc (limit : Int) (h : List (Env X × Op)) (e) :
    addonKs (admittedCodes limit (h ++ [e])) (h ++ [e]) =
      addonKs (admittedCodes limit h) h ++ addonKs (admittedCodes limit (h ++ [e])) [e] := by
  rw [← addonKs_stable limit h e]
  simp [addonKs, List.filterMap_append]

/-- The calls of `totalCount.Update()`. -/
def totalOps (h : List (Env X × Op)) : List (Int × BucketCounter.Op) := (records h).map fun e => (e.1.tTotal, .update)

/-- The calls of `successCount.Update()`. -/
def successOps (h : List (Env X × Op)) : List (Int × BucketCounter.Op) := h.filterMap fun e =>
  match e.2 with
  | .updateWithError _ true _ _ => some (e.1.tSuccess, .update)
  | _ => none

/-- What every history keeps, if the bucket interval is not 0. -/
structure Basic (n : Nat) (I maxErr maxAdd : Int) (ne : NewEnv) (h : List (Env X × Op)) (c : Compass σ) : Prop where
  total : c.totalCount = BucketCounter.run (BucketCounter.new I n ne.tTotal true) (totalOps h)
  start : c.startTime = ne.now
  hmaxErr : c.maxErrorCodeCount = maxErr
  hmaxAdd : c.maxAddonCount = maxAdd
  interval : c.bucketInterval = I
  hn : c.numberOfBucket = n

theorem successStep_frame (c : Compass σ) (t s) :
    (c.successStep t s).state.totalCount = c.totalCount ∧ (c.successStep t s).state.startTime = c.startTime ∧
    (c.successStep t s).state.maxErrorCodeCount = c.maxErrorCodeCount ∧
    (c.successStep t s).state.maxAddonCount = c.maxAddonCount ∧
    (c.successStep t s).state.bucketInterval = c.bucketInterval ∧
    (c.successStep t s).state.numberOfBucket = c.numberOfBucket ∧
    (c.successStep t s).state.errorCodes = c.errorCodes ∧
    (c.successStep t s).state.addons = c.addons ∧
    (c.successStep t s).state.m1Rate = c.m1Rate ∧ (c.successStep t s).state.m5Rate = c.m5Rate ∧
    (c.successStep t s).state.m15Rate = c.m15Rate ∧ (c.successStep t s).state.lastTick = c.lastTick := by
  cases s
  · simp [successStep]
  · simp only [successStep, if_true, Res.lift_state, and_self]

theorem errorStep_frame (c : Compass σ) (t0 t s) :
    (c.errorStep t0 t s).state.totalCount = c.totalCount ∧ (c.errorStep t0 t s).state.startTime = c.startTime ∧
    (c.errorStep t0 t s).state.maxErrorCodeCount = c.maxErrorCodeCount ∧
    (c.errorStep t0 t s).state.maxAddonCount = c.maxAddonCount ∧
    (c.errorStep t0 t s).state.bucketInterval = c.bucketInterval ∧
    (c.errorStep t0 t s).state.numberOfBucket = c.numberOfBucket ∧
    (c.errorStep t0 t s).state.successCount = c.successCount ∧
    (c.errorStep t0 t s).state.addons = c.addons ∧
    (c.errorStep t0 t s).state.m1Rate = c.m1Rate ∧ (c.errorStep t0 t s).state.m5Rate = c.m5Rate ∧
    (c.errorStep t0 t s).state.m15Rate = c.m15Rate ∧ (c.errorStep t0 t s).state.lastTick = c.lastTick := by
  unfold errorStep
  by_cases h : s.length > 0
  · simp only [if_pos h, Res.lift_state, and_self]
  · simp only [if_neg h, Res.state_ok, and_self]

theorem addonStep_frame (c : Compass σ) (t0 t s) :
    (c.addonStep t0 t s).state.totalCount = c.totalCount ∧ (c.addonStep t0 t s).state.startTime = c.startTime ∧
    (c.addonStep t0 t s).state.maxErrorCodeCount = c.maxErrorCodeCount ∧
    (c.addonStep t0 t s).state.maxAddonCount = c.maxAddonCount ∧
    (c.addonStep t0 t s).state.bucketInterval = c.bucketInterval ∧
    (c.addonStep t0 t s).state.numberOfBucket = c.numberOfBucket ∧
    (c.addonStep t0 t s).state.successCount = c.successCount ∧
    (c.addonStep t0 t s).state.errorCodes = c.errorCodes ∧
    (c.addonStep t0 t s).state.m1Rate = c.m1Rate ∧ (c.addonStep t0 t s).state.m5Rate = c.m5Rate ∧
    (c.addonStep t0 t s).state.m15Rate = c.m15Rate ∧ (c.addonStep t0 t s).state.lastTick = c.lastTick := by
  unfold addonStep
  by_cases h : s.length > 0
  · simp only [if_pos h, Res.lift_state, and_self]
  · simp only [if_neg h, Res.state_ok, and_self]

/-- A property kept by the later steps of `UpdateWithError` holds after it if it holds after `Update`. -/
theorem updateWithError_of (P : Compass σ → Prop) (R : Rounding) (S : ReservoirImpl σ X) (c : Compass σ) (env : Env X)
    (d : Int) (s : Bool) (code addon : String)
    (h0 : P (c.update R S env d).state)
    (h1 : ∀ c, P c → P (c.successStep env.tSuccess s).state)
    (h2 : ∀ c, P c → P (c.errorStep env.tErrNew env.tErr code).state)
    (h3 : ∀ c, P c → P (c.addonStep env.tAddonNew env.tAddon addon).state) :
    P (c.updateWithError R S env d s code addon).state := by
  unfold updateWithError
  cases e0 : c.update R S env d with
  | panic c0 => rw [e0] at h0; exact h0
  | ok c0 =>
    rw [e0] at h0
    simp only [Res.andThen]
    have h1' := h1 c0 h0
    cases e1 : c0.successStep env.tSuccess s with
    | panic c1 => rw [e1] at h1'; exact h1'
    | ok c1 =>
      rw [e1] at h1'
      simp only
      have h2' := h2 c1 h1'
      cases e2 : c1.errorStep env.tErrNew env.tErr code with
      | panic c2 => rw [e2] at h2'; exact h2'
      | ok c2 =>
        rw [e2] at h2'
        exact h3 c2 h2'

theorem records_snoc (h : List (Env X × Op)) (e) : records (h ++ [e]) = records h ++ records [e] := by
  unfold records; rw [List.filter_append]

theorem basic_run (R : Rounding) (S : ReservoirImpl σ X) (r0 : σ) (n : Nat) (I maxErr maxAdd : Int) (ne : NewEnv)
    (hI : I ≠ 0) (h : List (Env X × Op)) :
    Basic n I maxErr maxAdd ne h (run R S (new r0 n I maxErr maxAdd ne) h) := by
  induction h using List.reverseRecOn with
  | nil => exact ⟨rfl, rfl, rfl, rfl, rfl, rfl⟩
  | append_singleton h e ih =>
    rw [run_snoc]
    generalize run R S (new r0 n I maxErr maxAdd ne) h = c at *
    have hcI : c.bucketInterval ≠ 0 := by rw [ih.interval]; exact hI
    obtain ⟨env, op⟩ := e
    have hupd : ∀ d, ∀ op, records [(env, op)] = [(env, op)] →
        Basic n I maxErr maxAdd ne (h ++ [(env, op)]) (c.update R S env d).state := by
      intro d op hr
      obtain ⟨a1, a2, a3, a4, a5, a6, a7, a8, a9, -⟩ := update_total R S c env d hcI
      refine ⟨?_, a5.trans ih.start, a6.trans ih.hmaxErr, a7.trans ih.hmaxAdd, a8.trans ih.interval, a9.trans ih.hn⟩
      rw [a1, ih.total]
      unfold totalOps
      rw [records_snoc, hr, List.map_append, List.map_cons, List.map_nil, run_append]
      rfl
    cases op with
    | update d => exact hupd d _ rfl
    | readRate =>
      have f := tick_frame R c env.tick
      simp only [step]
      refine ⟨?_, f.start.trans ih.start, f.maxErr.trans ih.hmaxErr, f.maxAdd.trans ih.hmaxAdd,
        f.interval.trans ih.interval, f.n.trans ih.hn⟩
      rw [f.total, ih.total]
      unfold totalOps
      rw [records_snoc]
      simp [records]
    | updateWithError d s code addon =>
      simp only [step]
      apply updateWithError_of (P := Basic n I maxErr maxAdd ne (h ++ [(env, Op.updateWithError d s code addon)]))
      · exact hupd d _ rfl
      · intro c' hc
        obtain ⟨a1, a2, a3, a4, a5, a6, -⟩ := successStep_frame c' env.tSuccess s
        exact ⟨a1.trans hc.total, a2.trans hc.start, a3.trans hc.hmaxErr, a4.trans hc.hmaxAdd, a5.trans hc.interval,
          a6.trans hc.hn⟩
      · intro c' hc
        obtain ⟨a1, a2, a3, a4, a5, a6, -⟩ := errorStep_frame c' env.tErrNew env.tErr code
        exact ⟨a1.trans hc.total, a2.trans hc.start, a3.trans hc.hmaxErr, a4.trans hc.hmaxAdd, a5.trans hc.interval,
          a6.trans hc.hn⟩
      · intro c' hc
        obtain ⟨a1, a2, a3, a4, a5, a6, -⟩ := addonStep_frame c' env.tAddonNew env.tAddon addon
        exact ⟨a1.trans hc.total, a2.trans hc.start, a3.trans hc.hmaxErr, a4.trans hc.hmaxAdd, a5.trans hc.interval,
          a6.trans hc.hn⟩

/-- What every history keeps with a proper interval and a reservoir that never panics. -/
structure Full (n : Nat) (I maxErr maxAdd : Int) (ne : NewEnv) (h : List (Env X × Op)) (c : Compass σ) : Prop
    extends Basic n I maxErr maxAdd ne h c where
  success : c.successCount = BucketCounter.run (BucketCounter.new I n ne.tSuccess true) (successOps h)
  errs : Keyed I n maxErr (codeKs h) c.errorCodes
  adds : Keyed I n maxAdd (addonKs (admittedCodes maxErr h) h) c.addons

theorem successStep_ok (c : Compass σ) (t s) (h : 1000000000 ≤ c.successCount.interval) :
    c.successStep t s = .ok (c.successStep t s).state := by
  cases s
  · rfl
  · simp only [successStep, if_true]
    rw [update_ok _ _ h]
    rfl

theorem full_run (R : Rounding) (S : ReservoirImpl σ X) (hS : Quiet S) (r0 : σ) (n : Nat) (I maxErr maxAdd : Int)
    (ne : NewEnv) (hI : 1000000000 ≤ I) (h : List (Env X × Op)) :
    Full n I maxErr maxAdd ne h (run R S (new r0 n I maxErr maxAdd ne) h) ∧
    ∀ e, (step R S (run R S (new r0 n I maxErr maxAdd ne) h) e.1 e.2).panicked = true ↔
      ∃ d s code addon, e.2 = .updateWithError d s code addon ∧
        ((code ≠ "" ∧ code ∉ admittedCodes maxErr (h ++ [e])) ∨
         ((code = "" ∨ code ∈ admittedCodes maxErr (h ++ [e])) ∧ addon ≠ "" ∧
            addon ∉ admittedAddons maxErr maxAdd (h ++ [e]))) := by
  have hI0 : I ≠ 0 := by omega
  -- one call from a state satisfying `Full`
  have hstep : ∀ (h : List (Env X × Op)) (c : Compass σ), Full n I maxErr maxAdd ne h c → ∀ e,
      (Basic n I maxErr maxAdd ne (h ++ [e]) (step R S c e.1 e.2).state →
        Full n I maxErr maxAdd ne (h ++ [e]) (step R S c e.1 e.2).state) ∧
      ((step R S c e.1 e.2).panicked = true ↔
      ∃ d s code addon, e.2 = .updateWithError d s code addon ∧
        ((code ≠ "" ∧ code ∉ admittedCodes maxErr (h ++ [e])) ∨
         ((code = "" ∨ code ∈ admittedCodes maxErr (h ++ [e])) ∧ addon ≠ "" ∧
            addon ∉ admittedAddons maxErr maxAdd (h ++ [e])))) := by
    intro h c ih e
    have hcI : c.bucketInterval ≠ 0 := by rw [ih.interval]; exact hI0
    have htI : 1000000000 ≤ c.totalCount.interval := by rw [ih.total, run_interval]; exact hI
    obtain ⟨env, op⟩ := e
    have hcodes : codeKs (h ++ [(env, op)]) = codeKs h ++ codeKs [(env, op)] := by
      simp [codeKs, List.filterMap_append]
    have hsucc : successOps (h ++ [(env, op)]) = successOps h ++ successOps [(env, op)] := by
      simp [successOps, List.filterMap_append]
    have hadd := addonKs_snoc maxErr h (env, op)
    -- calls without labels
    have hplain : ∀ c' : Compass σ, label op = none → successOps [(env, op)] = [] →
        c'.successCount = c.successCount → c'.errorCodes = c.errorCodes → c'.addons = c.addons →
        Basic n I maxErr maxAdd ne (h ++ [(env, op)]) c' → Full n I maxErr maxAdd ne (h ++ [(env, op)]) c' := by
      intro c' hl hso e1 e2 e3 hb
      refine ⟨hb, ?_, ?_, ?_⟩
      · rw [e1, ih.success, hsucc, hso, List.append_nil]
      · rw [e2, hcodes]; simpa [codeKs, hl] using ih.errs
      · rw [e3, hadd]; simpa [addonKs, hl] using ih.adds
    cases op with
    | update d =>
      obtain ⟨a1, a2, a3, a4, -⟩ := update_total R S c env d hcI
      refine ⟨hplain _ rfl rfl a2 a3 a4, ?_⟩
      simp only [step]
      rw [update_quiet R S hS c env d hcI htI]
      simp
    | readRate =>
      have f := tick_frame R c env.tick
      refine ⟨hplain _ rfl rfl f.success f.errs f.adds, ?_⟩
      simp only [step]
      rw [tick_ok R c env.tick hcI]
      simp
    | updateWithError d s code addon =>
      obtain ⟨a1, a2, a3, a4, a5, a6, a7, a8, a9, -⟩ := update_total R S c env d hcI
      have hu := update_quiet R S hS c env d hcI htI
      simp only [step]
      unfold updateWithError
      rw [hu]
      simp only [Res.andThen]
      generalize (c.update R S env d).state = c0 at *
      have hs0 : 1000000000 ≤ c0.successCount.interval := by rw [a2, ih.success, run_interval]; exact hI
      obtain ⟨b1, b2, b3, b4, b5, b6, b7, b8, -⟩ := successStep_frame c0 env.tSuccess s
      have hsuccess : (c0.successStep env.tSuccess s).state.successCount =
          BucketCounter.run (BucketCounter.new I n ne.tSuccess true)
            (successOps (h ++ [(env, Op.updateWithError d s code addon)])) := by
        rw [hsucc]
        cases s
        · simp only [successStep, Bool.false_eq_true, if_false, Res.state_ok]
          rw [a2, ih.success]
          simp [successOps]
        · simp only [successStep, if_true, Res.lift_state]
          rw [a2, ih.success]
          simp only [successOps, List.filterMap_cons, List.filterMap_nil]
          rw [run_append]
          rfl
      rw [successStep_ok c0 env.tSuccess s hs0]
      simp only
      generalize (c0.successStep env.tSuccess s).state = c1 at *
      have herr1 : Keyed I n maxErr (codeKs h) c1.errorCodes := by rw [b7, a3]; exact ih.errs
      have hadd1 : Keyed I n maxAdd (addonKs (admittedCodes maxErr h) h) c1.addons := by rw [b8, a4]; exact ih.adds
      have i1 : c1.bucketInterval = I := b5.trans (a8.trans ih.interval)
      have n1 : c1.numberOfBucket = n := b6.trans (a9.trans ih.hn)
      have me1 : c1.maxErrorCodeCount = maxErr := b3.trans (a6.trans ih.hmaxErr)
      have ma1 : c1.maxAddonCount = maxAdd := b4.trans (a7.trans ih.hmaxAdd)
      -- the error step
      have hE : Keyed I n maxErr (codeKs (h ++ [(env, Op.updateWithError d s code addon)]))
            (c1.errorStep env.tErrNew env.tErr code).state.errorCodes ∧
          ((c1.errorStep env.tErrNew env.tErr code).panicked = true ↔
            (code ≠ "" ∧ code ∉ admittedCodes maxErr (h ++ [(env, Op.updateWithError d s code addon)]))) := by
        rw [← codeKs_names, hcodes]
        by_cases hc : code = ""
        · have hl : ¬ code.length > 0 := by rw [length_pos_iff]; simp [hc]
          simp only [errorStep, if_neg hl, Res.state_ok, Res.panicked_ok]
          refine ⟨?_, by simp [hc]⟩
          simpa [codeKs, label, hc] using herr1
        · have hl : code.length > 0 := by rw [length_pos_iff]; exact hc
          simp only [errorStep, if_pos hl, Res.lift_state, Res.lift_panicked]
          rw [i1, n1, me1]
          have hk : codeKs [(env, Op.updateWithError d s code addon)] = [(code, env.tErr)] := by
            simp [codeKs, label, hc]
          rw [hk]
          have := keyed_bump herr1 hI code hc env.tErrNew env.tErr
          exact ⟨this.1, this.2.trans ⟨fun x => ⟨hc, x⟩, fun x => x.2⟩⟩
      obtain ⟨g1, g2, g3, g4, g5, g6, g7, g8, -⟩ := errorStep_frame c1 env.tErrNew env.tErr code
      cases he : c1.errorStep env.tErrNew env.tErr code with
      | panic c2 =>
        rw [he] at hE g1 g2 g3 g4 g5 g6 g7 g8
        simp only [Res.state_panic, Res.panicked_panic, true_iff] at hE g1 g2 g3 g4 g5 g6 g7 g8 ⊢
        refine ⟨fun hb => ⟨hb, ?_, hE.1, ?_⟩, ?_⟩
        · rw [g7]; exact hsuccess
        · rw [g8, hadd]
          have : addonKs (admittedCodes maxErr (h ++ [(env, Op.updateWithError d s code addon)]))
              [(env, Op.updateWithError d s code addon)] = [] := by
            have hp : passes (admittedCodes maxErr (h ++ [(env, Op.updateWithError d s code addon)])) code = false := by
              simp only [passes, decide_eq_false_iff_not, not_or]; exact hE.2
            simp [addonKs, label, hp]
          rw [this, List.append_nil]; exact hadd1
        · exact ⟨d, s, code, addon, rfl, Or.inl hE.2⟩
      | ok c2 =>
        rw [he] at hE g1 g2 g3 g4 g5 g6 g7 g8
        simp only [Res.state_ok, Res.panicked_ok, Bool.false_eq_true, false_iff] at hE g1 g2 g3 g4 g5 g6 g7 g8 ⊢
        have hpass : code = "" ∨ code ∈ admittedCodes maxErr (h ++ [(env, Op.updateWithError d s code addon)]) := by
          by_contra hcon
          push Not at hcon
          exact hE.2 hcon
        have hadd2 : Keyed I n maxAdd (addonKs (admittedCodes maxErr h) h) c2.addons := by rw [g8]; exact hadd1
        have hA : Keyed I n maxAdd (addonKs (admittedCodes maxErr (h ++ [(env, Op.updateWithError d s code addon)]))
              (h ++ [(env, Op.updateWithError d s code addon)])) (c2.addonStep env.tAddonNew env.tAddon addon).state.addons ∧
            ((c2.addonStep env.tAddonNew env.tAddon addon).panicked = true ↔
              (addon ≠ "" ∧ addon ∉ admittedAddons maxErr maxAdd (h ++ [(env, Op.updateWithError d s code addon)]))) := by
          rw [← addonKs_names, hadd]
          by_cases hc : addon = ""
          · have hl : ¬ addon.length > 0 := by rw [length_pos_iff]; simp [hc]
            simp only [addonStep, if_neg hl, Res.state_ok, Res.panicked_ok]
            refine ⟨?_, by simp [hc]⟩
            have hk : addonKs (admittedCodes maxErr (h ++ [(env, Op.updateWithError d s code addon)]))
                [(env, Op.updateWithError d s code addon)] = [] := by simp [addonKs, label, hc]
            rw [hk, List.append_nil]; exact hadd2
          · have hl : addon.length > 0 := by rw [length_pos_iff]; exact hc
            simp only [addonStep, if_pos hl, Res.lift_state, Res.lift_panicked]
            rw [g5, g6, g4, i1, n1, ma1]
            have hp : passes (admittedCodes maxErr (h ++ [(env, Op.updateWithError d s code addon)])) code = true := by
              simp only [passes, decide_eq_true_eq]; exact hpass
            have hk : addonKs (admittedCodes maxErr (h ++ [(env, Op.updateWithError d s code addon)]))
                [(env, Op.updateWithError d s code addon)] = [(addon, env.tAddon)] := by
              simp [addonKs, label, hc, hp]
            rw [hk]
            have := keyed_bump hadd2 hI addon hc env.tAddonNew env.tAddon
            exact ⟨this.1, this.2.trans ⟨fun x => ⟨hc, x⟩, fun x => x.2⟩⟩
        obtain ⟨k1, k2, k3, k4, k5, k6, k7, k8, -⟩ := addonStep_frame c2 env.tAddonNew env.tAddon addon
        refine ⟨fun hb => ⟨hb, ?_, ?_, hA.1⟩, ?_⟩
        · rw [k7, g7]; exact hsuccess
        · rw [k8]; exact hE.1
        · rw [hA.2]
          constructor
          · intro hx; exact ⟨d, s, code, addon, rfl, Or.inr ⟨hpass, hx⟩⟩
          · rintro ⟨d', s', code', addon', heq, hx⟩
            simp only [Op.updateWithError.injEq] at heq
            obtain ⟨rfl, rfl, rfl, rfl⟩ := heq
            rcases hx with hx | hx
            · exact absurd hx hE.2
            · exact hx.2
  have hfull : Full n I maxErr maxAdd ne h (run R S (new r0 n I maxErr maxAdd ne) h) := by
    induction h using List.reverseRecOn with
    | nil => exact ⟨⟨rfl, rfl, rfl, rfl, rfl, rfl⟩, rfl, keyed_nil _ _ _, keyed_nil _ _ _⟩
    | append_singleton h e ih =>
      have hb := basic_run R S r0 n I maxErr maxAdd ne hI0 (h ++ [e])
      rw [run_snoc] at hb ⊢
      exact (hstep h _ ih e).1 hb
  exact ⟨hfull, fun e => (hstep h _ hfull e).2⟩

end Compass
end GoMetrics
