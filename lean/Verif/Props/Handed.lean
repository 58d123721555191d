import Verif.Model.Handed
import Verif.Proofs.RegistryLimit
import Verif.Proofs.RegistrySeq
/-! # C102 — what callers change by writing to what they were given: the registry -/
namespace GoMetrics
namespace Handed
open Registry

theorem get?_map {κ α β : Type} [DecidableEq κ] (f : α → β) (m : GoMap κ α) (k : κ) :
    GoMap.get? (m.map fun e => (e.1, f e.2)) k = (m.get? k).map f := by
  induction m with
  | nil => rfl
  | cons e m ih =>
    obtain ⟨a, v⟩ := e
    simp only [List.map_cons, GoMap.get?]
    by_cases h : a = k <;> simp [h, ih]

theorem set_map {κ α β : Type} [DecidableEq κ] (f : α → β) (m : GoMap κ α) (k : κ) (v : α) :
    GoMap.set (m.map fun e => (e.1, f e.2)) k (f v) = (m.set k v).map fun e => (e.1, f e.2) := by
  induction m with
  | nil => rfl
  | cons e m ih =>
    obtain ⟨a, u⟩ := e
    simp only [List.map_cons, GoMap.set]
    by_cases h : a = k <;> simp [h, ih]

/-- The registry's entries by value. -/
def World.content (w : World) : GoMap GoStr Entry := w.metricsMap.map fun e => (e.1, w.entry e.2)

theorem content_get? (w : World) (k : GoStr) : w.content.get? k = (w.metricsMap.get? k).map w.entry := get?_map _ _ _

/-- What stays true whatever the program does: pointers are valid, different keys have different entries, and a map that was handed out refers to
entries of the registry only under their own key. -/
structure Inv (w : World) : Prop where
  wf : w.metricsMap.WF
  valid : ∀ k p, w.metricsMap.get? k = some p → p < w.entries.length
  inj : ∀ k k' p, w.metricsMap.get? k = some p → w.metricsMap.get? k' = some p → k = k'
  held : ∀ (r : Nat) (m : GoMap GoStr Nat), w.results[r]? = some m → m.WF ∧ ∀ k p, m.get? k = some p →
    p < w.entries.length ∧ ∀ k', w.metricsMap.get? k' = some p → k' = k

theorem foldl_set_filter (f : Nat → Bool) (l : GoMap GoStr Nat) (acc : GoMap GoStr Nat) (hw : GoMap.WF (acc ++ l)) :
    l.foldl (fun res e => if f e.2 then GoMap.set res e.1 e.2 else res) acc = acc ++ l.filter fun e => f e.2 := by
  induction l generalizing acc with
  | nil => simp
  | cons a l ih =>
    simp only [List.foldl_cons]
    by_cases hf : f a.2 = true
    · have hset : GoMap.set acc a.1 a.2 = acc ++ [a] := by
        have hn : a.1 ∉ GoMap.keys acc := by
          simp only [GoMap.WF, GoMap.keys, List.map_append, List.map_cons, List.nodup_append] at hw
          intro hm
          exact hw.2.2 _ hm _ (by simp) rfl
        clear ih hw
        induction acc with
        | nil => rfl
        | cons b acc ih2 =>
          simp only [GoMap.keys, List.map_cons, List.mem_cons, not_or] at hn
          have hb : ¬ b.1 = a.1 := fun e => hn.1 e.symm
          obtain ⟨b1, b2⟩ := b
          simp only [GoMap.set, hb, if_false, List.cons_append]
          rw [ih2 hn.2]
      rw [if_pos hf, hset, ih _ (by simpa using hw)]
      simp [hf]
    · rw [if_neg hf, ih]
      · simp [hf]
      · simp only [GoMap.WF, GoMap.keys, List.map_append, List.map_cons] at hw ⊢
        refine hw.sublist ?_
        exact List.Sublist.append_left (List.sublist_cons_self _ _) _

theorem wf_filter {κ α : Type} [DecidableEq κ] {m : GoMap κ α} (hw : m.WF) (f : κ × α → Bool) : GoMap.WF (m.filter f) := by
  unfold GoMap.WF GoMap.keys at *
  exact hw.sublist (List.Sublist.map _ List.filter_sublist)

theorem get?_filter {κ α : Type} [DecidableEq κ] {m : GoMap κ α} (hw : m.WF) (f : κ × α → Bool) (k : κ) (v : α) :
    GoMap.get? (m.filter f) k = some v ↔ m.get? k = some v ∧ f (k, v) = true := by
  rw [← GoMap.mem_iff_get? (wf_filter hw f), ← GoMap.mem_iff_get? hw, List.mem_filter]

theorem enumerate_results (w : World) (hw : w.metricsMap.WF) (f : Entry → Bool) :
    (enumerate w f).results = w.results ++ [w.metricsMap.filter fun e => f (w.entry e.2)] := by
  unfold enumerate
  rw [foldl_set_filter (fun p => f (w.entry p)) w.metricsMap [] (by simpa using hw)]
  simp

theorem entry_append (w : World) (e : Entry) (p : Nat) (hp : p < w.entries.length) :
    ((w.entries ++ [e])[p]?).getD ⟨⟨0, [], 0⟩, .nop .compass⟩ = w.entry p := by
  unfold World.entry
  rw [List.getElem?_append_left hp]

theorem inv_new (L : Int) : Inv (newRegistry L) :=
  ⟨GoMap.wf_nil, fun _ _ h => by simp [newRegistry] at h, fun _ _ _ h => by simp [newRegistry] at h,
    fun _ _ h => by simp [newRegistry] at h⟩

theorem inv_act (w : World) (a : Act) (H : Inv w) : Inv (act w a) := by
  cases a with
  | lookup k name =>
    simp only [act, lookup]
    cases hg : w.metricsMap.get? name.hash with
    | some p => exact H
    | none =>
      refine ⟨GoMap.wf_set H.wf _ _, ?_, ?_, ?_⟩
      · intro k p hp
        simp only [GoMap.get?_set, List.length_append, List.length_cons, List.length_nil] at hp ⊢
        by_cases hk : name.hash = k
        · rw [if_pos hk] at hp; cases hp; omega
        · rw [if_neg hk] at hp; have := H.valid _ _ hp; omega
      · intro k k' p hp hp'
        simp only [GoMap.get?_set] at hp hp'
        by_cases hk : name.hash = k <;> by_cases hk' : name.hash = k'
        · rw [← hk, ← hk']
        · rw [if_pos hk] at hp; rw [if_neg hk'] at hp'; cases hp; have := H.valid _ _ hp'; omega
        · rw [if_neg hk] at hp; rw [if_pos hk'] at hp'; cases hp'; have := H.valid _ _ hp; omega
        · rw [if_neg hk] at hp; rw [if_neg hk'] at hp'; exact H.inj _ _ _ hp hp'
      · intro r m hm
        obtain ⟨h1, h2⟩ := H.held r m hm
        refine ⟨h1, fun k p hp => ?_⟩
        obtain ⟨h3, h4⟩ := h2 k p hp
        refine ⟨by simp only [List.length_append]; omega, fun k' hk' => ?_⟩
        simp only [GoMap.get?_set] at hk'
        by_cases hk : name.hash = k'
        · rw [if_pos hk] at hk'; cases hk'; omega
        · rw [if_neg hk] at hk'; exact h4 _ hk'
  | enumerate k =>
    refine ⟨H.wf, H.valid, H.inj, ?_⟩
    intro r m hm
    simp only [act] at hm
    rw [enumerate_results w H.wf] at hm
    show m.WF ∧ ∀ k p, m.get? k = some p → p < w.entries.length ∧ ∀ k', w.metricsMap.get? k' = some p → k' = k
    by_cases hr : r < w.results.length
    · rw [List.getElem?_append_left hr] at hm
      exact H.held r m hm
    · rw [List.getElem?_append_right (by omega)] at hm
      have hm0 : m = w.metricsMap.filter fun e => filterOf k (w.entry e.2) := by
        cases hi : r - w.results.length with
        | zero => rw [hi] at hm; simpa using hm.symm
        | succ n => rw [hi] at hm; simp at hm
      subst hm0
      refine ⟨wf_filter H.wf _, fun k p hp => ?_⟩
      rw [get?_filter H.wf] at hp
      exact ⟨H.valid _ _ hp.1, fun k' hk' => H.inj _ _ _ hk' hp.1⟩
  | put r key name mt =>
    simp only [act]
    refine ⟨H.wf, ?_, H.inj, ?_⟩
    · intro k p hp; have := H.valid k p hp; simp only [List.length_append]; omega
    · intro r' m hm
      simp only [List.getElem?_modify] at hm
      by_cases hr : r = r'
      · subst hr
        cases hres : w.results[r]? with
        | none => rw [hres] at hm; simp at hm
        | some m0 =>
          rw [hres] at hm
          simp only [if_true, Option.map_eq_map, Option.map_some, Option.some.injEq] at hm
          subst hm
          obtain ⟨h1, h2⟩ := H.held r m0 hres
          refine ⟨GoMap.wf_set h1 _ _, fun k p hp => ?_⟩
          simp only [GoMap.get?_set] at hp
          by_cases hk : key = k
          · rw [if_pos hk] at hp; cases hp
            refine ⟨by simp, fun k' hk' => ?_⟩
            have := H.valid _ _ hk'; omega
          · rw [if_neg hk] at hp
            obtain ⟨h3, h4⟩ := h2 k p hp
            exact ⟨by simp only [List.length_append]; omega, h4⟩
      · simp only [hr, if_false, Option.map_eq_map] at hm
        have hm' : w.results[r']? = some m := by simpa using hm
        obtain ⟨h1, h2⟩ := H.held r' m hm'
        refine ⟨h1, fun k p hp => ?_⟩
        obtain ⟨h3, h4⟩ := h2 k p hp
        exact ⟨by simp only [List.length_append]; omega, h4⟩
  | remove r key =>
    simp only [act]
    refine ⟨H.wf, H.valid, H.inj, ?_⟩
    intro r' m hm
    simp only [List.getElem?_modify] at hm
    by_cases hr : r = r'
    · subst hr
      cases hres : w.results[r]? with
      | none => rw [hres] at hm; simp at hm
      | some m0 =>
        rw [hres] at hm
        simp only [if_true, Option.map_eq_map, Option.map_some, Option.some.injEq] at hm
        subst hm
        obtain ⟨h1, h2⟩ := H.held r m0 hres
        refine ⟨wf_filter h1 _, fun k p hp => ?_⟩
        rw [get?_filter h1] at hp
        exact h2 k p hp.1
    · simp only [hr, if_false, Option.map_eq_map] at hm
      have hm' : w.results[r']? = some m := by simpa using hm
      exact H.held r' m hm'
  | assign r key mt =>
    simp only [act]
    cases hat : w.at r key with
    | none => exact H
    | some p =>
      refine ⟨H.wf, ?_, H.inj, ?_⟩
      · intro k p hp; have := H.valid k p hp; simpa using this
      · intro r' m hm
        obtain ⟨h1, h2⟩ := H.held r' m hm
        refine ⟨h1, fun k p hp => ?_⟩
        obtain ⟨h3, h4⟩ := h2 k p hp
        exact ⟨by simpa using h3, h4⟩

theorem inv_run (L : Int) (h : List Act) : Inv (run (newRegistry L) h) := by
  induction h using List.reverseRecOn with
  | nil => exact inv_new L
  | append_singleton h a ih =>
    unfold run at ih ⊢
    rw [List.foldl_append]
    exact inv_act _ a ih

/-- A lookup in terms of the registry's content. -/
theorem lookup_result (w : World) (k : Kind) (name : Name) : (lookup w k name).2 =
    match w.content.get? name.hash with
    | some e => if e.metric.kind = k then some e.metric else none
    | none => some (if w.metricsCount ≥ w.maxMetricCount then .nop k else creator k name.level w.fresh) := by
  rw [content_get?]
  unfold lookup
  cases w.metricsMap.get? name.hash <;> rfl

/-- What an assignment through a handed-out map does to the registry. -/
theorem content_assign (w : World) (H : Inv w) (r : Nat) (key : GoStr) (m : Metric) (k : GoStr) :
    (act w (.assign r key m)).content.get? k =
      if k = key ∧ w.metricsMap.get? k = w.at r key then (w.content.get? k).map (fun e => { e with metric := m }) else w.content.get? k := by
  rw [content_get?, content_get?]
  simp only [act]
  cases hat : w.at r key with
  | none =>
    simp only []
    by_cases hc : k = key ∧ w.metricsMap.get? k = none
    · rw [if_pos hc, hc.2]; rfl
    · rw [if_neg hc]
  | some p =>
    simp only []
    obtain ⟨res, hres, hp⟩ : ∃ res, w.results[r]? = some res ∧ res.get? key = some p := by
      unfold World.at at hat
      cases hr : w.results[r]? with
      | none => rw [hr] at hat; simp at hat
      | some res => rw [hr] at hat; exact ⟨res, rfl, by simpa using hat⟩
    obtain ⟨-, h2⟩ := H.held r res hres
    obtain ⟨h3, h4⟩ := h2 key p hp
    cases hg : w.metricsMap.get? k with
    | none => simp
    | some q =>
      by_cases hq : q = p
      · subst hq
        rw [if_pos ⟨h4 k hg, rfl⟩]
        simp only [Option.map_some, Option.some.injEq]
        unfold World.entry
        simp only [List.getElem?_modify, if_true]
        rw [List.getElem?_eq_getElem h3]; rfl
      · rw [if_neg (by rintro ⟨-, hh⟩; exact hq (Option.some.inj hh))]
        simp only [Option.map_some, Option.some.injEq]
        unfold World.entry
        simp only [List.getElem?_modify, if_neg (fun e => hq (Eq.symm e)), Option.map_eq_map, Option.map_id']

theorem assign_frame (w : World) (r : Nat) (key : GoStr) (m : Metric) : (act w (.assign r key m)).metricsCount = w.metricsCount ∧
    (act w (.assign r key m)).maxMetricCount = w.maxMetricCount ∧ (act w (.assign r key m)).fresh = w.fresh := by
  simp only [act]
  cases w.at r key <;> exact ⟨rfl, rfl, rfl⟩

theorem run_append (w : World) (h g : List Act) : run w (h ++ g) = run (run w h) g := by unfold run; rw [List.foldl_append]

/-- The lookups of a history, as calls of the registry model. -/
def calls (h : List Act) : List Call := h.filterMap fun
  | .lookup k name => some (.lookup ⟨.direct 0, k, name⟩)
  | _ => none

/-- Does nobody assign to an entry? -/
def NoAssignment (h : List Act) : Prop := ∀ a ∈ h, ∀ r key m, a ≠ .assign r key m

theorem sim_run (L : Int) (h : List Act) (hn : NoAssignment h) :
    let w := run (newRegistry L) h
    let s := runSeq (initial [L]) (calls h)
    (s.regs 0).metricsMap = w.content ∧ (s.regs 0).metricsCount = w.metricsCount ∧ (s.regs 0).maxMetricCount = w.maxMetricCount ∧
      s.fresh = w.fresh := by
  induction h using List.reverseRecOn with
  | nil => exact ⟨rfl, rfl, rfl, rfl⟩
  | append_singleton h a ih =>
    have ih := ih fun a ha => hn a (List.mem_append_left _ ha)
    have H := inv_run L h
    have hcalls : runSeq (initial [L]) (calls (h ++ [a])) = runSeq (runSeq (initial [L]) (calls h)) (calls [a]) := by
      unfold runSeq calls; rw [List.filterMap_append, List.foldl_append]
    rw [hcalls, run_append]
    generalize run (newRegistry L) h = w at *
    generalize runSeq (initial [L]) (calls h) = s at *
    obtain ⟨h1, h2, h3, h4⟩ := ih
    cases a with
    | lookup k name =>
      have e1 : runSeq s (calls [.lookup k name]) = (getOn s ⟨.direct 0, k, name⟩ 0).1 := by
        show (exec s (.lookup ⟨.direct 0, k, name⟩)).1 = _
        rw [exec_direct s ⟨.direct 0, k, name⟩ 0 rfl]
      have e2 : run w [.lookup k name] = (lookup w k name).1 := rfl
      rw [e1, e2]
      unfold getOn lookup
      rw [h1, content_get?]
      cases hg : w.metricsMap.get? name.hash with
      | some p => exact ⟨h1, h2, h3, h4⟩
      | none =>
        refine ⟨?_, ?_, ?_, ?_⟩
        · simp only [Option.map_none, setReg_self, h2, h3, h4]
          show GoMap.set w.content name.hash _ = List.map _ _
          have hc : ∀ (e : Entry), w.content = w.metricsMap.map fun x => (x.1, ((w.entries ++ [e])[x.2]?).getD ⟨⟨0, [], 0⟩, .nop .compass⟩) := by
            intro e
            unfold World.content
            apply List.map_congr_left
            rintro ⟨kk, pp⟩ hm
            simp only
            rw [entry_append w e pp (H.valid kk pp (GoMap.get?_of_mem H.wf hm))]
          generalize hm : (⟨name, _⟩ : Entry) = e
          rw [hc e]
          have := set_map (fun p => ((w.entries ++ [e])[p]?).getD ⟨⟨0, [], 0⟩, .nop .compass⟩) w.metricsMap name.hash w.entries.length
          simp only [List.getElem?_append_right (Nat.le_refl w.entries.length), Nat.sub_self, List.getElem?_cons_zero, Option.getD_some] at this
          rw [this]
          rw [← hm]
          rfl
        · simp only [Option.map_none, setReg_self, h2]
        · simp only [Option.map_none, setReg_self, h3]
        · simp only [Option.map_none, h4]; rfl
    | enumerate k => exact ⟨h1, h2, h3, h4⟩
    | put r key n m =>
      refine ⟨?_, h2, h3, h4⟩
      show (s.regs 0).metricsMap = _
      rw [h1]
      show w.metricsMap.map _ = w.metricsMap.map _
      apply List.map_congr_left
      rintro ⟨kk, pp⟩ hm
      exact congrArg (Prod.mk kk) (entry_append w _ pp (H.valid kk pp (GoMap.get?_of_mem H.wf hm))).symm
    | remove r key => exact ⟨h1, h2, h3, h4⟩
    | assign r key m => exact absurd rfl (hn _ (by simp) r key m)

end Handed

open Handed Registry

/-- **C102.** As long as nobody assigns to an entry, callers who write to the maps they were given - add, replace, remove keys - change nothing: every lookup gives
what the same lookups alone give in the registry of C32-C38. -/
theorem C102_maps_are_copies (L : Int) (h : List Act) (hn : NoAssignment h) (k : Kind) (name : Name) :
    (lookup (Handed.run (newRegistry L) h) k name).2 =
      (exec (runSeq (initial [L]) (calls h)) (.lookup ⟨.direct 0, k, name⟩)).2.result := by
  obtain ⟨h1, h2, h3, h4⟩ := sim_run L h hn
  rw [exec_direct _ _ 0 rfl, lookup_result]
  unfold getOn
  rw [h1]
  cases hg : (Handed.run (newRegistry L) h).content.get? name.hash with
  | none => simp only [h2, h3, h4]; rfl
  | some e => simp only []; split <;> rfl

/-- A map is emptied and filled with something else; the lookup still gives the first metric made. -/
example : NoAssignment [.lookup .compass ⟨0, [1], 2⟩, .enumerate none, .remove 0 [1], .put 0 [1] ⟨0, [9], 2⟩ (.nop .fast)] ∧
    (lookup (Handed.run (newRegistry 5) [.lookup .compass ⟨0, [1], 2⟩, .enumerate none, .remove 0 [1], .put 0 [1] ⟨0, [9], 2⟩ (.nop .fast)])
      .compass ⟨0, [1], 2⟩).2 = some (creator .compass 2 0) := by
  refine ⟨?_, rfl⟩
  intro a ha r key m h
  subst h
  simp at ha

/-- **C102.** Nor do they change what the next enumeration returns: the entries of the registry of C32-C38, all (`GetMetrics`) or those of one kind. -/
theorem C102_enumerations (L : Int) (h : List Act) (hn : NoAssignment h) (k : Option Kind) :
    let w := act (Handed.run (newRegistry L) h) (.enumerate k)
    ∃ m : GoMap GoStr Nat, w.results[(Handed.run (newRegistry L) h).results.length]? = some m ∧ ∀ key e,
      (∃ p, m.get? key = some p ∧ w.entries[p]? = some e) ↔
        ((runSeq (initial [L]) (calls h)).regs 0).metricsMap.get? key = some e ∧ ∀ k', k = some k' → e.metric.kind = k' := by
  have H := inv_run L h
  obtain ⟨h1, -, -, -⟩ := sim_run L h hn
  rw [h1]
  clear h1
  generalize Handed.run (newRegistry L) h = w0 at *
  intro w
  have hent : ∀ p, p < w0.entries.length → ∀ e, w0.entries[p]? = some e ↔ w0.entry p = e := by
    intro p hp e
    unfold World.entry
    rw [List.getElem?_eq_getElem hp]
    simp
  refine ⟨w0.metricsMap.filter fun e => filterOf k (w0.entry e.2), ?_, ?_⟩
  · show (enumerate w0 (filterOf k)).results[w0.results.length]? = _
    rw [enumerate_results w0 H.wf, List.getElem?_append_right (Nat.le_refl _)]
    simp
  intro key e
  show (∃ p, GoMap.get? _ key = some p ∧ w0.entries[p]? = some e) ↔ _
  rw [content_get?]
  constructor
  · rintro ⟨p, hp, he⟩
    rw [get?_filter H.wf] at hp
    have he' := (hent p (H.valid _ _ hp.1) e).1 he
    refine ⟨by rw [hp.1, Option.map_some, he'], ?_⟩
    rintro k' rfl
    have := hp.2
    simp only [filterOf, he', beq_iff_eq] at this
    exact this
  · rintro ⟨h2, h3⟩
    cases hg : w0.metricsMap.get? key with
    | none => rw [hg] at h2; simp at h2
    | some p =>
      rw [hg] at h2
      simp only [Option.map_some, Option.some.injEq] at h2
      refine ⟨p, (get?_filter H.wf _ _ _).2 ⟨hg, ?_⟩, (hent p (H.valid _ _ hg) e).2 h2⟩
      cases k with
      | none => rfl
      | some k' => simp only [filterOf, h2, beq_iff_eq]; exact h3 k' rfl

/-- The registry has a compass and a fast compass; a caller removed the compass from the map he was given; the next `GetCompasses()` has it. -/
example : (act (Handed.run (newRegistry 5) [.lookup .compass ⟨0, [1], 2⟩, .lookup .fast ⟨0, [2], 2⟩, .enumerate none, .remove 0 [1]]) (.enumerate (some .compass))).results =
    [[([2], 1)], [([1], 0)]] := by decide

/-- **C102.** The entries of `GetMetrics()` are the registry's own: after any history, a caller who assigns another metric to the entry of a name that somebody looked up
replaces the metric of that name for everybody - lookups of the new metric's kind get it, lookups of the other kind panic - and of no other name. -/
theorem C102_entries_are_shared (L : Int) (h : List Act) (k0 : Kind) (name0 : Name) (hl : Act.lookup k0 name0 ∈ h) (m : Metric) :
    let w := Handed.run (newRegistry L) h
    let w' := act (act w (.enumerate none)) (.assign w.results.length name0.hash m)
    ∀ k name, (lookup w' k name).2 =
      if name.hash = name0.hash then (if m.kind = k then some m else none) else (lookup w k name).2 := by
  intro w w' k name
  have H : Inv w := inv_run L h
  have H1 : Inv (act w (.enumerate none)) := inv_act _ _ H
  -- the key is registered
  have hreg : ∃ p, w.metricsMap.get? name0.hash = some p := by
    have keep : ∀ (g : List Act) (w : World), (∃ p, w.metricsMap.get? name0.hash = some p) →
        ∃ p, (Handed.run w g).metricsMap.get? name0.hash = some p := by
      intro g
      induction g with
      | nil => exact fun _ h => h
      | cons a g ih =>
        intro w hw
        refine ih (act w a) ?_
        cases a with
        | lookup k n =>
          simp only [act, lookup]
          cases hg : w.metricsMap.get? n.hash with
          | some p => exact hw
          | none =>
            simp only [GoMap.get?_set]
            split
            · exact ⟨_, rfl⟩
            · exact hw
        | enumerate k => exact hw
        | put r key n m => exact hw
        | remove r key => exact hw
        | assign r key m => simp only [act]; split <;> exact hw
    obtain ⟨h1, h2, rfl⟩ := List.append_of_mem hl
    show ∃ p, (Handed.run (newRegistry L) (h1 ++ .lookup k0 name0 :: h2)).metricsMap.get? name0.hash = some p
    rw [run_append]
    refine keep h2 (act (Handed.run (newRegistry L) h1) (.lookup k0 name0)) ?_
    simp only [act, lookup]
    cases hg : (Handed.run (newRegistry L) h1).metricsMap.get? name0.hash with
    | some p => exact ⟨p, hg⟩
    | none => exact ⟨_, GoMap.get?_set_self _ _ _⟩
  obtain ⟨p, hp⟩ := hreg
  have hat : (act w (.enumerate none)).at w.results.length name0.hash = some p := by
    show ((enumerate w (filterOf none)).results[w.results.length]?).bind _ = _
    rw [enumerate_results w H.wf]
    simp only [List.getElem?_append_right (Nat.le_refl _), Nat.sub_self, List.getElem?_cons_zero, Option.bind_some]
    exact (get?_filter H.wf _ _ _).2 ⟨hp, rfl⟩
  have hc : ∀ key, w'.content.get? key = if key = name0.hash then (w.content.get? key).map (fun e => { e with metric := m }) else w.content.get? key := by
    intro key
    show (act (act w (.enumerate none)) (.assign w.results.length name0.hash m)).content.get? key = _
    rw [content_assign _ H1, hat]
    show (if key = name0.hash ∧ w.metricsMap.get? key = some p then (w.content.get? key).map _ else w.content.get? key) = _
    by_cases hk : key = name0.hash
    · rw [if_pos ⟨hk, by rw [hk]; exact hp⟩, if_pos hk]
    · rw [if_neg (fun hh => hk hh.1), if_neg hk]
  have hfr : w'.metricsCount = w.metricsCount ∧ w'.maxMetricCount = w.maxMetricCount ∧ w'.fresh = w.fresh :=
    assign_frame (act w (.enumerate none)) w.results.length name0.hash m
  rw [lookup_result, lookup_result, hc]
  by_cases hk : name.hash = name0.hash
  · rw [if_pos hk, if_pos hk, hk, content_get?, hp]; rfl
  · rw [if_neg hk, if_neg hk, hfr.1, hfr.2.1, hfr.2.2]

/-- **C102.** So a name does not always resolve to the same metric once callers assign to entries. -/
theorem C102_assigning_refuted : ¬ ∀ (L : Int) (h g : List Act) (k : Kind) (name : Name) (m m' : Metric),
    (lookup (Handed.run (newRegistry L) h) k name).2 = some m →
    (lookup (Handed.run (newRegistry L) (h ++ .lookup k name :: g)) k name).2 = some m' → m = m' := by
  intro H
  have := H 5 [] [.enumerate none, .assign 0 [1] (.nop .compass)] .compass ⟨0, [1], 2⟩ (creator .compass 2 0) (.nop .compass) rfl rfl
  exact absurd this (by decide)

end GoMetrics
