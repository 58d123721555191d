import Verif.Props.Registry
/-! # C35 (tightness), C38, C43 -/
namespace GoMetrics
open Registry

/-! ## C35: the bound is reached -/
namespace Tight

/-- The `i`-th name: `i` times the letter "a". -/
def nm (i : Nat) : Name := { hash := List.replicate i 97 }
def req (i : Nat) : Req := ⟨.direct 0, .compass, nm i⟩
def met (i : Nat) : Metric := creator .compass 2 i

/-- `n` lookups of different names, all past the check before any has stored; then all store. -/
def sched (n : Nat) : List (Ev Call Unit) :=
  (List.range n).flatMap (fun i => [.spawn (.lookup (req i)), .step i (), .step i (), .step i ()]) ++
    (List.range n).map (fun i => .step i ())

theorem phase1 (n : Nat) :
    conc.run (Machine.start (initial [1])) ((List.range n).flatMap (fun i => [.spawn (.lookup (req i)), .step i (), .step i (), .step i ()])) =
      ⟨{ initial [1] with fresh := n }, (List.range n).map (fun i => .store (req i) 0 (met i))⟩ := by
  induction n with
  | zero => rfl
  | succ n ih =>
    rw [List.range_succ, List.flatMap_append, Machine.run_append, ih, List.map_append]
    have hl : ((List.range n).map (fun i => PC.store (req i) 0 (met i))).length = n := by simp
    generalize (List.range n).map (fun i => PC.store (req i) 0 (met i)) = l at hl
    have hget : ∀ c : PC, (l ++ [c])[n]? = some c := by
      intro c; rw [List.getElem?_append_right (by omega), hl]; simp
    have hset : ∀ c c' : PC, (l ++ [c]).set n c' = l ++ [c'] := by
      intro c c'; rw [List.set_append_right _ _ (by omega), hl]; simp
    simp only [List.flatMap_cons, List.flatMap_nil, List.append_nil, Machine.run, List.foldl_cons, List.foldl_nil, List.map_cons,
      List.map_nil]
    simp only [Machine.apply, conc, begin, req, hget, hset]
    simp only [callStep, initial, GoMap.get?_nil, hget, hset, List.length_cons, List.length_nil, List.getElem?_cons_zero,
      Option.getD_some]
    rfl

theorem phase2 (n j : Nat) (hj : j ≤ n) :
    let p := conc.run ⟨{ initial [1] with fresh := n }, (List.range n).map (fun i => .store (req i) 0 (met i))⟩
      ((List.range j).map (fun i => .step i ()))
    p.calls = (List.range n).map (fun i => if i < j then .incr (req i) 0 (met i) else .store (req i) 0 (met i)) ∧
    (p.shared.regs 0).metricsMap = (List.range j).map (fun i => ((nm i).hash, ⟨nm i, met i⟩)) := by
  induction j with
  | zero => simp [Machine.run, initial]
  | succ j ih =>
    intro p
    have hp : p = conc.apply (conc.run ⟨{ initial [1] with fresh := n }, (List.range n).map (fun i => .store (req i) 0 (met i))⟩
      ((List.range j).map (fun i => .step i ()))) (.step j ()) := by
      simp only [p, List.range_succ, List.map_append, List.map_cons, List.map_nil, Machine.run_snoc]
    obtain ⟨h1, h2⟩ := ih (by omega)
    rw [hp]
    generalize conc.run ⟨{ initial [1] with fresh := n }, (List.range n).map (fun i => .store (req i) 0 (met i))⟩
      ((List.range j).map (fun i => .step i ())) = p0 at h1 h2
    have hgetj : p0.calls[j]? = some (.store (req j) 0 (met j)) := by
      rw [h1, List.getElem?_map, List.getElem?_range (by omega)]
      simp
    have hnone : (p0.shared.regs 0).metricsMap.get? (req j).name.hash = none := by
      rw [GoMap.get?_eq_none_iff, h2]
      intro hm
      simp only [GoMap.keys, List.map_map, List.mem_map, List.mem_range, Function.comp] at hm
      obtain ⟨i, hi, he⟩ := hm
      have := congrArg List.length he
      simp [nm, req] at this
      omega
    have hstep : callStep p0.shared (.store (req j) 0 (met j)) =
      (p0.shared.setReg 0 { p0.shared.regs 0 with metricsMap := (p0.shared.regs 0).metricsMap.set (req j).name.hash ⟨(req j).name, met j⟩ },
        .incr (req j) 0 (met j)) := by
      simp only [callStep, hnone]
    simp only [Machine.apply, hgetj]
    rw [show conc.step p0.shared () (.store (req j) 0 (met j)) = callStep p0.shared (.store (req j) 0 (met j)) from rfl, hstep]
    refine ⟨?_, ?_⟩
    · simp only [h1]
      apply List.ext_getElem?
      intro i
      rw [List.getElem?_set]
      by_cases hi : i < n
      · simp only [List.getElem?_map, List.getElem?_range hi, List.length_map, List.length_range, Option.map_some]
        by_cases e : j = i
        · subst e; simp [hi]
        · simp only [e, if_false]
          congr 1
          by_cases h3 : i < j
          · rw [if_pos h3, if_pos (by omega)]
          · rw [if_neg h3, if_neg (by omega)]
      · have : ¬ j = i := by omega
        simp [this, hi]
    · simp only [setReg_self]
      rw [GoMap.set_of_none _ hnone, h2, List.range_succ, List.map_append]
      rfl

end Tight

/-- **C35.** The bound cannot be improved: for every `n` there is an interleaving of `n` lookups, at most `n` in progress at a time, that
leaves `n` real metrics in a registry of limit 1. -/
theorem C35_overshoot_tight (n : Nat) :
    ∃ es : List (Ev Call Unit), SchedOk 1 es ∧ (regRun [1] es).calls.length = n ∧
      realCount ((regRun [1] es).shared.regs 0).metricsMap = n := by
  refine ⟨Tight.sched n, ?_, ?_, ?_⟩
  · intro a ha
    simp only [Tight.sched, List.mem_append, List.mem_flatMap, List.mem_map, List.mem_range] at ha
    rcases ha with ⟨i, -, hi⟩ | ⟨i, -, hi⟩
    · simp at hi
      subst hi
      simp [Call.ok, Tight.req]
    · simp at hi
  · rw [regRun, Tight.sched, Machine.run_append, Tight.phase1, (Tight.phase2 n n (le_refl _)).1]
    simp
  · rw [regRun, Tight.sched, Machine.run_append, Tight.phase1, (Tight.phase2 n n (le_refl _)).2]
    rw [realCount, List.countP_eq_length.2]
    · simp
    · intro a ha
      simp only [List.mem_map] at ha
      obtain ⟨i, -, rfl⟩ := ha
      rfl

/-! ## C38: enumerations -/

theorem Registry.contents {m range : GoMap GoStr Entry} (hw : GoMap.WF m) (hp : range.Perm m) (k : GoStr) :
    (getMetrics range).get? k = m.get? k ∧
    (getCompasses range).get? k = (m.get? k).filter (fun e => e.metric.kind == .compass) ∧
    (getFastCompasses range).get? k = (m.get? k).filter (fun e => e.metric.kind == .fast) := by
  have hwr : GoMap.WF range := (hp.map Prod.fst).nodup_iff.2 hw
  have hg : ∀ k, range.get? k = m.get? k := by
    intro k
    have : ∀ e, range.get? k = some e ↔ m.get? k = some e := by
      intro e; rw [← GoMap.mem_iff_get? hwr, ← GoMap.mem_iff_get? hw, hp.mem_iff]
    exact Option.ext this
  have hf : ∀ f : Entry → Bool, (collect f range).get? k = (range.get? k).filter f := by
    intro f
    rw [collect_eq f range hwr]
    have hwf : GoMap.WF (range.filter (fun e => f e.2)) := by
      have : ((range.filter (fun e => f e.2)).map Prod.fst).Sublist (range.map Prod.fst) := List.filter_sublist.map _
      exact hwr.sublist this
    apply Option.ext
    intro e
    rw [← GoMap.mem_iff_get? hwf, Option.filter_eq_some_iff, ← GoMap.mem_iff_get? hwr, List.mem_filter]
  exact ⟨by rw [getMetrics_eq range hwr, hg], by rw [getCompasses, hf, hg], by rw [getFastCompasses, hf, hg]⟩

/-- **C38.** In every reachable state and for every order in which `Range` may visit the entries: `GetMetrics()` holds exactly the entries of the
registry; `GetCompasses()` exactly those whose metric is a compass and `GetFastCompasses()` exactly those whose metric is a fast compass. -/
theorem C38_contents (limits : List Int) (es : List (Ev Call Unit)) (hes : SchedOk limits.length es) (r : Nat)
    (range : GoMap GoStr Entry) (hp : range.Perm ((regRun limits es).shared.regs r).metricsMap) (k : GoStr) :
    let stored := ((regRun limits es).shared.regs r).metricsMap.get? k
    (getMetrics range).get? k = stored ∧
    (getCompasses range).get? k = stored.filter (fun e => e.metric.kind == .compass) ∧
    (getFastCompasses range).get? k = stored.filter (fun e => e.metric.kind == .fast) :=
  Registry.contents ((inv_all limits es hes).i4.wf r) hp k

/-- **C38.** `GetCompasses()` and `GetFastCompasses()` are disjoint and together are `GetMetrics()`. -/
theorem C38_partition (limits : List Int) (es : List (Ev Call Unit)) (hes : SchedOk limits.length es) (r : Nat)
    (range range' range'' : GoMap GoStr Entry) (hp : range.Perm ((regRun limits es).shared.regs r).metricsMap)
    (hp' : range'.Perm ((regRun limits es).shared.regs r).metricsMap) (hp'' : range''.Perm ((regRun limits es).shared.regs r).metricsMap)
    (k : GoStr) (e : Entry) :
    ((getMetrics range).get? k = some e ↔ (getCompasses range').get? k = some e ∨ (getFastCompasses range'').get? k = some e) ∧
    ¬ ((∃ e, (getCompasses range').get? k = some e) ∧ ∃ e, (getFastCompasses range'').get? k = some e) := by
  rw [(C38_contents limits es hes r range hp k).1, (C38_contents limits es hes r range' hp' k).2.1,
    (C38_contents limits es hes r range'' hp'' k).2.2]
  cases ((regRun limits es).shared.regs r).metricsMap.get? k with
  | none => simp
  | some e' =>
    simp only [Option.filter_some]
    cases hk : e'.metric.kind <;> simp

/-- **C38.** The registry's `LastUpdateTime()` is the largest of its metrics' `LastUpdateTime()` and 0, whatever the order of enumeration. -/
theorem C38_last_update (f : Metric → Int) (range : GoMap GoStr Entry) :
    let t := lastUpdateTime f f range
    0 ≤ t ∧ (∀ x ∈ range, f x.2.metric ≤ t) ∧ (t = 0 ∨ ∃ x ∈ range, t = f x.2.metric) :=
  lastUpdate_fold f f range 0 (fun _ _ => le_refl _)

/-- **C38.** If metrics are updated while it runs, each having its last update time read twice, first and then second: the result is at least
every first reading, and is 0 or a second reading. -/
theorem C38_last_update_concurrent (first second : Metric → Int) (range : GoMap GoStr Entry)
    (h : ∀ x ∈ range, first x.2.metric ≤ second x.2.metric) :
    let t := lastUpdateTime first second range
    0 ≤ t ∧ (∀ x ∈ range, first x.2.metric ≤ t) ∧ (t = 0 ∨ ∃ x ∈ range, t = second x.2.metric) :=
  lastUpdate_fold first second range 0 h

/-- A registry with a compass, a fast compass and a no-op, enumerated backwards. -/
example :
    let s := runSeq (initial [2]) [.lookup ⟨.direct 0, .compass, { hash := [97] }⟩, .lookup ⟨.direct 0, .fast, { hash := [98] }⟩,
      .lookup ⟨.direct 0, .fast, { hash := [99] }⟩]
    let range := (s.regs 0).metricsMap.reverse
    (getMetrics range).keys = [[99], [98], [97]] ∧ (getCompasses range).keys = [[97]] ∧ (getFastCompasses range).keys = [[99], [98]] ∧
    lastUpdateTime (fun m => if m = creator .fast 2 1 then 7 else if m = creator .compass 2 0 then 5 else 0)
      (fun m => if m = creator .fast 2 1 then 7 else if m = creator .compass 2 0 then 5 else 0) range = 7 := by decide

/-! ## C43: the switch -/

/-- **C43.** While disabled, a lookup through the manager returns the no-op and changes nothing. -/
theorem C43_disabled (s : Mem) (q : Req) (g : GoStr) (hq : q.target = .group g) (hs : s.enable = false) :
    exec s (.lookup q) = (s, .done q none (.nop q.kind)) := by
  rw [exec_group s q g hq, getManaged, hs]
  rfl

/-- **C43.** What a name resolved to before, it resolves to again after any further history of lookups and switching that leaves the manager
enabled. -/
theorem C43_reenabled (limits : List Int) (h h' : List Call) (q q' : Req) (g : GoStr)
    (hok : ∀ c ∈ h ++ [.lookup q] ++ h', c.ok limits.length)
    (hq : q.target = .group g) (hq' : q'.target = .group g) (hk : q'.name.hash = q.name.hash) (hkind : q'.kind = q.kind)
    (r : Nat) (m : Metric) (hres : (exec (runSeq (initial limits) h) (.lookup q)).2 = .done q (some r) m)
    (hen : enabledAfter true (h ++ [.lookup q] ++ h') = true) :
    (exec (runSeq (initial limits) (h ++ [.lookup q] ++ h')) (.lookup q')).2 = .done q' (some r) m := by
  have hi := seqInv_all limits h (fun c hc => hok c (by simp [hc]))
  have hi2 := seqInv_all limits (h ++ [.lookup q]) (fun c hc => hok c (by
    rcases List.mem_append.1 hc with hc | hc <;> simp_all))
  have hi3 := seqInv_all limits _ hok
  -- the first lookup was made while enabled
  have hen1 : (runSeq (initial limits) h).enable = true := by
    by_contra hne
    rw [C43_disabled _ q g hq (by simpa using hne)] at hres
    simp at hres
  obtain ⟨s', rid, he, hreg⟩ := exec_reaches (n0 := limits.length) (runSeq (initial limits) h) q (hok _ (by simp)) (Or.inl hen1)
  obtain ⟨e, hget, hres'⟩ := getOn_result s' q rid
  rw [he, hres'] at hres
  have hkk : e.metric.kind = q.kind := by
    by_contra hne
    rw [if_neg hne] at hres
    simp at hres
  rw [if_pos hkk] at hres
  simp only [PC.done.injEq, Option.some.injEq, true_and] at hres
  obtain ⟨rfl, rfl⟩ := hres
  have hs2 : runSeq (initial limits) (h ++ [.lookup q]) = (getOn s' q rid).1 := by rw [runSeq_snoc, he]
  rw [hq] at hreg
  simp only [registryOf] at hreg
  rw [← hs2] at hget hreg
  have happ : runSeq (initial limits) (h ++ [.lookup q] ++ h') = runSeq (runSeq (initial limits) (h ++ [.lookup q])) h' := by
    simp [runSeq]
  have hm := (mono_runSeq h' (fun c hc => hok c (by simp [hc])) hi2.inv1).1
  rw [← happ] at hm
  have h1 := hm.groups _ _ hreg
  have h2 := hm.entries _ _ _ hget
  rw [exec_group _ q' g hq', getManaged, if_pos (by rw [hi3.en]; exact hen), h1]
  simp only [getOn, hk, h2]
  rw [if_pos (by rw [hkk, hkind])]

/-- **C43** under concurrency: if the manager is disabled, no call is in progress and nobody enables it again, then in every interleaving of
lookups through the manager no registry and no group changes, and every call that returns, returns the no-op. -/
theorem C43_disabled_concurrent (s : Mem) (hs : s.enable = false) (cs : List PC) (hcs : ∀ c ∈ cs, c.over = true)
    (es : List (Ev Call Unit))
    (hes : ∀ a, Ev.spawn a ∈ es → (∃ q g, a = .lookup q ∧ q.target = .group g) ∨ a = .setEnable false) :
    (conc.run ⟨s, cs⟩ es).shared = s ∧
    ∀ (i : Nat) q r m, cs.length ≤ i → (conc.run ⟨s, cs⟩ es).calls[i]? = some (.done q r m) → r = none ∧ m = .nop q.kind := by
  have key := conc.inv_run' (fun p => p.shared = s ∧ cs.length ≤ p.calls.length ∧
      (∀ i, i < cs.length → ∃ c, p.calls[i]? = some c ∧ c.over = true) ∧
      ∀ (i : Nat) c, cs.length ≤ i → p.calls[i]? = some c →
        (∃ q g, c = .readEnable q g) ∨ c = .setEnable false ∨ c = .setDone false ∨ ∃ q, c = .done q none (.nop q.kind))
    (fun a => (∃ q g, a = .lookup q ∧ q.target = .group g) ∨ a = .setEnable false) ?_ ?_ ⟨s, cs⟩ ?_ es hes
  · refine ⟨key.1, fun i q r m hi hc => ?_⟩
    rcases key.2.2.2 i _ hi hc with ⟨q', g', h⟩ | h | h | ⟨q', h⟩
    · simp at h
    · simp at h
    · simp at h
    · simp only [PC.done.injEq] at h
      obtain ⟨rfl, rfl, rfl⟩ := h
      exact ⟨rfl, rfl⟩
  · rintro s' cs' a ha ⟨h1, h2, h3, h4⟩
    simp only at h1 h2 h3 h4
    refine ⟨h1, by simp; omega, fun i hi => ?_, fun i c hi hc => ?_⟩
    · obtain ⟨c, hc, ho⟩ := h3 i hi
      exact ⟨c, by rw [List.getElem?_append_left (by omega)]; exact hc, ho⟩
    · by_cases hl : i < cs'.length
      · exact h4 i c hi (by rwa [List.getElem?_append_left hl] at hc)
      · rw [List.getElem?_append_right (by omega)] at hc
        have : c = begin a := by
          rcases Nat.eq_zero_or_pos (i - cs'.length) with h0 | h0
          · rw [h0] at hc; simpa [conc] using hc.symm
          · rw [List.getElem?_eq_none (by simp; omega)] at hc; simp at hc
        subst this
        rcases ha with ⟨q, g, rfl, hg⟩ | rfl
        · exact Or.inl ⟨q, g, by simp [begin, hg]⟩
        · exact Or.inr (Or.inl rfl)
  · rintro s' pre c post x ⟨h1, h2, h3, h4⟩
    simp only at h1 h2 h3 h4
    subst h1
    have hget : (pre ++ c :: post)[pre.length]? = some c := by simp
    have hother : ∀ i c', i ≠ pre.length → (pre ++ c' :: post)[i]? = (pre ++ c :: post)[i]? := by
      intro i c' hi
      rcases Nat.lt_or_ge i pre.length with hl | hl
      · rw [List.getElem?_append_left hl, List.getElem?_append_left hl]
      · rw [List.getElem?_append_right hl, List.getElem?_append_right hl]
        obtain ⟨d, hd⟩ : ∃ d, i - pre.length = d + 1 := ⟨i - pre.length - 1, by omega⟩
        rw [hd]; simp
    have hstep : (callStep s' c).1 = s' ∧ (c.over = true → (callStep s' c).2 = c) ∧
        (cs.length ≤ pre.length → (∃ q g, (callStep s' c).2 = .readEnable q g) ∨ (callStep s' c).2 = .setEnable false ∨
          (callStep s' c).2 = .setDone false ∨ ∃ q, (callStep s' c).2 = .done q none (.nop q.kind)) := by
      by_cases hp : cs.length ≤ pre.length
      · rcases h4 pre.length c hp hget with ⟨q, g, rfl⟩ | rfl | rfl | ⟨q, rfl⟩
        · have e : callStep s' (.readEnable q g) = (s', .done q none (.nop q.kind)) := by simp [callStep, hs]
          rw [e]
          exact ⟨rfl, by simp [PC.over], fun _ => Or.inr (Or.inr (Or.inr ⟨q, rfl⟩))⟩
        · have e : callStep s' (.setEnable false) = (s', .setDone false) := by
            cases s'; simp at hs; simp [callStep, hs]
          rw [e]
          exact ⟨rfl, by simp [PC.over], fun _ => Or.inr (Or.inr (Or.inl rfl))⟩
        · exact ⟨rfl, fun _ => rfl, fun _ => Or.inr (Or.inr (Or.inl rfl))⟩
        · exact ⟨rfl, fun _ => rfl, fun _ => Or.inr (Or.inr (Or.inr ⟨q, rfl⟩))⟩
      · obtain ⟨c', hc', ho⟩ := h3 pre.length (by omega)
        rw [hget] at hc'
        simp only [Option.some.injEq] at hc'
        subst hc'
        cases c <;> simp [PC.over] at ho <;> exact ⟨rfl, fun _ => rfl, fun h => absurd h hp⟩
    obtain ⟨e1, e2, e3⟩ := hstep
    refine ⟨e1, by simpa using h2, fun i hi => ?_, fun i c' hi hc' => ?_⟩
    · obtain ⟨c', hc', ho⟩ := h3 i hi
      by_cases hip : i = pre.length
      · subst hip
        rw [hget] at hc'
        simp only [Option.some.injEq] at hc'
        subst hc'
        refine ⟨c, ?_, ho⟩
        show (pre ++ (callStep s' c).2 :: post)[pre.length]? = some c
        rw [e2 ho]; exact hget
      · exact ⟨c', by rw [hother _ _ hip]; exact hc', ho⟩
    · by_cases hip : i = pre.length
      · subst hip
        have : c' = (callStep s' c).2 := by simpa [conc] using hc'.symm
        rw [this]; exact e3 hi
      · rw [hother _ _ hip] at hc'
        exact h4 i c' hi hc'
  · refine ⟨rfl, le_refl _, fun i hi => ⟨cs[i], List.getElem?_eq_getElem hi, hcs _ (List.getElem_mem hi)⟩, fun i c hi hc => ?_⟩
    rw [List.getElem?_eq_none hi] at hc
    simp at hc

/-- Resolve, disable, look up something else, enable, resolve again. -/
example :
    let q : Req := ⟨.group [103], .compass, { hash := [97] }⟩
    let q2 : Req := ⟨.group [103], .compass, { hash := [98] }⟩
    let h : List Call := [.lookup q, .setEnable false, .lookup q2, .setEnable true]
    (exec (runSeq (initial []) []) (.lookup q)).2 = .done q (some 0) (creator .compass 2 0) ∧
    (exec (runSeq (initial []) [.lookup q, .setEnable false]) (.lookup q2)).2 = .done q2 none (.nop .compass) ∧
    (exec (runSeq (initial []) h) (.lookup q)).2 = .done q (some 0) (creator .compass 2 0) ∧ enabledAfter true h = true := by decide

end GoMetrics
