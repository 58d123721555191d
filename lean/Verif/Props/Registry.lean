import Verif.Proofs.RegistryLimit
/-! # C32-C38, C42, C43: registry and manager

A schedule `es` is any interleaving of the atomic steps of any number of `GetCompass`, `GetFastCompass` (on the user's own registries,
whose limits are `limits`, or through the manager) and `SetEnable` calls. `SchedOk` only says that lookups on a registry are made on a
registry that exists. A call in state `.done q (some r) m` has returned the metric `m` from a registry; `.done q none m` has returned `m`
because it found the manager disabled; `.panicked` has panicked. -/
namespace GoMetrics
open Registry

/-- A run from fresh registries and a fresh manager. -/
abbrev regRun (limits : List Int) (es : List (Ev Call Unit)) : Pool Mem PC := conc.run (Machine.start (initial limits)) es

/-! ## What the invariant says -/

theorem Registry.Inv.same_metric {n0 : Nat} {s : Mem} {cs : List PC} (hi : Inv n0 s cs)
    (q q' : Req) (r r' : Nat) (m m' : Metric)
    (h : .done q (some r) m ∈ cs) (h' : .done q' (some r') m' ∈ cs)
    (ht : q.target = q'.target) (hk : q.name.hash = q'.name.hash) : m = m' := by
  obtain ⟨e, he, rfl⟩ := hi.i2.got _ h q r m rfl
  obtain ⟨e', he', rfl⟩ := hi.i2.got _ h' q' r' m' rfl
  have h1 := hi.i1.loc _ h q r rfl
  have h2 := hi.i1.loc _ h' q' r' rfl
  have hr : r = r' := by
    unfold RightReg at h1 h2
    rw [← ht] at h2
    cases hq : q.target with
    | direct d => rw [hq] at h1 h2; exact h1.1.trans h2.1.symm
    | group g => rw [hq] at h1 h2; exact Option.some.inj (h1.symm.trans h2)
  subst hr
  rw [← hk, he] at he'
  rw [Option.some.inj he']

theorem Registry.Inv.distinct {n0 : Nat} {s : Mem} {cs : List PC} (hi : Inv n0 s cs)
    (q q' : Req) (r r' : Option Nat) (m : Metric)
    (h : .done q r m ∈ cs) (h' : .done q' r' m ∈ cs)
    (hne : q.target ≠ q'.target ∨ q.name.hash ≠ q'.name.hash) : ∃ k, m = .nop k := by
  cases r with
  | none => exact ⟨_, (hi.i2.doneKind _ h q none m rfl).2 rfl⟩
  | some r =>
    cases r' with
    | none => exact ⟨_, (hi.i2.doneKind _ h' q' none m rfl).2 rfl⟩
    | some r' =>
      cases hm : m with
      | nop k => exact ⟨k, rfl⟩
      | real i p =>
        exfalso
        obtain ⟨e, he, hem⟩ := hi.i2.got _ h q r m rfl
        obtain ⟨e', he', hem'⟩ := hi.i2.got _ h' q' r' m rfl
        have hu := hi.i3.uniqMap r _ e r' _ e' i he he' (by rw [hem, hm]; rfl) (by rw [hem', hm]; rfl)
        obtain ⟨rfl, hk⟩ := hu
        rcases hne with hne | hne
        · have h1 := hi.i1.loc _ h q r rfl
          have h2 := hi.i1.loc _ h' q' r rfl
          unfold RightReg at h1 h2
          cases hq : q.target with
          | direct d =>
            cases hq' : q'.target with
            | direct d' => rw [hq] at h1; rw [hq'] at h2; simp only at h1 h2; exact hne (by rw [hq, hq', ← h1.1, ← h2.1])
            | group g' =>
              rw [hq] at h1; rw [hq'] at h2
              have := (hi.i1.groupRange _ _ h2).1
              simp only at h1
              omega
          | group g =>
            cases hq' : q'.target with
            | direct d' =>
              rw [hq] at h1; rw [hq'] at h2
              have := (hi.i1.groupRange _ _ h1).1
              simp only at h2
              omega
            | group g' =>
              rw [hq] at h1; rw [hq'] at h2
              exact hne (by rw [hq, hq', hi.i1.groupInj _ _ _ h1 h2])
        · exact hne hk

theorem Registry.Inv.one_registry_per_group {n0 : Nat} {s : Mem} {cs : List PC} (hi : Inv n0 s cs)
    (q q' : Req) (g g' : GoStr) (r r' : Nat) (m m' : Metric) (hq : q.target = .group g) (hq' : q'.target = .group g')
    (h : .done q (some r) m ∈ cs) (h' : .done q' (some r') m' ∈ cs) :
    r = r' ↔ g = g' := by
  have h1 := hi.i1.loc _ h q r rfl
  have h2 := hi.i1.loc _ h' q' r' rfl
  unfold RightReg at h1 h2
  rw [hq] at h1; rw [hq'] at h2
  simp only at h1 h2
  constructor
  · rintro rfl; exact hi.i1.groupInj _ _ _ h1 h2
  · rintro rfl; exact Option.some.inj (h1.symm.trans h2)

theorem Registry.Inv.keys {n0 : Nat} {s : Mem} {cs : List PC} (hi : Inv n0 s cs) (r : Nat) (k : GoStr) :
    ((∃ e, (s.regs r).metricsMap.get? k = some e) →
      ∃ c ∈ cs, ∃ q, c.req? = some q ∧ q.name.hash = k ∧
        (q.target = .direct r ∨ ∃ g, q.target = .group g ∧ s.groups.get? g = some r)) ∧
    ((∃ q, ((∃ m, .done q (some r) m ∈ cs) ∨ .panicked q r ∈ cs) ∧ q.name.hash = k) →
      ∃ e, (s.regs r).metricsMap.get? k = some e) ∧
    (s.regs r).metricsMap.keys.Nodup := by
  refine ⟨?_, ?_, hi.i4.wf r⟩
  · rintro ⟨e, he⟩
    obtain ⟨c, hc, q, h1, h2, -⟩ := hi.i2.origin r k e he
    refine ⟨c, hc, q, ?_, h2, ?_⟩
    · cases c with
      | done q' r' m' => cases r' <;> simp_all [PC.at?, PC.req?]
      | _ => simp_all [PC.at?, PC.req?]
    · have hl := hi.i1.loc c hc q r h1
      unfold RightReg at hl
      cases ht : q.target with
      | direct d => rw [ht] at hl; exact Or.inl (by rw [hl.1])
      | group g => rw [ht] at hl; exact Or.inr ⟨g, rfl, hl⟩
  · rintro ⟨q, ⟨m, hc⟩ | hc, rfl⟩
    · obtain ⟨e, he, -⟩ := hi.i2.got _ hc q r m rfl
      exact ⟨e, he⟩
    · obtain ⟨e, he, -⟩ := hi.i2.panics _ hc q r rfl
      exact ⟨e, he⟩

theorem Registry.Inv.kinds {n0 : Nat} {s : Mem} {cs : List PC} (hi : Inv n0 s cs) (q : Req) :
    (∀ r, .panicked q r ∈ cs →
      ∃ c ∈ cs, ∃ q', c.req? = some q' ∧ q'.target = q.target ∧ q'.name.hash = q.name.hash ∧ q'.kind ≠ q.kind) ∧
    (∀ r m, .done q r m ∈ cs → m.kind = q.kind) := by
  constructor
  · intro r hr
    obtain ⟨e, he, hk⟩ := hi.i2.panics _ hr q r rfl
    obtain ⟨c, hc, q', h1, h2, h3, -⟩ := hi.i2.origin r _ e he
    refine ⟨c, hc, q', ?_, ?_, h2, fun hh => hk (by rw [h3.kind_eq, hh])⟩
    · cases c with
      | done q' r' m' => cases r' <;> simp_all [PC.at?, PC.req?]
      | _ => simp_all [PC.at?, PC.req?]
    · have a := hi.i1.loc _ hc q' r h1
      have b := hi.i1.loc _ hr q r rfl
      unfold RightReg at a b
      cases hq : q.target with
      | direct d =>
        cases hq' : q'.target with
        | direct d' => rw [hq] at b; rw [hq'] at a; simp only at a b; rw [← a.1, ← b.1]
        | group g' =>
          rw [hq] at b; rw [hq'] at a
          have := (hi.i1.groupRange _ _ a).1
          simp only at b
          omega
      | group g =>
        cases hq' : q'.target with
        | direct d' =>
          rw [hq] at b; rw [hq'] at a
          have := (hi.i1.groupRange _ _ b).1
          simp only at a
          omega
        | group g' => rw [hq] at b; rw [hq'] at a; rw [hi.i1.groupInj _ _ _ a b]
  · intro r m hm
    exact (hi.i2.doneKind _ hm q r m rfl).1

/-! ## C32, C33, C42: identity -/

/-- **C32.** In every interleaving, any two lookups of the same hash key in the same registry (or group) return the same metric, whoever came
first and whatever happened in between. -/
theorem C32_same_metric (limits : List Int) (es : List (Ev Call Unit)) (hes : SchedOk limits.length es)
    (q q' : Req) (r r' : Nat) (m m' : Metric)
    (h : .done q (some r) m ∈ (regRun limits es).calls) (h' : .done q' (some r') m' ∈ (regRun limits es).calls)
    (ht : q.target = q'.target) (hk : q.name.hash = q'.name.hash) : m = m' :=
  (inv_all limits es hes).same_metric q q' r r' m m' h h' ht hk

/-- **C32.** Once in a registry an entry stays, in every continuation of every interleaving: later enumerations find the same metric under the
same key. -/
theorem C32_entries_stay (limits : List Int) (es es' : List (Ev Call Unit)) (hes : SchedOk limits.length (es ++ es')) (r : Nat)
    (k : GoStr) (e : Entry) (h : ((regRun limits es).shared.regs r).metricsMap.get? k = some e) :
    ((regRun limits (es ++ es')).shared.regs r).metricsMap.get? k = some e := by
  have hi := inv_all limits es (fun a ha => hes a (by simp [ha]))
  rw [regRun, Machine.run_append]
  exact (mono_all _ hi es' (fun a ha => hes a (by simp [ha]))).entries r k e h

/-- **C33, C42.** In every interleaving, lookups of different keys, or in different registries or groups, never return the same metric
object, except the shared no-op. -/
theorem C33_distinct (limits : List Int) (es : List (Ev Call Unit)) (hes : SchedOk limits.length es)
    (q q' : Req) (r r' : Option Nat) (m : Metric)
    (h : .done q r m ∈ (regRun limits es).calls) (h' : .done q' r' m ∈ (regRun limits es).calls)
    (hne : q.target ≠ q'.target ∨ q.name.hash ≠ q'.name.hash) : ∃ k, m = .nop k :=
  (inv_all limits es hes).distinct q q' r r' m h h' hne

/-- **C42.** In every interleaving, two lookups through the (enabled) manager use the same registry if and only if they name the same group. -/
theorem C42_one_registry_per_group (limits : List Int) (es : List (Ev Call Unit)) (hes : SchedOk limits.length es)
    (q q' : Req) (g g' : GoStr) (r r' : Nat) (m m' : Metric) (hq : q.target = .group g) (hq' : q'.target = .group g')
    (h : .done q (some r) m ∈ (regRun limits es).calls) (h' : .done q' (some r') m' ∈ (regRun limits es).calls) :
    r = r' ↔ g = g' :=
  (inv_all limits es hes).one_registry_per_group q q' g g' r r' m m' hq hq' h h'

/-- **C42.** Groups are isolated: what lookups in other groups do, or with the user's own registries, never shows in the metric of a group. -/
theorem C42_isolated (limits : List Int) (es : List (Ev Call Unit)) (hes : SchedOk limits.length es)
    (q q' : Req) (g g' : GoStr) (r r' : Option Nat) (m : Metric) (hq : q.target = .group g) (hq' : q'.target = .group g') (hg : g ≠ g')
    (h : .done q r m ∈ (regRun limits es).calls) (h' : .done q' r' m ∈ (regRun limits es).calls) : ∃ k, m = .nop k :=
  C33_distinct limits es hes q q' r r' m h h' (Or.inl (by rw [hq, hq']; simpa using hg))

/-- Two goroutines look up the same name in the same new group at the same time: both make a registry and both make a metric, both get
the same registry and metric. A third looks up the same key in a registry of its own and gets another. -/
example :
    let q : Req := { target := .group [103], kind := .compass, name := { hash := [107] } }
    let q2 : Req := { target := .direct 0, kind := .compass, name := { hash := [107] } }
    let p := regRun [10] ([.spawn (.lookup q), .spawn (.lookup q), .spawn (.lookup q2)] ++
      (List.replicate 9 [.step 0 (), .step 1 (), .step 2 ()]).flatten)
    p.calls = [.done q (some 1) (creator .compass 2 1), .done q (some 1) (creator .compass 2 1),
      .done q2 (some 0) (creator .compass 2 0)] := by decide

/-! ## C34, C36, C37: sequential histories

`asked t true h` are the lookups of the history `h` that reach the registry of `t`, `firsts` of them the first per distinct hash key, so
position `i` in `firsts (asked t true h)` is the position of a key among the distinct keys ever requested. -/

/-- **C34.** After any sequential history, a lookup that reaches a registry returns a real metric if and only if its key is among the
first `limit` distinct keys ever requested from that registry, and the no-op otherwise (or it panics, see C37). In particular lookups of existing
names are not affected by the limit. -/
theorem C34_limit (limits : List Int) (h : List Call) (q : Req) (hok : ∀ c ∈ h ++ [.lookup q], c.ok limits.length)
    (hr : enabledAfter true h = true ∨ ∃ r, q.target = .direct r)
    (hsm : (firsts (asked q.target true (h ++ [.lookup q]))).length < 2 ^ 31) (rid : Option Nat) (m : Metric)
    (hm : (exec (runSeq (initial limits) h) (.lookup q)).2 = .done q rid m) :
    ∃ (i : Nat) (q0 : Req), (firsts (asked q.target true (h ++ [.lookup q])))[i]? = some q0 ∧ q0.name.hash = q.name.hash ∧
      (m.isReal = true ↔ (i : Int) < limitOf limits q.target) := by
  obtain ⟨i, q0, rid', m', h1, h2, -, h4, h5⟩ := seq_result limits h q hok hr (by omega)
  refine ⟨i, q0, h1, h2, ?_⟩
  rw [hm] at h5
  split at h5
  · simp only [PC.done.injEq] at h5
    rw [h5.2.2]; exact h4
  · simp at h5

/-- **C34.** The number of real metrics in a registry is the limit or the number of distinct keys requested, whichever is smaller. -/
theorem C34_real_count (limits : List Int) (h : List Call) (hok : ∀ c ∈ h, c.ok limits.length) (t : Target) (r : Nat)
    (hr : registryOf limits.length (runSeq (initial limits) h) t = some r) (hsm : (firsts (asked t true h)).length < 2 ^ 31) :
    (realCount ((runSeq (initial limits) h).regs r).metricsMap : Int) =
      min ((firsts (asked t true h)).length : Int) (max 0 (limitOf limits t)) := by
  have hi := seqInv_all limits h hok
  obtain ⟨-, hs⟩ := (hi.reg t r hr).2 (by omega)
  have e1 : realCount ((runSeq (initial limits) h).regs r).metricsMap =
      (shape ((runSeq (initial limits) h).regs r).metricsMap).countP (fun x => x.2.2.2) := by
    simp only [realCount, shape, List.countP_map]; rfl
  rw [e1, hs]
  unfold expected
  generalize firsts (asked t true h) = l
  generalize limitOf limits t = L
  have key : ∀ (l : List Req) (n : Nat), (((l.zipIdx n).map
      (fun x : Req × Nat => (x.1.name.hash, x.1.name, x.1.kind, decide ((x.2 : Int) < L)))).countP (fun x => x.2.2.2) : Int) =
      min (l.length : Int) (max 0 (L - n)) := by
    intro l
    induction l with
    | nil => intro n; simp
    | cons a l ih =>
      intro n
      simp only [List.zipIdx_cons, List.map_cons, List.countP_cons, List.length_cons]
      have := ih (n + 1)
      push_cast at this ⊢
      rw [this]
      by_cases hn : (n : Int) < L <;> simp [hn] <;> omega
  simpa using key l 0

/-- **C36.** `GetMetrics()` has exactly one entry per distinct key ever requested, in any order in which `Range` may visit them. -/
theorem C36_size (limits : List Int) (h : List Call) (hok : ∀ c ∈ h, c.ok limits.length) (t : Target) (r : Nat)
    (hr : registryOf limits.length (runSeq (initial limits) h) t = some r) (hsm : (firsts (asked t true h)).length < 2 ^ 31)
    (range : GoMap GoStr Entry) (hp : range.Perm ((runSeq (initial limits) h).regs r).metricsMap) :
    (getMetrics range).length = (firsts (asked t true h)).length ∧
    ∀ k, (∃ e, (getMetrics range).get? k = some e) ↔ ∃ q ∈ asked t true h, q.name.hash = k := by
  have hi := seqInv_all limits h hok
  obtain ⟨-, hs⟩ := (hi.reg t r hr).2 (by omega)
  have hkeys : (((runSeq (initial limits) h).regs r).metricsMap).keys = (firsts (asked t true h)).map (fun q => q.name.hash) := by
    have := congrArg (List.map Prod.fst) hs
    simp only [shape, expected, List.map_map] at this
    rw [GoMap.keys]
    rw [show (Prod.fst : GoStr × Entry → GoStr) =
      (Prod.fst ∘ fun x : GoStr × Entry => (x.1, x.2.name, x.2.metric.kind, x.2.metric.isReal)) by rfl, this]
    rw [show ((Prod.fst ∘ fun x : Req × Nat => (x.1.name.hash, x.1.name, x.1.kind, decide ((x.2 : Int) < limitOf limits t)))) =
      ((fun q : Req => q.name.hash) ∘ Prod.fst) by rfl, ← List.map_map, List.zipIdx_map_fst]
  have hf : ∀ l : List Req, ((firsts l).map (fun q => q.name.hash)).Nodup ∧
      ∀ k, k ∈ (firsts l).map (fun q => q.name.hash) ↔ ∃ q ∈ l, q.name.hash = k := by
    intro l
    induction l using List.reverseRecOn with
    | nil => simp [firsts]
    | append_singleton l q ih =>
      rw [firsts_snoc]
      obtain ⟨i1, i2⟩ := ih
      by_cases ha : (firsts l).any (fun p => p.name.hash == q.name.hash) = true
      · rw [if_pos ha]
        refine ⟨i1, fun k => ?_⟩
        rw [i2]
        constructor
        · rintro ⟨x, hx, rfl⟩; exact ⟨x, by simp [hx], rfl⟩
        · rintro ⟨x, hx, rfl⟩
          rcases List.mem_append.1 hx with hx | hx
          · exact ⟨x, hx, rfl⟩
          · simp only [List.mem_singleton] at hx
            subst hx
            rw [← i2]
            simp only [List.any_eq_true, beq_iff_eq] at ha
            obtain ⟨p, hp1, hp2⟩ := ha
            exact List.mem_map.2 ⟨p, hp1, hp2⟩
      · rw [if_neg ha]
        rw [List.map_append, List.map_singleton]
        refine ⟨?_, fun k => ?_⟩
        · rw [List.nodup_append]
          refine ⟨i1, by simp, ?_⟩
          intro a hal b hb
          simp only [List.mem_singleton] at hb
          subst hb
          rintro rfl
          apply ha
          obtain ⟨p, hp1, hp2⟩ := List.mem_map.1 hal
          simp only [List.any_eq_true, beq_iff_eq]
          exact ⟨p, hp1, hp2⟩
        · rw [List.mem_append, i2]
          simp only [List.mem_append, List.mem_singleton]
          constructor
          · rintro (⟨x, hx, rfl⟩ | rfl)
            · exact ⟨x, Or.inl hx, rfl⟩
            · exact ⟨q, Or.inr rfl, rfl⟩
          · rintro ⟨x, hx | rfl, rfl⟩
            · exact Or.inl ⟨x, hx, rfl⟩
            · exact Or.inr rfl
  have hw : GoMap.WF ((runSeq (initial limits) h).regs r).metricsMap := by
    rw [GoMap.WF, hkeys]; exact (hf _).1
  have hpk : (GoMap.keys range).Perm (GoMap.keys ((runSeq (initial limits) h).regs r).metricsMap) := hp.map _
  have hwr : GoMap.WF range := hpk.nodup_iff.2 hw
  rw [getMetrics_eq range hwr]
  refine ⟨?_, fun k => ?_⟩
  · rw [hp.length_eq]
    have := congrArg List.length hkeys
    simpa [GoMap.keys] using this
  · rw [← GoMap.mem_keys_iff, hpk.mem_iff, hkeys, (hf _).2]

/-- **C36.** The limit does not bound the size: with limit 1, after two names `GetMetrics()` has two entries. -/
theorem C36_bounded_refuted :
    (getMetrics ((runSeq (initial [1]) [.lookup ⟨.direct 0, .compass, { hash := [97] }⟩,
      .lookup ⟨.direct 0, .compass, { hash := [98] }⟩]).regs 0).metricsMap).length = 2 := by decide

/-- **C36** under concurrency: a key is in a registry only if some lookup asked for it in that registry - the one it names, or the one of its group -,
every lookup that returned or panicked left its key there, and there are no two entries under one key. -/
theorem C36_keys_concurrent (limits : List Int) (es : List (Ev Call Unit)) (hes : SchedOk limits.length es) (r : Nat) (k : GoStr) :
    ((∃ e, ((regRun limits es).shared.regs r).metricsMap.get? k = some e) →
      ∃ c ∈ (regRun limits es).calls, ∃ q, c.req? = some q ∧ q.name.hash = k ∧
        (q.target = .direct r ∨ ∃ g, q.target = .group g ∧ (regRun limits es).shared.groups.get? g = some r)) ∧
    ((∃ q, ((∃ m, .done q (some r) m ∈ (regRun limits es).calls) ∨ .panicked q r ∈ (regRun limits es).calls) ∧ q.name.hash = k) →
      ∃ e, ((regRun limits es).shared.regs r).metricsMap.get? k = some e) ∧
    ((regRun limits es).shared.regs r).metricsMap.keys.Nodup :=
  (inv_all limits es hes).keys r k

/-- **C37.** Exactly when a sequential lookup panics: the first lookup ever made of that key in that registry was for the other kind of
metric. -/
theorem C37_panics_iff (limits : List Int) (h : List Call) (q : Req) (hok : ∀ c ∈ h ++ [.lookup q], c.ok limits.length)
    (hr : enabledAfter true h = true ∨ ∃ r, q.target = .direct r)
    (hsm : (firsts (asked q.target true (h ++ [.lookup q]))).length < 2 ^ 31) :
    (∃ r, (exec (runSeq (initial limits) h) (.lookup q)).2 = .panicked q r) ↔
      ∃ q0 ∈ firsts (asked q.target true (h ++ [.lookup q])), q0.name.hash = q.name.hash ∧ q0.kind ≠ q.kind := by
  obtain ⟨i, q0, rid', m', h1, h2, h3, h4, h5⟩ := seq_result limits h q hok hr (by omega)
  have hnd : ∀ l : List Req, (firsts l).Pairwise (fun a b => a.name.hash ≠ b.name.hash) := by
    intro l
    induction l using List.reverseRecOn with
    | nil => simp [firsts]
    | append_singleton l q ih =>
      rw [firsts_snoc]
      split
      · exact ih
      · rename_i hn
        rw [List.pairwise_append]
        refine ⟨ih, List.pairwise_singleton _ _, fun a ha b hb e => hn ?_⟩
        simp only [List.mem_singleton] at hb
        subst hb
        simp only [List.any_eq_true, beq_iff_eq]
        exact ⟨a, ha, e⟩
  rw [h5]
  constructor
  · rintro ⟨r, hr⟩
    refine ⟨q0, List.mem_of_getElem? h1, h2, fun hk => ?_⟩
    rw [if_pos hk] at hr
    simp at hr
  · rintro ⟨q1, hq1, e1, e2⟩
    have : q1 = q0 := by
      by_contra hne
      have hp := hnd (asked q.target true (h ++ [.lookup q]))
      rcases List.pairwise_iff_getElem.1 hp with hp
      obtain ⟨j, hj, rfl⟩ := List.getElem_of_mem hq1
      obtain ⟨hi', rfl⟩ := List.getElem?_eq_some_iff.1 h1
      rcases Nat.lt_trichotomy i j with hij | hij | hij
      · exact hp i j hi' hj hij (h2.trans e1.symm)
      · subst hij; exact hne rfl
      · exact hp j i hj hi' hij (e1.trans h2.symm)
    subst this
    exact ⟨rid', if_neg e2⟩

/-- **C37.** A key used for both kinds panics. -/
theorem C37_never_panics_refuted :
    (exec (runSeq (initial [5000]) [.lookup ⟨.direct 0, .compass, { hash := [97] }⟩])
      (.lookup ⟨.direct 0, .fast, { hash := [97] }⟩)).2 = .panicked ⟨.direct 0, .fast, { hash := [97] }⟩ 0 := by decide

/-- **C37** under concurrency: if a lookup panics, some other lookup of that key in that registry asked for the other kind. So no lookup ever
panics if every key is used for one kind only. Every lookup that returns, returns the kind that was asked for. -/
theorem C37_concurrent (limits : List Int) (es : List (Ev Call Unit)) (hes : SchedOk limits.length es) (q : Req) :
    (∀ r, .panicked q r ∈ (regRun limits es).calls →
      ∃ c ∈ (regRun limits es).calls, ∃ q', c.req? = some q' ∧ q'.target = q.target ∧ q'.name.hash = q.name.hash ∧ q'.kind ≠ q.kind) ∧
    (∀ r m, .done q r m ∈ (regRun limits es).calls → m.kind = q.kind) :=
  (inv_all limits es hes).kinds q

/-- A history with a disabled phase, two groups, a repeated name and a full registry. -/
example :
    let a : Name := { hash := [97] }
    let b : Name := { hash := [98] }
    let h : List Call := [.lookup ⟨.direct 0, .compass, a⟩, .lookup ⟨.group [103], .fast, a⟩, .setEnable false,
      .lookup ⟨.group [103], .fast, b⟩, .lookup ⟨.direct 0, .compass, a⟩, .setEnable true, .lookup ⟨.direct 0, .fast, b⟩]
    (∀ c ∈ h, c.ok 1) ∧ firsts (asked (.direct 0) true h) = [⟨.direct 0, .compass, a⟩, ⟨.direct 0, .fast, b⟩] ∧
    firsts (asked (.group [103]) true h) = [⟨.group [103], .fast, a⟩] ∧
    (shape ((runSeq (initial [1]) h).regs 0).metricsMap) = [([97], a, .compass, true), ([98], b, .fast, false)] := by
  refine ⟨?_, by decide, by decide, by decide⟩
  intro c hc
  simp only [List.mem_cons, List.not_mem_nil, or_false] at hc
  rcases hc with rfl | rfl | rfl | rfl | rfl | rfl | rfl <;> simp [Call.ok]

/-! ## C35: the limit under concurrency -/

/-- **C35.** If never more than `P` calls are in progress at the same time, a registry never holds more than `limit + P - 1` real metrics, in
any interleaving of fewer than 2^31 calls. -/
theorem C35_overshoot (limits : List Int) (P : Nat) (hP : 1 ≤ P) (es : List (Ev Call Unit)) (hes : SchedOk limits.length es)
    (hfl : ∀ es', es' <+: es → inFlight (regRun limits es').calls ≤ P) (hlen : (regRun limits es).calls.length < 2 ^ 31)
    (r : Nat) (L : Int) (hL : 0 ≤ L)
    (hr : (r < limits.length ∧ limits[r]? = some L) ∨ (L = 5000 ∧ ∃ g, (regRun limits es).shared.groups.get? g = some r)) :
    (realCount ((regRun limits es).shared.regs r).metricsMap : Int) ≤ L + P - 1 := by
  have h := limit_all limits P hP es hes hfl hlen r
  have hi := inv_all limits es hes
  have hmax : ((regRun limits es).shared.regs r).maxMetricCount = L := by
    rcases hr with ⟨hr, hl⟩ | ⟨rfl, g, hg⟩
    · have := (mono_all (Machine.start (initial limits)) (inv_initial limits) es hes).limits r hr
      rw [this]
      simp [Machine.start, initial, hl]
    · -- every group's registry has the limit 5000
      have key : ∀ p : Pool Mem PC, (Inv limits.length p.shared p.calls ∧
          ∀ g r, p.shared.groups.get? g = some r → (p.shared.regs r).maxMetricCount = 5000) →
          (Inv limits.length (conc.run p es).shared (conc.run p es).calls ∧
          ∀ g r, (conc.run p es).shared.groups.get? g = some r → ((conc.run p es).shared.regs r).maxMetricCount = 5000) := by
        intro p hp
        refine conc.inv_run' (fun p => Inv limits.length p.shared p.calls ∧
          ∀ g r, p.shared.groups.get? g = some r → (p.shared.regs r).maxMetricCount = 5000) (Call.ok limits.length)
          (fun _ _ _ ha h => ⟨inv_spawn ha h.1, h.2⟩) (fun s pre c post _ h => ⟨inv_step h.1, ?_⟩) p hp es hes
        intro g r hg
        have hm := step_mono s (fun r hr => (h.1.i1.unborn r hr).1) c
        by_cases ho : s.groups.get? g = some r
        · rw [← h.2 g r ho]
          exact hm.limits r (h.1.i1.groupRange _ _ ho).2
        · cases c with
          | storeGroup q g' =>
            cases hg' : s.groups.get? g' with
            | some rid =>
              simp only [conc, callStep, hg'] at hg
              exact absurd hg ho
            | none =>
              simp only [conc, callStep, hg', GoMap.get?_set] at hg ⊢
              by_cases e : g' = g
              · simp only [e, if_true, Option.some.injEq] at hg
                subst hg
                simp only [setReg_self]
              · simp only [e, if_false] at hg
                exact absurd hg ho
          | loadGroup q g' =>
            simp only [conc, callStep] at hg; split at hg <;> exact absurd hg ho
          | load q r' => simp only [conc, callStep] at hg; split at hg <;> exact absurd hg ho
          | store q r' m' => simp only [conc, callStep] at hg; split at hg <;> exact absurd hg ho
          | _ => exact absurd hg ho
      exact (key (Machine.start (initial limits)) ⟨inv_initial limits, by simp [Machine.start, initial]⟩).2 g r hg
  rw [hmax] at h
  have : (0 : Int) ≤ (conc.run (Machine.start (initial limits)) es).calls.countP (PC.armed r) := by positivity
  have hx : max 0 L = L := max_eq_right hL
  rw [hx] at h
  unfold regRun
  omega

/-- Two lookups of different names on a registry of limit 1, both past the check before either has stored. -/
def twoAtOnce : List (Ev Call Unit) :=
  [.spawn (.lookup ⟨.direct 0, .compass, { hash := [97] }⟩), .spawn (.lookup ⟨.direct 0, .compass, { hash := [98] }⟩),
    .step 0 (), .step 0 (), .step 0 (), .step 1 (), .step 1 (), .step 1 (), .step 0 (), .step 1 ()]

/-- **C35.** The limit does not hold under concurrency. -/
theorem C35_limit_refuted : realCount ((regRun [1] twoAtOnce).shared.regs 0).metricsMap = 2 := by decide

end GoMetrics
