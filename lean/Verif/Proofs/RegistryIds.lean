import Verif.Proofs.Registry
/-! # Registry and manager: results, identities and counts over all interleavings -/
namespace GoMetrics

theorem GoMap.set_of_none {κ ν : Type} [DecidableEq κ] {m : GoMap κ ν} {k : κ} (v : ν) (h : GoMap.get? m k = none) :
    GoMap.set m k v = m ++ [(k, v)] := by
  induction m with
  | nil => rfl
  | cons p t ih =>
    obtain ⟨a, b⟩ := p
    unfold GoMap.get? at h
    by_cases hk : a = k
    · simp [hk] at h
    · simp only [hk, if_false] at h
      simp [GoMap.set, hk, ih h]

namespace Registry

/-- Once a call works on a registry it stays with it. -/
theorem at_persist (s : Mem) {c : PC} {x : Req × Nat} (h : c.at? = some x) : (callStep s c).2.at? = some x := by
  cases c with
  | load q rid => simp only [callStep]; split <;> exact h
  | store q rid m => simp only [callStep]; split <;> exact h
  | assert q rid m => simp only [callStep]; split <;> exact h
  | readEnable q g => simp [PC.at?] at h
  | loadGroup q g => simp [PC.at?] at h
  | storeGroup q g => simp [PC.at?] at h
  | setEnable q => simp [PC.at?] at h
  | setDone q => simp [PC.at?] at h
  | create q rid => exact h
  | check q rid m => exact h
  | incr q rid m => exact h
  | done q rid m => exact h
  | panicked q rid => exact h

/-- Only `store` changes the map of a registry. -/
theorem maps_same (s : Mem) (hu : ∀ r, s.nextReg ≤ r → (s.regs r).metricsMap = []) (c : PC)
    (hc : ∀ q r m, c = .store q r m → (s.regs r).metricsMap.get? q.name.hash ≠ none) (r : Nat) :
    ((callStep s c).1.regs r).metricsMap = (s.regs r).metricsMap := by
  cases c with
  | storeGroup q g =>
    have key : ((s.setReg s.nextReg { maxMetricCount := 5000 }).regs r).metricsMap = (s.regs r).metricsMap := by
      rw [setReg_regs]
      by_cases h : r = s.nextReg
      · rw [h, if_pos rfl, hu _ (Nat.le_refl _)]
      · rw [if_neg h]
    simp only [callStep]
    cases s.groups.get? g <;> exact key
  | loadGroup q g => simp only [callStep]; cases s.groups.get? g <;> rfl
  | load q rid => simp only [callStep]; cases (s.regs rid).metricsMap.get? q.name.hash <;> rfl
  | store q rid m =>
    have := hc q rid m rfl
    simp only [callStep]
    cases h : (s.regs rid).metricsMap.get? q.name.hash with
    | none => exact absurd h this
    | some e => rfl
  | incr q rid m =>
    simp only [callStep, setReg_regs]
    by_cases h : r = rid
    · rw [h, if_pos rfl]
    · rw [if_neg h]
  | _ => rfl

theorem creator_kind (k : Kind) (l : Int) (i : Nat) : (creator k l i).kind = k := by cases k <;> rfl

/-- `m` is what a lookup of `q` may put in the map: the no-op, or a metric created for it. -/
def MadeFor (q : Req) (m : Metric) : Prop := m = .nop q.kind ∨ ∃ i, m = creator q.kind q.name.level i

theorem MadeFor.kind_eq {q : Req} {m : Metric} (h : MadeFor q m) : m.kind = q.kind := by
  rcases h with rfl | ⟨i, rfl⟩
  · rfl
  · exact creator_kind _ _ _

/-- What calls found, and where entries come from. -/
structure Inv2 (s : Mem) (cs : List PC) : Prop where
  got : ∀ c ∈ cs, ∀ q r m, c.got? = some (q, r, m) → ∃ e, (s.regs r).metricsMap.get? q.name.hash = some e ∧ e.metric = m
  doneKind : ∀ c ∈ cs, ∀ q rid m, c = .done q rid m → m.kind = q.kind ∧ (rid = none → m = .nop q.kind)
  madeKind : ∀ c ∈ cs, ∀ q r m, (c = .check q r m ∨ c = .store q r m) → MadeFor q m
  origin : ∀ r k e, (s.regs r).metricsMap.get? k = some e →
    ∃ c ∈ cs, ∃ q, c.at? = some (q, r) ∧ q.name.hash = k ∧ MadeFor q e.metric ∧ q.name = e.name
  panics : ∀ c ∈ cs, ∀ q r, c = .panicked q r →
    ∃ e, (s.regs r).metricsMap.get? q.name.hash = some e ∧ e.metric.kind ≠ q.kind

theorem inv2_step {s : Mem} {pre : List PC} {c : PC} {post : List PC}
    (hu : ∀ r, s.nextReg ≤ r → (s.regs r).metricsMap = [])
    (h : Inv2 s (pre ++ c :: post)) : Inv2 (callStep s c).1 (pre ++ (callStep s c).2 :: post) := by
  have hm := step_mono s hu c
  have others : ∀ {P : PC → Prop}, (∀ d ∈ pre ++ c :: post, P d) → P (callStep s c).2 →
      ∀ d ∈ pre ++ (callStep s c).2 :: post, P d := by
    intro P hP hc d hd
    rcases List.mem_append.1 hd with hd | hd
    · exact hP d (by simp [hd])
    · rcases List.mem_cons.1 hd with rfl | hd
      · exact hc
      · exact hP d (by simp [hd])
  have keepMem : ∀ d ∈ pre ++ c :: post, ∀ x, d.at? = some x → ∃ d' ∈ pre ++ (callStep s c).2 :: post, d'.at? = some x := by
    intro d hd x hx
    rcases List.mem_append.1 hd with hd | hd
    · exact ⟨d, by simp [hd], hx⟩
    · rcases List.mem_cons.1 hd with rfl | hd
      · exact ⟨_, by simp, at_persist s hx⟩
      · exact ⟨d, by simp [hd], hx⟩
  have hgot := h.got c (by simp)
  have hdone := h.doneKind c (by simp)
  have hmade := h.madeKind c (by simp)
  have hpan := h.panics c (by simp)
  refine ⟨others ?_ ?_, others h.doneKind ?_, others h.madeKind ?_, ?_, others ?_ ?_⟩
  · intro d hd q r m hd'
    obtain ⟨e, he, he'⟩ := h.got d hd q r m hd'
    exact ⟨e, hm.entries _ _ _ he, he'⟩
  · intro q r m hq
    cases c with
    | readEnable q g => simp only [callStep] at hq; split at hq <;> simp [PC.got?] at hq
    | loadGroup q g => simp only [callStep] at hq; split at hq <;> simp [PC.got?] at hq
    | storeGroup q g => simp only [callStep] at hq; split at hq <;> simp [PC.got?] at hq
    | load q' rid =>
      cases hg : (s.regs rid).metricsMap.get? q'.name.hash with
      | none => simp [callStep, hg, PC.got?] at hq
      | some e =>
        simp only [callStep, hg, PC.got?, Option.some.injEq, Prod.mk.injEq] at hq ⊢
        obtain ⟨rfl, rfl, rfl⟩ := hq
        exact ⟨e, hg, rfl⟩
    | store q' rid m' =>
      cases hg : (s.regs rid).metricsMap.get? q'.name.hash with
      | none =>
        simp only [callStep, hg, PC.got?, Option.some.injEq, Prod.mk.injEq] at hq ⊢
        obtain ⟨rfl, rfl, rfl⟩ := hq
        exact ⟨⟨q'.name, m'⟩, by simp, rfl⟩
      | some e =>
        simp only [callStep, hg, PC.got?, Option.some.injEq, Prod.mk.injEq] at hq ⊢
        obtain ⟨rfl, rfl, rfl⟩ := hq
        exact ⟨e, hg, rfl⟩
    | incr q' rid m' =>
      obtain ⟨e, he, he'⟩ := hgot q r m hq
      exact ⟨e, hm.entries _ _ _ he, he'⟩
    | assert q' rid m' =>
      simp only [callStep] at hq
      split at hq
      · obtain ⟨e, he, he'⟩ := hgot q r m hq
        exact ⟨e, hm.entries _ _ _ he, he'⟩
      · simp [PC.got?] at hq
    | done q' rid m' => exact hgot q r m hq
    | create q' rid => simp [callStep, PC.got?] at hq
    | check q' rid m' => simp [callStep, PC.got?] at hq
    | panicked q' rid => simp [callStep, PC.got?] at hq
    | setEnable b => simp [callStep, PC.got?] at hq
    | setDone b => simp [callStep, PC.got?] at hq
  · intro q rid m hq
    cases c with
    | readEnable q' g =>
      simp only [callStep] at hq; split at hq
      · simp at hq
      · simp only [PC.done.injEq] at hq
        obtain ⟨rfl, rfl, rfl⟩ := hq
        exact ⟨rfl, fun _ => rfl⟩
    | assert q' r m' =>
      simp only [callStep] at hq; split at hq
      · simp only [PC.done.injEq] at hq
        obtain ⟨rfl, rfl, rfl⟩ := hq
        refine ⟨by assumption, by simp⟩
      · simp at hq
    | done q' rid' m' => exact hdone q rid m hq
    | loadGroup q g => simp only [callStep] at hq; split at hq <;> simp at hq
    | storeGroup q g => simp only [callStep] at hq; split at hq <;> simp at hq
    | load q' rid => simp only [callStep] at hq; split at hq <;> simp at hq
    | store q' rid m' => simp only [callStep] at hq; split at hq <;> simp at hq
    | _ => simp [callStep] at hq
  · intro q r m hq
    cases c with
    | create q' rid =>
      simp only [callStep, PC.check.injEq, reduceCtorEq, or_false] at hq
      obtain ⟨rfl, rfl, rfl⟩ := hq
      exact Or.inr ⟨_, rfl⟩
    | check q' rid m' =>
      simp only [callStep, PC.store.injEq, reduceCtorEq, false_or] at hq
      obtain ⟨rfl, rfl, rfl⟩ := hq
      split
      · exact Or.inl rfl
      · exact hmade q' rid m' (Or.inl rfl)
    | readEnable q' g => simp only [callStep] at hq; split at hq <;> simp at hq
    | loadGroup q g => simp only [callStep] at hq; split at hq <;> simp at hq
    | storeGroup q g => simp only [callStep] at hq; split at hq <;> simp at hq
    | load q' rid => simp only [callStep] at hq; split at hq <;> simp at hq
    | store q' rid m' => simp only [callStep] at hq; split at hq <;> simp at hq
    | assert q' r m' => simp only [callStep] at hq; split at hq <;> simp at hq
    | _ => simp [callStep] at hq
  · intro r k e he
    by_cases hc : ∃ q rid m, c = .store q rid m ∧ (s.regs rid).metricsMap.get? q.name.hash = none
    · obtain ⟨q, rid, m, rfl, hn⟩ := hc
      by_cases hk : r = rid ∧ q.name.hash = k
      · obtain ⟨rfl, rfl⟩ := hk
        simp only [callStep, hn, setReg_self, GoMap.get?_set_self, Option.some.injEq] at he
        subst he
        exact ⟨(callStep s (.store q r m)).2, by simp, q, at_persist s (c := .store q r m) rfl, rfl, hmade q r m (Or.inr rfl), rfl⟩
      · have : (s.regs r).metricsMap.get? k = some e := by
          simp only [callStep, hn, setReg_regs] at he
          by_cases hr : r = rid
          · subst hr
            have hk' : q.name.hash ≠ k := fun x => hk ⟨rfl, x⟩
            simpa [GoMap.get?_set_ne _ _ hk'] using he
          · simpa [hr] using he
        obtain ⟨d, hd, q', h1, h2⟩ := h.origin r k e this
        obtain ⟨d', hd', h1'⟩ := keepMem d hd _ h1
        exact ⟨d', hd', q', h1', h2⟩
    · rw [maps_same s hu c] at he
      · obtain ⟨d, hd, q', h1, h2⟩ := h.origin r k e he
        obtain ⟨d', hd', h1'⟩ := keepMem d hd _ h1
        exact ⟨d', hd', q', h1', h2⟩
      · intro q rid m hc' hn
        exact hc ⟨q, rid, m, hc', hn⟩
  · intro d hd q r hq
    obtain ⟨e, he, he'⟩ := h.panics d hd q r hq
    exact ⟨e, hm.entries _ _ _ he, he'⟩
  · intro q r hq
    cases c with
    | assert q' r' m' =>
      simp only [callStep] at hq
      split at hq
      · simp at hq
      · rename_i hk
        simp only [PC.panicked.injEq] at hq
        obtain ⟨rfl, rfl⟩ := hq
        obtain ⟨e, he, he'⟩ := hgot q' r' m' rfl
        refine ⟨e, hm.entries _ _ _ he, ?_⟩
        rw [he']; exact hk
    | panicked q' r' => exact hpan q r hq
    | readEnable q' g => simp only [callStep] at hq; split at hq <;> simp at hq
    | loadGroup q g => simp only [callStep] at hq; split at hq <;> simp at hq
    | storeGroup q g => simp only [callStep] at hq; split at hq <;> simp at hq
    | load q' rid => simp only [callStep] at hq; split at hq <;> simp at hq
    | store q' rid m' => simp only [callStep] at hq; split at hq <;> simp at hq
    | _ => simp [callStep] at hq

theorem begin_got (a : Call) : (begin a).got? = none := by
  cases a with
  | setEnable b => rfl
  | lookup q => simp only [begin]; cases q.target <;> rfl

theorem begin_own (a : Call) : (begin a).own? = none := by
  cases a with
  | setEnable b => rfl
  | lookup q => simp only [begin]; cases q.target <;> rfl

theorem inv2_spawn {s : Mem} {cs : List PC} {a : Call} (h : Inv2 s cs) : Inv2 s (cs ++ [begin a]) := by
  have key : ∀ {P : PC → Prop}, (∀ d ∈ cs, P d) → P (begin a) → ∀ d ∈ cs ++ [begin a], P d := by
    intro P hP hc d hd
    rcases List.mem_append.1 hd with hd | hd
    · exact hP d hd
    · simp only [List.mem_singleton] at hd; exact hd ▸ hc
  have hb : ∀ q r m, begin a ≠ .done q r m ∧ begin a ≠ .panicked q r.get! ∧ begin a ≠ .check q r.get! m ∧ begin a ≠ .store q r.get! m := by
    intro q r m
    cases a with
    | setEnable b => simp [begin]
    | lookup q' => simp only [begin]; cases q'.target <;> simp
  refine ⟨key h.got ?_, key h.doneKind ?_, key h.madeKind ?_, ?_, key h.panics ?_⟩
  · intro q r m hq; rw [begin_got] at hq; simp at hq
  · intro q r m hq; exact absurd hq (hb q r m).1
  · intro q r m hq
    rcases hq with hq | hq
    · exact absurd hq (hb q (some r) m).2.2.1
    · exact absurd hq (hb q (some r) m).2.2.2
  · intro r k e he
    obtain ⟨d, hd, x⟩ := h.origin r k e he
    exact ⟨d, by simp [hd], x⟩
  · intro q r hq; exact absurd hq (hb q (some r) (.nop .fast)).2.1

/-- Identities. -/
structure Inv3 (s : Mem) (cs : List PC) : Prop where
  freshMap : ∀ r k e i, (s.regs r).metricsMap.get? k = some e → e.metric.id? = some i → i < s.fresh
  freshOwn : ∀ c ∈ cs, ∀ i, c.own? = some i → i < s.fresh
  uniqMap : ∀ r k e r' k' e' i, (s.regs r).metricsMap.get? k = some e → (s.regs r').metricsMap.get? k' = some e' →
    e.metric.id? = some i → e'.metric.id? = some i → r = r' ∧ k = k'
  ownMap : ∀ c ∈ cs, ∀ i, c.own? = some i → ∀ r k e, (s.regs r).metricsMap.get? k = some e → e.metric.id? ≠ some i
  uniqOwn : cs.Pairwise (fun c d => ∀ i, c.own? = some i → d.own? ≠ some i)

theorem own_step (s : Mem) (c : PC) (i : Nat) (h : (callStep s c).2.own? = some i) :
    c.own? = some i ∨ (∃ q r, c = .create q r ∧ i = s.fresh) := by
  cases c with
  | create q r =>
    right
    refine ⟨q, r, rfl, ?_⟩
    simp only [callStep, PC.own?, creator] at h
    cases hk : q.kind <;> simp [hk, Metric.id?] at h <;> exact h.symm
  | check q r m =>
    left
    simp only [callStep, PC.own?] at h ⊢
    split at h
    · simp [Metric.id?] at h
    · exact h
  | readEnable q' g => simp only [callStep] at h; split at h <;> simp [PC.own?] at h
  | loadGroup q g => simp only [callStep] at h; split at h <;> simp [PC.own?] at h
  | storeGroup q g => simp only [callStep] at h; split at h <;> simp [PC.own?] at h
  | load q' rid => simp only [callStep] at h; split at h <;> simp [PC.own?] at h
  | store q' rid m' => simp only [callStep] at h; split at h <;> simp [PC.own?] at h
  | assert q' r m' => simp only [callStep] at h; split at h <;> simp [PC.own?] at h
  | _ => simp [callStep, PC.own?] at h

/-- A map entry after a step is an old one or the one just stored. -/
theorem entry_step (s : Mem) (hu : ∀ r, s.nextReg ≤ r → (s.regs r).metricsMap = []) (c : PC) (r : Nat) (k : GoStr) (e : Entry)
    (he : ((callStep s c).1.regs r).metricsMap.get? k = some e) :
    (s.regs r).metricsMap.get? k = some e ∨
      (∃ q m, c = .store q r m ∧ q.name.hash = k ∧ e = ⟨q.name, m⟩ ∧ (s.regs r).metricsMap.get? k = none) := by
  by_cases hc : ∃ q rid m, c = .store q rid m ∧ (s.regs rid).metricsMap.get? q.name.hash = none
  · obtain ⟨q, rid, m, rfl, hn⟩ := hc
    by_cases hk : r = rid ∧ q.name.hash = k
    · obtain ⟨rfl, rfl⟩ := hk
      simp only [callStep, hn, setReg_self, GoMap.get?_set_self, Option.some.injEq] at he
      exact Or.inr ⟨q, m, rfl, rfl, he.symm, hn⟩
    · left
      simp only [callStep, hn, setReg_regs] at he
      by_cases hr : r = rid
      · subst hr
        have hk' : q.name.hash ≠ k := fun x => hk ⟨rfl, x⟩
        simpa [GoMap.get?_set_ne _ _ hk'] using he
      · simpa [hr] using he
  · left
    rw [maps_same s hu c] at he
    · exact he
    · intro q rid m hc' hn
      exact hc ⟨q, rid, m, hc', hn⟩

theorem inv3_step {s : Mem} {pre : List PC} {c : PC} {post : List PC}
    (hu : ∀ r, s.nextReg ≤ r → (s.regs r).metricsMap = [])
    (h : Inv3 s (pre ++ c :: post)) : Inv3 (callStep s c).1 (pre ++ (callStep s c).2 :: post) := by
  have hm := step_mono s hu c
  have hfr : ∀ q r, c = .create q r → (callStep s c).1.fresh = s.fresh + 1 := by rintro q r rfl; rfl
  have hcmem : c ∈ pre ++ c :: post := by simp
  -- entries: old, or owned by c
  have hE : ∀ r k e i, ((callStep s c).1.regs r).metricsMap.get? k = some e → e.metric.id? = some i →
      ((s.regs r).metricsMap.get? k = some e) ∨
      (c.own? = some i ∧ ∃ q m, c = .store q r m ∧ q.name.hash = k ∧ (callStep s c).2.own? = none) := by
    intro r k e i he hi
    rcases entry_step s hu c r k e he with h1 | ⟨q, m, rfl, hk, rfl, hn⟩
    · exact Or.inl h1
    · subst hk
      exact Or.inr ⟨hi, q, m, rfl, rfl, by simp [callStep, hn, PC.own?]⟩
  -- owners: as before, or c with the fresh identity
  have pw := h.uniqOwn
  rw [List.pairwise_append, List.pairwise_cons] at pw
  obtain ⟨p1, ⟨p2, p3⟩, p4⟩ := pw
  have hO : ∀ d ∈ pre ++ (callStep s c).2 :: post, ∀ i, d.own? = some i →
      (∃ d' ∈ pre ++ c :: post, d'.own? = some i) ∨ (i = s.fresh ∧ (callStep s c).1.fresh = s.fresh + 1) := by
    intro d hd i hi
    rcases List.mem_append.1 hd with hd | hd
    · exact Or.inl ⟨d, by simp [hd], hi⟩
    · rcases List.mem_cons.1 hd with rfl | hd
      · rcases own_step s c i hi with h1 | ⟨q, r, h1, h2⟩
        · exact Or.inl ⟨c, hcmem, h1⟩
        · exact Or.inr ⟨h2, hfr q r h1⟩
      · exact Or.inl ⟨d, by simp [hd], hi⟩
  have hbound : ∀ d ∈ pre ++ c :: post, ∀ i, d.own? = some i → i < s.fresh := h.freshOwn
  refine ⟨?_, ?_, ?_, ?_, ?_⟩
  · intro r k e i he hi
    rcases hE r k e i he hi with h1 | ⟨h1, -⟩
    · exact Nat.lt_of_lt_of_le (h.freshMap r k e i h1 hi) hm.fresh
    · exact Nat.lt_of_lt_of_le (hbound c hcmem i h1) hm.fresh
  · intro d hd i hi
    rcases hO d hd i hi with ⟨d', hd', hi'⟩ | ⟨rfl, h2⟩
    · exact Nat.lt_of_lt_of_le (hbound d' hd' i hi') hm.fresh
    · omega
  · intro r k e r' k' e' i he he' hi hi'
    rcases hE r k e i he hi with h1 | ⟨h1, q, m, hc, hk, -⟩ <;> rcases hE r' k' e' i he' hi' with h2 | ⟨h2, q', m', hc', hk', -⟩
    · exact h.uniqMap r k e r' k' e' i h1 h2 hi hi'
    · exact absurd hi (h.ownMap c hcmem i h2 r k e h1)
    · exact absurd hi' (h.ownMap c hcmem i h1 r' k' e' h2)
    · rw [hc] at hc'
      simp only [PC.store.injEq] at hc'
      obtain ⟨rfl, rfl, -⟩ := hc'
      exact ⟨rfl, hk ▸ hk'⟩
  · intro d hd i hi r k e he hei
    rcases hE r k e i he hei with h1 | ⟨h1, q, m, hc, hk, hnone⟩
    · rcases hO d hd i hi with ⟨d', hd', hi'⟩ | ⟨rfl, h2⟩
      · exact h.ownMap d' hd' i hi' r k e h1 hei
      · exact absurd (h.freshMap r k e _ h1 hei) (by omega)
    · -- c itself owned i before and owns nothing now; d is another call
      rcases List.mem_append.1 hd with hd | hd
      · exact p4 d hd c (by simp) i hi h1
      · rcases List.mem_cons.1 hd with rfl | hd
        · rw [hnone] at hi; simp at hi
        · exact p2 d hd i h1 hi
  · rw [List.pairwise_append, List.pairwise_cons]
    refine ⟨p1, ⟨fun d hd i hi hdi => ?_, p3⟩, fun a ha b hb i hi hbi => ?_⟩
    · rcases own_step s c i hi with h1 | ⟨q, r, h1, h2⟩
      · exact p2 d hd i h1 hdi
      · subst h2; exact absurd (hbound d (by simp [hd]) _ hdi) (by omega)
    · rcases List.mem_cons.1 hb with rfl | hb
      · rcases own_step s c i hbi with h1 | ⟨q, r, h1, h2⟩
        · exact p4 a ha c (by simp) i hi h1
        · subst h2; exact absurd (hbound a (by simp [ha]) _ hi) (by omega)
      · exact p4 a ha b (by simp [hb]) i hi hbi

theorem inv3_spawn {s : Mem} {cs : List PC} {a : Call} (h : Inv3 s cs) : Inv3 s (cs ++ [begin a]) := by
  have key : ∀ {P : PC → Prop}, (∀ d ∈ cs, P d) → P (begin a) → ∀ d ∈ cs ++ [begin a], P d := by
    intro P hP hc d hd
    rcases List.mem_append.1 hd with hd | hd
    · exact hP d hd
    · simp only [List.mem_singleton] at hd; exact hd ▸ hc
  refine ⟨h.freshMap, key h.freshOwn ?_, h.uniqMap, key h.ownMap ?_, ?_⟩
  · intro i hi; rw [begin_own] at hi; simp at hi
  · intro i hi; rw [begin_own] at hi; simp at hi
  · rw [List.pairwise_append]
    refine ⟨h.uniqOwn, List.pairwise_singleton _ _, fun c _ d hd i _ => ?_⟩
    simp only [List.mem_singleton] at hd
    rw [hd, begin_own]; simp

/-! ## Counts -/

/-- About to increment the count of registry `rid`. -/
def PC.incrAt (rid : Nat) : PC → Bool
  | .incr _ r _ => r == rid
  | _ => false

/-- Past the store. -/
def PC.past : PC → Bool
  | .incr .. | .assert .. | .done .. | .panicked .. => true
  | _ => false

/-- About to store a real metric in `rid`. -/
def PC.armed (rid : Nat) : PC → Bool
  | .store _ r m => r == rid && m.isReal
  | _ => false

/-- The count is the number of entries less the pending increments. -/
structure Inv4 (s : Mem) (cs : List PC) : Prop where
  count : ∀ r, (s.regs r).metricsCount = i32 ((s.regs r).metricsMap.length - cs.countP (PC.incrAt r))
  past : ∀ r, (s.regs r).metricsMap.length ≤ cs.countP PC.past
  wf : ∀ r, GoMap.WF (s.regs r).metricsMap

theorem countP_replace (f : PC → Bool) (pre post : List PC) (c c' : PC) :
    ((pre ++ c' :: post).countP f : Int) = (pre ++ c :: post).countP f - (if f c then 1 else 0) + (if f c' then 1 else 0) := by
  simp only [List.countP_append, List.countP_cons]
  push_cast
  split <;> split <;> simp <;> ring

theorem inv4_step {n0 : Nat} {s : Mem} {pre : List PC} {c : PC} {post : List PC}
    (h1 : Inv1 n0 s (pre ++ c :: post))
    (h : Inv4 s (pre ++ c :: post)) : Inv4 (callStep s c).1 (pre ++ (callStep s c).2 :: post) := by
  have hu := fun r hr => (h1.unborn r hr).1
  have keep : (callStep s c).1.regs = s.regs → (∀ r, (callStep s c).2.incrAt r = c.incrAt r) →
      (c.past = true → (callStep s c).2.past = true) → Inv4 (callStep s c).1 (pre ++ (callStep s c).2 :: post) := by
    intro e hi hp
    refine ⟨fun r => ?_, fun r => ?_, fun r => by rw [e]; exact h.wf r⟩
    · rw [e, h.count r]
      have := countP_replace (PC.incrAt r) pre post c (callStep s c).2
      rw [hi r] at this
      rw [show ((pre ++ (callStep s c).2 :: post).countP (PC.incrAt r) : Int) = (pre ++ c :: post).countP (PC.incrAt r) by
        rw [this]; ring]
    · rw [e]
      have := countP_replace PC.past pre post c (callStep s c).2
      have := h.past r
      split at * <;> split at * <;> simp_all <;> omega
  cases c with
  | readEnable q g => apply keep rfl <;> simp only [callStep] <;> split <;> simp [PC.incrAt, PC.past]
  | loadGroup q g =>
    cases hg : s.groups.get? g <;> apply keep <;> simp [callStep, hg, PC.incrAt, PC.past]
  | storeGroup q g =>
    have e : ∀ r, ((callStep s (.storeGroup q g)).1.regs r).metricsMap = (s.regs r).metricsMap ∧
        ((callStep s (.storeGroup q g)).1.regs r).metricsCount = (s.regs r).metricsCount := by
      intro r
      refine ⟨maps_same s hu _ (by simp) r, ?_⟩
      have key : ((s.setReg s.nextReg { maxMetricCount := 5000 }).regs r).metricsCount = (s.regs r).metricsCount := by
        rw [setReg_regs]
        by_cases h : r = s.nextReg
        · rw [h, if_pos rfl, (h1.unborn _ (Nat.le_refl _)).2]
        · rw [if_neg h]
      simp only [callStep]
      cases s.groups.get? g <;> exact key
    have f : ∃ rid, (callStep s (.storeGroup q g)).2 = .load q rid := by
      simp only [callStep]; split <;> exact ⟨_, rfl⟩
    obtain ⟨rid, f⟩ := f
    refine ⟨fun r => ?_, fun r => ?_, fun r => by rw [(e r).1]; exact h.wf r⟩
    · rw [(e r).1, (e r).2, h.count r]
      congr 2
      simp [f, List.countP_append, List.countP_cons, PC.incrAt]
    · rw [(e r).1]
      have := h.past r
      simpa [f, List.countP_append, List.countP_cons, PC.past] using this
  | load q rid =>
    cases hg : (s.regs rid).metricsMap.get? q.name.hash <;> apply keep <;> simp [callStep, hg, PC.incrAt, PC.past]
  | create q rid => apply keep rfl <;> simp [callStep, PC.incrAt, PC.past]
  | check q rid m => apply keep rfl <;> simp [callStep, PC.incrAt, PC.past]
  | store q rid m =>
    cases hg : (s.regs rid).metricsMap.get? q.name.hash with
    | some e => apply keep <;> simp [callStep, hg, PC.incrAt, PC.past]
    | none =>
      have hs := GoMap.set_of_none ⟨q.name, m⟩ hg
      refine ⟨fun r => ?_, fun r => ?_, fun r => ?_⟩
      · have hc := h.count r
        simp only [callStep, hg, setReg_regs]
        by_cases hr : r = rid
        · subst hr
          rw [if_pos rfl]
          simp only [hs, List.length_append, List.length_singleton]
          rw [hc]
          congr 1
          simp only [List.countP_append, List.countP_cons, PC.incrAt]
          push_cast
          simp
          ring
        · rw [if_neg hr, hc]
          have : ¬ rid = r := fun e => hr e.symm
          congr 2
          simp [List.countP_append, List.countP_cons, PC.incrAt, this]
      · have hp := h.past r
        simp only [callStep, hg, setReg_regs]
        simp only [List.countP_append, List.countP_cons, PC.past] at hp ⊢
        by_cases hr : r = rid
        · subst hr
          rw [if_pos rfl]
          simp only [hs, List.length_append, List.length_singleton]
          simp at hp ⊢
          omega
        · rw [if_neg hr]
          simp at hp ⊢
          omega
      · simp only [callStep, hg, setReg_regs]
        by_cases hr : r = rid
        · subst hr
          rw [if_pos rfl]
          exact GoMap.wf_set (h.wf r) _ _
        · rw [if_neg hr]; exact h.wf r
  | incr q rid m =>
    refine ⟨fun r => ?_, fun r => ?_, fun r => ?_⟩
    · have hc := h.count r
      simp only [callStep, setReg_regs]
      by_cases hr : r = rid
      · subst hr
        rw [if_pos rfl]
        simp only
        rw [hc]
        simp only [List.countP_append, List.countP_cons, PC.incrAt]
        push_cast
        simp
        generalize (List.countP (PC.incrAt r) pre : Int) = A
        generalize (List.countP (PC.incrAt r) post : Int) = B
        generalize ((s.regs r).metricsMap.length : Int) = L
        unfold i32; omega
      · rw [if_neg hr, hc]
        have : ¬ rid = r := fun e => hr e.symm
        congr 2
        simp [List.countP_append, List.countP_cons, PC.incrAt, this]
    · have hp := h.past r
      simp only [List.countP_append, List.countP_cons, PC.past, callStep, setReg_regs] at hp ⊢
      by_cases hr : r = rid
      · subst hr
        rw [if_pos rfl]; exact hp
      · rw [if_neg hr]; exact hp
    · simp only [callStep, setReg_regs]
      by_cases hr : r = rid
      · subst hr
        rw [if_pos rfl]; exact h.wf r
      · rw [if_neg hr]; exact h.wf r
  | assert q r m => apply keep rfl <;> simp only [callStep] <;> split <;> simp [PC.incrAt, PC.past]
  | done q r m => apply keep rfl <;> simp [callStep, PC.incrAt, PC.past]
  | panicked q r => apply keep rfl <;> simp [callStep, PC.incrAt, PC.past]
  | setEnable b => apply keep rfl <;> simp [callStep, PC.incrAt, PC.past]
  | setDone b => apply keep rfl <;> simp [callStep, PC.incrAt, PC.past]

theorem begin_flags (a : Call) : (begin a).past = false ∧ (∀ r, (begin a).incrAt r = false) ∧ ∀ r, (begin a).armed r = false := by
  cases a with
  | setEnable b => simp [begin, PC.past, PC.incrAt, PC.armed]
  | lookup q => simp only [begin]; cases q.target <;> simp [PC.past, PC.incrAt, PC.armed]

theorem inv4_spawn {s : Mem} {cs : List PC} {a : Call} (h : Inv4 s cs) : Inv4 s (cs ++ [begin a]) := by
  obtain ⟨a1, a2, -⟩ := begin_flags a
  refine ⟨fun r => ?_, fun r => ?_, h.wf⟩
  · rw [h.count r]; congr 2; simp [List.countP_append, a2]
  · have := h.past r
    simp [List.countP_append, a1]; exact this

/-- Everything. -/
structure Inv (n0 : Nat) (s : Mem) (cs : List PC) : Prop where
  i1 : Inv1 n0 s cs
  i2 : Inv2 s cs
  i3 : Inv3 s cs
  i4 : Inv4 s cs

theorem inv_initial (limits : List Int) : Inv limits.length (initial limits) [] := by
  refine ⟨⟨Nat.le_refl _, ?_, ?_, ?_, ?_, ?_⟩, ⟨?_, ?_, ?_, ?_, ?_⟩, ⟨?_, ?_, ?_, ?_, ?_⟩, ⟨?_, ?_, ?_⟩⟩ <;>
    simp [initial, GoMap.WF, GoMap.keys, i32]

theorem inv_step {n0 : Nat} {s : Mem} {pre : List PC} {c : PC} {post : List PC} (h : Inv n0 s (pre ++ c :: post)) :
    Inv n0 (callStep s c).1 (pre ++ (callStep s c).2 :: post) :=
  have hu := fun r hr => (h.i1.unborn r hr).1
  ⟨inv1_step h.i1, inv2_step hu h.i2, inv3_step hu h.i3, inv4_step h.i1 h.i4⟩

theorem inv_spawn {n0 : Nat} {s : Mem} {cs : List PC} {a : Call} (ha : a.ok n0) (h : Inv n0 s cs) :
    Inv n0 s (cs ++ [begin a]) := ⟨inv1_spawn ha h.i1, inv2_spawn h.i2, inv3_spawn h.i3, inv4_spawn h.i4⟩

theorem inv_all (limits : List Int) (es : List (Ev Call Unit)) (hes : SchedOk limits.length es) :
    Inv limits.length (conc.run (Machine.start (initial limits)) es).shared (conc.run (Machine.start (initial limits)) es).calls :=
  conc.inv_run' (fun p => Inv limits.length p.shared p.calls) (Call.ok limits.length)
    (fun _ _ _ ha h => inv_spawn ha h) (fun _ _ _ _ _ h => inv_step h) _ (inv_initial limits) es hes

theorem mono_all {n0 : Nat} (p : Pool Mem PC) (h : Inv n0 p.shared p.calls) (es : List (Ev Call Unit)) (hes : SchedOk n0 es) :
    Mono p.shared (conc.run p es).shared := by
  refine (conc.inv_run' (fun p' => Inv n0 p'.shared p'.calls ∧ Mono p.shared p'.shared) (Call.ok n0)
    (fun _ _ _ ha h => ⟨inv_spawn ha h.1, h.2⟩) (fun s pre c post _ h => ⟨inv_step h.1, h.2.trans ?_⟩) p ⟨h, Mono.refl _⟩ es hes).2
  exact step_mono s (fun r hr => (h.1.i1.unborn r hr).1) c

end Registry
end GoMetrics
