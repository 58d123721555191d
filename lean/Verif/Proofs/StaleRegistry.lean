import Verif.Proofs.Stale
import Verif.Proofs.Races
import Verif.Proofs.RegistryIds
/-! # The invariants of the registry, when the switch and the count may be seen with old values -/
namespace GoMetrics
namespace Registry

theorem mem_replace {P : PC → Prop} {pre post : List PC} {c c' : PC} (h : ∀ d ∈ pre ++ c :: post, P d) (hc : P c → P c') :
    ∀ d ∈ pre ++ c' :: post, P d := by
  intro d hd
  rcases List.mem_append.1 hd with hd | hd
  · exact h d (by simp [hd])
  · rcases List.mem_cons.1 hd with rfl | hd
    · exact hc (h c (by simp))
    · exact h d (by simp [hd])

/-- After the check the call may go on with the metric it made, or with the no-op. -/
theorem inv_check {n0 : Nat} {s : Mem} {pre post : List PC} {q : Req} {r : Nat} {m m' : Metric} (hm : m' = m ∨ m' = .nop q.kind)
    (h : Inv n0 s (pre ++ .check q r m :: post)) : Inv n0 s (pre ++ .store q r m' :: post) := by
  have hown : ∀ i, (PC.store q r m').own? = some i → (PC.check q r m).own? = some i := by
    intro i hi
    rcases hm with rfl | rfl
    · exact hi
    · simp [PC.own?, Metric.id?] at hi
  have hmade := h.i2.madeKind (.check q r m) (by simp) q r m (Or.inl rfl)
  have keepMem : ∀ d ∈ pre ++ .check q r m :: post, ∀ x, d.at? = some x → ∃ d' ∈ pre ++ .store q r m' :: post, d'.at? = some x := by
    intro d hd x hx
    rcases List.mem_append.1 hd with hd | hd
    · exact ⟨d, by simp [hd], hx⟩
    · rcases List.mem_cons.1 hd with rfl | hd
      · exact ⟨.store q r m', by simp, hx⟩
      · exact ⟨d, by simp [hd], hx⟩
  refine ⟨⟨h.i1.base, h.i1.groupRange, h.i1.groupInj, h.i1.unborn, mem_replace h.i1.loc (fun h => h), mem_replace h.i1.pend (fun h => h)⟩,
    ⟨mem_replace h.i2.got (fun _ q r m x => by simp [PC.got?] at x), mem_replace h.i2.doneKind (fun _ q r m x => by simp at x),
      mem_replace h.i2.madeKind ?_, ?_, mem_replace h.i2.panics (fun _ q r x => by simp at x)⟩,
    ⟨h.i3.freshMap, mem_replace h.i3.freshOwn (fun x i hi => x i (hown i hi)), h.i3.uniqMap,
      mem_replace h.i3.ownMap (fun x i hi => x i (hown i hi)), ?_⟩,
    ⟨fun r' => ?_, fun r' => ?_, h.i4.wf⟩⟩
  · rintro - q' r' m'' hx
    simp only [reduceCtorEq, PC.store.injEq, false_or] at hx
    obtain ⟨rfl, rfl, rfl⟩ := hx
    rcases hm with rfl | rfl
    · exact hmade
    · exact Or.inl rfl
  · intro r' k e he
    obtain ⟨d, hd, q', h1, h2⟩ := h.i2.origin r' k e he
    obtain ⟨d', hd', h1'⟩ := keepMem d hd _ h1
    exact ⟨d', hd', q', h1', h2⟩
  · have pw := h.i3.uniqOwn
    rw [List.pairwise_append, List.pairwise_cons] at pw ⊢
    obtain ⟨p1, ⟨p2, p3⟩, p4⟩ := pw
    refine ⟨p1, ⟨fun d hd i hi => p2 d hd i (hown i hi), p3⟩, fun a ha b hb i hi hbi => ?_⟩
    rcases List.mem_cons.1 hb with rfl | hb
    · exact p4 a ha _ (by simp) i hi (hown i hbi)
    · exact p4 a ha b (by simp [hb]) i hi hbi
  · have := h.i4.count r'
    simpa [List.countP_append, List.countP_cons, PC.incrAt] using this
  · have := h.i4.past r'
    simpa [List.countP_append, List.countP_cons, PC.past] using this

/-- Every pending increment has its entry, and in the user's own registries the no-op is stored, or about to be, only if they are full. -/
structure Inv5 (n0 : Nat) (s : Mem) (cs : List PC) : Prop where
  pending : ∀ r, cs.countP (PC.incrAt r) ≤ (s.regs r).metricsMap.length
  made : ∀ c ∈ cs, ∀ q r m, c = .check q r m → m.isReal = true
  full : ∀ c ∈ cs, ∀ q r m, c = .store q r m → r < n0 → m.isReal = false → (s.regs r).metricsMap.length < 2 ^ 31 →
    (s.regs r).maxMetricCount ≤ (s.regs r).metricsMap.length
  entry : ∀ r k e, (s.regs r).metricsMap.get? k = some e → r < n0 → e.metric.isReal = false → (s.regs r).metricsMap.length < 2 ^ 31 →
    (s.regs r).maxMetricCount ≤ (s.regs r).metricsMap.length

theorem len_step (s : Mem) (hu : ∀ r, s.nextReg ≤ r → (s.regs r).metricsMap = []) (c : PC) (r : Nat) :
    (s.regs r).metricsMap.length ≤ ((callStep s c).1.regs r).metricsMap.length := by
  by_cases hc : ∃ q rid m, c = .store q rid m ∧ (s.regs rid).metricsMap.get? q.name.hash = none
  · obtain ⟨q, rid, m, rfl, hn⟩ := hc
    simp only [callStep, hn, setReg_regs]
    by_cases hr : r = rid
    · subst hr
      rw [if_pos rfl, GoMap.set_of_none _ hn, List.length_append]; omega
    · rw [if_neg hr]
  · rw [maps_same s hu c (fun q rid m h1 h2 => hc ⟨q, rid, m, h1, h2⟩)]

theorem creator_real (k : Kind) (l : Int) (i : Nat) : (creator k l i).isReal = true := by cases k <;> rfl

theorem inv5_step {n0 : Nat} {s : Mem} {pre post : List PC} {c : PC} (h1 : Inv n0 s (pre ++ c :: post)) (h : Inv5 n0 s (pre ++ c :: post)) :
    Inv5 n0 (callStep s c).1 (pre ++ (callStep s c).2 :: post) := by
  have hu := fun r hr => (h1.i1.unborn r hr).1
  have hm := step_mono s hu c
  have hl := len_step s hu c
  have hb := h1.i1.base
  have up : ∀ r, r < n0 → ((callStep s c).1.regs r).metricsMap.length < 2 ^ 31 →
      ((s.regs r).metricsMap.length < 2 ^ 31 → (s.regs r).maxMetricCount ≤ (s.regs r).metricsMap.length) →
      ((callStep s c).1.regs r).maxMetricCount ≤ ((callStep s c).1.regs r).metricsMap.length := by
    intro r hr hlt hx
    rw [hm.limits r (by omega)]
    have := hl r
    have := hx (by omega)
    omega
  refine ⟨fun r => ?_, ?_, ?_, ?_⟩
  · have h2 := h.pending r
    have h3 := hl r
    have key : (callStep s c).2.incrAt r = c.incrAt r ∨ ((callStep s c).2.incrAt r = false) ∨
        ((s.regs r).metricsMap.length + 1 = ((callStep s c).1.regs r).metricsMap.length) := by
      cases c with
      | store q rid m =>
        cases hg : (s.regs rid).metricsMap.get? q.name.hash with
        | some e => left; simp [callStep, hg, PC.incrAt]
        | none =>
          by_cases hr : r = rid
          · subst hr
            right; right
            simp only [callStep, hg, setReg_self]
            rw [GoMap.set_of_none _ hg, List.length_append]; rfl
          · left
            have : ¬ rid = r := fun e => hr e.symm
            simp [callStep, hg, PC.incrAt, this]
      | readEnable q g => left; simp only [callStep]; split <;> rfl
      | loadGroup q g => left; simp only [callStep]; split <;> rfl
      | storeGroup q g => left; simp only [callStep]; split <;> rfl
      | load q g => left; simp only [callStep]; split <;> rfl
      | assert q g m => left; simp only [callStep]; split <;> rfl
      | incr q g m => right; left; rfl
      | _ => left; rfl
    simp only [List.countP_append, List.countP_cons] at h2 ⊢
    generalize ((callStep s c).1.regs r).metricsMap.length = L at *
    rcases key with key | key | key
    · rw [key]; omega
    · rw [key]; simp; omega
    · have : (if (callStep s c).2.incrAt r = true then 1 else 0) ≤ 1 := by split <;> omega
      omega
  · intro d hd q r m hdm
    rcases List.mem_append.1 hd with hd | hd
    · exact h.made d (by simp [hd]) q r m hdm
    · rcases List.mem_cons.1 hd with hd | hd
      · rw [hdm] at hd
        cases c with
        | create q' r' =>
          simp only [callStep, PC.check.injEq] at hd
          rw [hd.2.2]; exact creator_real _ _ _
        | readEnable q g => simp only [callStep] at hd; split at hd <;> simp at hd
        | loadGroup q g => simp only [callStep] at hd; split at hd <;> simp at hd
        | storeGroup q g => simp only [callStep] at hd; split at hd <;> simp at hd
        | load q g => simp only [callStep] at hd; split at hd <;> simp at hd
        | store q g m => simp only [callStep] at hd; split at hd <;> simp at hd
        | assert q g m => simp only [callStep] at hd; split at hd <;> simp at hd
        | _ => simp [callStep] at hd
      · exact h.made d (by simp [hd]) q r m hdm
  · intro d hd q r m hdm hr hreal hlt
    have old : d ∈ pre ++ c :: post → ((callStep s c).1.regs r).maxMetricCount ≤ ((callStep s c).1.regs r).metricsMap.length :=
      fun hd => up r hr hlt (h.full d hd q r m hdm hr hreal)
    rcases List.mem_append.1 hd with hd | hd
    · exact old (by simp [hd])
    · rcases List.mem_cons.1 hd with hd | hd
      · rw [hdm] at hd
        cases c with
        | check q' r' m' =>
          simp only [callStep, PC.store.injEq] at hd
          obtain ⟨rfl, rfl, hmm⟩ := hd
          refine up r hr hlt fun hlt' => ?_
          by_cases hcnt : (s.regs r).metricsCount ≥ (s.regs r).maxMetricCount
          · have hc := h1.i4.count r
            have hp := h.pending r
            unfold i32 at hc
            omega
          · rw [if_neg hcnt] at hmm
            subst hmm
            rw [h.made _ (by simp) q r m rfl] at hreal
            simp at hreal
        | readEnable q g => simp only [callStep] at hd; split at hd <;> simp at hd
        | loadGroup q g => simp only [callStep] at hd; split at hd <;> simp at hd
        | storeGroup q g => simp only [callStep] at hd; split at hd <;> simp at hd
        | load q g => simp only [callStep] at hd; split at hd <;> simp at hd
        | store q g m => simp only [callStep] at hd; split at hd <;> simp at hd
        | assert q g m => simp only [callStep] at hd; split at hd <;> simp at hd
        | _ => simp [callStep] at hd
      · exact old (by simp [hd])
  · intro r k e he hr hreal hlt
    rcases entry_step s hu c r k e he with h2 | ⟨q, m, rfl, hk, rfl, hn⟩
    · exact up r hr hlt (h.entry r k e h2 hr hreal)
    · exact up r hr hlt (h.full _ (by simp) q r m rfl hr hreal)

theorem inv5_spawn {n0 : Nat} {s : Mem} {cs : List PC} {a : Call} (h : Inv5 n0 s cs) : Inv5 n0 s (cs ++ [begin a]) := by
  obtain ⟨-, a2, -⟩ := begin_flags a
  have hb : ∀ q r m, begin a ≠ .check q r m ∧ begin a ≠ .store q r m := by
    intro q r m
    cases a with
    | setEnable b => simp [begin]
    | lookup q' => simp only [begin]; cases q'.target <;> simp
  refine ⟨fun r => ?_, ?_, ?_, h.entry⟩
  · have := h.pending r
    simp [List.countP_append, a2]; exact this
  · intro d hd q r m hx
    rcases List.mem_append.1 hd with hd | hd
    · exact h.made d hd q r m hx
    · simp only [List.mem_singleton] at hd
      exact absurd (hd ▸ hx) (hb q r m).1
  · intro d hd q r m hx
    rcases List.mem_append.1 hd with hd | hd
    · exact h.full d hd q r m hx
    · simp only [List.mem_singleton] at hd
      exact absurd (hd ▸ hx) (hb q r m).2

/-- What is known of an earlier memory. -/
structure OldOk (n0 : Nat) (s' s : Mem) : Prop where
  mono : Mono s' s
  base : n0 ≤ s'.nextReg
  count : ∀ r, (s.regs r).metricsMap.length < 2 ^ 31 → (s'.regs r).metricsCount ≤ (s.regs r).metricsMap.length

theorem oldOk_refl {n0 : Nat} {s : Mem} {cs : List PC} (h1 : Inv n0 s cs) (h : Inv5 n0 s cs) : OldOk n0 s s := by
  refine ⟨Mono.refl s, h1.i1.base, fun r hr => ?_⟩
  have hc := h1.i4.count r
  have hp := h.pending r
  unfold i32 at hc
  omega

theorem oldOk_step {n0 : Nat} {s s' : Mem} {cs : List PC} (c : PC) (h1 : Inv n0 s cs) (h : OldOk n0 s' s) : OldOk n0 s' (callStep s c).1 := by
  have hu := fun r hr => (h1.i1.unborn r hr).1
  refine ⟨h.mono.trans (step_mono s hu c), h.base, fun r hr => ?_⟩
  have hl := len_step s hu c r
  have := h.count r (by omega)
  omega

/-- impl/default_registry.go:128, impl/default_metric_manager.go:42, 58: what lookups load while others write (`C88_registry`). -/
def racy : Loc → Bool
  | .enable => true
  | .count _ => true
  | _ => false

theorem loads_at {s : Mem} {c : PC} (h : footprint.loads racy s c = true) : (∃ q g, c = .readEnable q g) ∨ ∃ q r m, c = .check q r m := by
  cases c with
  | readEnable q g => exact Or.inl ⟨q, g, rfl⟩
  | check q r m => exact Or.inr ⟨q, r, m, rfl⟩
  | _ => simp [Footprint.loads, footprint, racy, rd, awr, ard, wr] at h

theorem covers : footprint.Covers conc racy := by
  constructor
  · intro s c a ha hr hw hm
    cases c <;> simp only [footprint, List.mem_cons, List.not_mem_nil, or_false] at ha <;> (try casesm* _ ∨ _) <;> subst_vars <;>
      first
      | rfl
      | (simp [racy, rd] at hr; done)
      | (simp [awr, wr] at hw; done)
      | (simp [ard] at hm; done)
  · intro s x c h
    rcases loads_at h with ⟨q, g, rfl⟩ | ⟨q, r, m, rfl⟩ <;> rfl

/-- A change of the switch is of no concern to the invariants. -/
theorem inv_enable {n0 : Nat} {s : Mem} {cs : List PC} (b : Bool) (h : Inv n0 s cs) : Inv n0 { s with enable := b } cs := by
  refine ⟨⟨h.i1.base, h.i1.groupRange, h.i1.groupInj, h.i1.unborn, fun c hc q r x => ?_, h.i1.pend⟩,
    ⟨h.i2.got, h.i2.doneKind, h.i2.madeKind, h.i2.origin, h.i2.panics⟩,
    ⟨h.i3.freshMap, h.i3.freshOwn, h.i3.uniqMap, h.i3.ownMap, h.i3.uniqOwn⟩, ⟨h.i4.count, h.i4.past, h.i4.wf⟩⟩
  exact h.i1.loc c hc q r x

theorem inv5_enable {n0 : Nat} {s : Mem} {cs : List PC} (b : Bool) (h : Inv5 n0 s cs) : Inv5 n0 { s with enable := b } cs :=
  ⟨h.pending, h.made, h.full, h.entry⟩

/-- The step of a load that sees an earlier memory. -/
theorem load_step {n0 : Nat} {s s' : Mem} {pre post : List PC} {c : PC} (h : Inv n0 s (pre ++ c :: post) ∧ Inv5 n0 s (pre ++ c :: post))
    (ho : OldOk n0 s' s) (hl : footprint.loads racy s c = true) :
    Inv n0 s (pre ++ (callStep s' c).2 :: post) ∧ Inv5 n0 s (pre ++ (callStep s' c).2 :: post) := by
  rcases loads_at hl with ⟨q, g, rfl⟩ | ⟨q, r, m, rfl⟩
  · have e : (callStep s' (.readEnable q g)).2 = (callStep { s with enable := s'.enable } (.readEnable q g)).2 := rfl
    have e' : { (callStep { s with enable := s'.enable } (.readEnable q g)).1 with enable := s.enable } = s := rfl
    have a := inv_enable s.enable (inv_step (inv_enable s'.enable h.1))
    have b := inv5_enable s.enable (inv5_step (inv_enable s'.enable h.1) (inv5_enable s'.enable h.2))
    rw [e'] at a b
    rw [e]
    exact ⟨a, b⟩
  · rw [show (callStep s' (.check q r m)).2 =
      .store q r (if (s'.regs r).metricsCount ≥ (s'.regs r).maxMetricCount then .nop q.kind else m) from rfl]
    refine ⟨inv_check (by split <;> simp) h.1, ?_⟩
    refine ⟨fun r' => ?_, mem_replace h.2.made (fun _ q r m x => by simp at x), ?_, h.2.entry⟩
    · have := h.2.pending r'
      simpa [List.countP_append, List.countP_cons, PC.incrAt] using this
    · refine mem_replace h.2.full ?_
      rintro - q' r' m' hx hr hreal hlt
      simp only [PC.store.injEq] at hx
      obtain ⟨rfl, rfl, hmm⟩ := hx
      have hb := ho.base
      by_cases hcnt : (s'.regs r).metricsCount ≥ (s'.regs r).maxMetricCount
      · rw [ho.mono.limits r (by omega)]
        have := ho.count r hlt
        omega
      · rw [if_neg hcnt] at hmm
        subst hmm
        rw [h.2.made _ (by simp) q r m rfl] at hreal
        simp at hreal

theorem inv5_initial (limits : List Int) : Inv5 limits.length (initial limits) [] := by
  refine ⟨?_, ?_, ?_, ?_⟩ <;> simp [initial]

section
variable (limits : List Int) (es es' : List (Ev Call (Unit × Nat)))

/-- Any number of concurrent lookups and `SetEnable` calls, where lookups may load old values of the switch and of the counts. -/
def staleAfter : Pool Mem PC := footprint.staleRun conc racy (initial limits) es

theorem stale_all (hes : ∀ a, Ev.spawn a ∈ es → a.ok limits.length) :
    Inv limits.length (staleAfter limits es).shared (staleAfter limits es).calls ∧ Inv5 limits.length (staleAfter limits es).shared (staleAfter limits es).calls :=
  footprint.stale_inv conc racy (fun s cs => Inv limits.length s cs ∧ Inv5 limits.length s cs) (OldOk limits.length) (Call.ok limits.length) (fun _ => True)
    (fun _ _ _ ha h => ⟨inv_spawn ha h.1, inv5_spawn h.2⟩) (fun _ _ _ _ _ _ h => ⟨inv_step h.1, inv5_step h.1 h.2⟩)
    (fun _ _ h => oldOk_refl h.1 h.2) (fun _ _ c _ _ _ _ h ho => oldOk_step c h.1 ho) (fun _ _ _ _ _ _ _ h ho hl => load_step h ho hl)
    _ ⟨inv_initial limits, inv5_initial limits⟩ es hes (fun _ _ _ _ => trivial)

theorem stale_mono (hes : ∀ a, Ev.spawn a ∈ es ++ es' → a.ok limits.length) :
    Mono (staleAfter limits es).shared (staleAfter limits (es ++ es')).shared :=
  (footprint.stale_old conc racy (fun s cs => Inv limits.length s cs ∧ Inv5 limits.length s cs) (OldOk limits.length) (Call.ok limits.length) (fun _ => True)
    (fun _ _ _ ha h => ⟨inv_spawn ha h.1, inv5_spawn h.2⟩) (fun _ _ _ _ _ _ h => ⟨inv_step h.1, inv5_step h.1 h.2⟩)
    (fun _ _ h => oldOk_refl h.1 h.2) (fun _ _ c _ _ _ _ h ho => oldOk_step c h.1 ho) (fun _ _ _ _ _ _ _ h ho hl => load_step h ho hl)
    _ ⟨inv_initial limits, inv5_initial limits⟩ es es' hes (fun _ _ _ _ => trivial)).mono
end

end Registry
end GoMetrics
