import Verif.Model.Registry
/-! # Registry and manager: invariants over all interleavings -/
namespace GoMetrics
namespace Registry

@[simp] theorem setReg_self (s : Mem) (rid : Nat) (r : Reg) : (s.setReg rid r).regs rid = r := by simp [Mem.setReg]
theorem setReg_ne (s : Mem) {rid j : Nat} (r : Reg) (h : j ≠ rid) : (s.setReg rid r).regs j = s.regs j := by
  simp [Mem.setReg, h]
theorem setReg_regs (s : Mem) (rid j : Nat) (r : Reg) : (s.setReg rid r).regs j = if j = rid then r else s.regs j := rfl
@[simp] theorem setReg_groups (s : Mem) (rid : Nat) (r : Reg) : (s.setReg rid r).groups = s.groups := rfl
@[simp] theorem setReg_nextReg (s : Mem) (rid : Nat) (r : Reg) : (s.setReg rid r).nextReg = s.nextReg := rfl
@[simp] theorem setReg_fresh (s : Mem) (rid : Nat) (r : Reg) : (s.setReg rid r).fresh = s.fresh := rfl
@[simp] theorem setReg_enable (s : Mem) (rid : Nat) (r : Reg) : (s.setReg rid r).enable = s.enable := rfl

/-- Registry a call is working on (or got its result from). -/
def PC.at? : PC → Option (Req × Nat)
  | .load q r | .create q r | .check q r _ | .store q r _ | .incr q r _ | .assert q r _ | .panicked q r => some (q, r)
  | .done q (some r) _ => some (q, r)
  | _ => none

/-- Group a call is about to find the registry of. -/
def PC.before? : PC → Option (Req × GoStr)
  | .readEnable q g | .loadGroup q g | .storeGroup q g => some (q, g)
  | _ => none

/-- The metric a call found or stored in its registry. -/
def PC.got? : PC → Option (Req × Nat × Metric)
  | .incr q r m | .assert q r m | .done q (some r) m => some (q, r, m)
  | _ => none

/-- The metric object a call has created and not yet published. -/
def PC.own? : PC → Option Nat
  | .check _ _ m | .store _ _ m => m.id?
  | _ => none

/-- The registry `r` is the one a lookup of `q` must use. -/
def RightReg (n0 : Nat) (s : Mem) (q : Req) (r : Nat) : Prop :=
  match q.target with
  | .direct d => r = d ∧ d < n0
  | .group g => s.groups.get? g = some r

/-- Structural invariant; the first `n0` registries are the user's own. -/
structure Inv1 (n0 : Nat) (s : Mem) (cs : List PC) : Prop where
  base : n0 ≤ s.nextReg
  groupRange : ∀ g r, s.groups.get? g = some r → n0 ≤ r ∧ r < s.nextReg
  groupInj : ∀ g g' r, s.groups.get? g = some r → s.groups.get? g' = some r → g = g'
  unborn : ∀ r, s.nextReg ≤ r → (s.regs r).metricsMap = [] ∧ (s.regs r).metricsCount = 0
  loc : ∀ c ∈ cs, ∀ q r, c.at? = some (q, r) → RightReg n0 s q r
  pend : ∀ c ∈ cs, ∀ q g, c.before? = some (q, g) → q.target = .group g

/-- Memory only grows: entries, groups, limits stay. -/
structure Mono (s s' : Mem) : Prop where
  entries : ∀ r k e, (s.regs r).metricsMap.get? k = some e → (s'.regs r).metricsMap.get? k = some e
  groups : ∀ g r, s.groups.get? g = some r → s'.groups.get? g = some r
  next : s.nextReg ≤ s'.nextReg
  fresh : s.fresh ≤ s'.fresh
  limits : ∀ r, r < s.nextReg → (s'.regs r).maxMetricCount = (s.regs r).maxMetricCount

theorem Mono.refl (s : Mem) : Mono s s := ⟨fun _ _ _ h => h, fun _ _ h => h, Nat.le_refl _, Nat.le_refl _, fun _ _ => rfl⟩
theorem Mono.trans {a b c : Mem} (h : Mono a b) (h' : Mono b c) : Mono a c :=
  ⟨fun r k e x => h'.entries r k e (h.entries r k e x), fun g r x => h'.groups g r (h.groups g r x),
    h.next.trans h'.next, h.fresh.trans h'.fresh,
    fun r hr => (h'.limits r (Nat.lt_of_lt_of_le hr h.next)).trans (h.limits r hr)⟩

theorem step_mono (s : Mem) (hu : ∀ r, s.nextReg ≤ r → (s.regs r).metricsMap = []) (c : PC) : Mono s (callStep s c).1 := by
  cases c with
  | loadGroup q g =>
    simp only [callStep]; cases s.groups.get? g <;> exact Mono.refl s
  | storeGroup q g =>
    have key : ∀ r k e, (s.regs r).metricsMap.get? k = some e → r ≠ s.nextReg := by
      rintro r k e h rfl
      rw [hu _ (Nat.le_refl _)] at h
      simp at h
    simp only [callStep]
    cases hg : s.groups.get? g with
    | some rid =>
      refine ⟨fun r k e h => ?_, fun _ _ h => h, by simp, by simp, fun r hr => ?_⟩
      · simp [setReg_regs, key r k e h, h]
      · simp [setReg_regs, Nat.ne_of_lt hr]
    | none =>
      refine ⟨fun r k e h => ?_, fun g' r h => ?_, by simp, by simp, fun r hr => ?_⟩
      · simp [setReg_regs, key r k e h, h]
      · have : g ≠ g' := by rintro rfl; simp [hg] at h
        simp [GoMap.get?_set_ne _ _ this, h]
      · simp [setReg_regs, Nat.ne_of_lt hr]
  | load q rid =>
    simp only [callStep]; cases (s.regs rid).metricsMap.get? q.name.hash <;> exact Mono.refl s
  | create q rid => exact ⟨fun _ _ _ h => h, fun _ _ h => h, Nat.le_refl _, by simp [callStep], fun _ _ => rfl⟩
  | store q rid m =>
    simp only [callStep]
    cases h : (s.regs rid).metricsMap.get? q.name.hash with
    | some e => exact Mono.refl s
    | none =>
      refine ⟨fun r k e hk => ?_, fun _ _ h => h, by simp, by simp, fun r hr => ?_⟩
      · simp only [setReg_regs]
        by_cases hr : r = rid
        · subst hr
          have : q.name.hash ≠ k := by rintro rfl; simp [h] at hk
          simp [GoMap.get?_set_ne _ _ this, hk]
        · simp [hr, hk]
      · simp only [setReg_regs]
        by_cases hr : r = rid <;> simp [hr]
  | incr q rid m =>
    refine ⟨fun r k e hk => ?_, fun _ _ h => h, by simp [callStep], by simp [callStep], fun r hr => ?_⟩
    · simp only [callStep, setReg_regs]
      by_cases hr : r = rid
      · subst hr; simpa using hk
      · simpa [hr] using hk
    · simp only [callStep, setReg_regs]
      by_cases hr : r = rid <;> simp [hr]
  | _ => exact ⟨fun _ _ _ h => h, fun _ _ h => h, Nat.le_refl _, Nat.le_refl _, fun _ _ => rfl⟩

theorem RightReg.mono {n0 : Nat} {s s' : Mem} (h : Mono s s') {q : Req} {r : Nat} (hr : RightReg n0 s q r) :
    RightReg n0 s' q r := by
  unfold RightReg at *
  cases ht : q.target with
  | direct d => rw [ht] at hr; exact hr
  | group g => rw [ht] at hr; exact h.groups _ _ hr

theorem inv1_step {n0 : Nat} {s : Mem} {pre : List PC} {c : PC} {post : List PC}
    (h : Inv1 n0 s (pre ++ c :: post)) : Inv1 n0 (callStep s c).1 (pre ++ (callStep s c).2 :: post) := by
  have hm := step_mono s (fun r hr => (h.unborn r hr).1) c
  have hloc := h.loc c (by simp)
  have hpend := h.pend c (by simp)
  -- memory parts, and the new local state
  have main : (n0 ≤ (callStep s c).1.nextReg) ∧
      (∀ g r, (callStep s c).1.groups.get? g = some r → n0 ≤ r ∧ r < (callStep s c).1.nextReg) ∧
      (∀ g g' r, (callStep s c).1.groups.get? g = some r → (callStep s c).1.groups.get? g' = some r → g = g') ∧
      (∀ r, (callStep s c).1.nextReg ≤ r → ((callStep s c).1.regs r).metricsMap = [] ∧ ((callStep s c).1.regs r).metricsCount = 0) ∧
      (∀ q r, (callStep s c).2.at? = some (q, r) → RightReg n0 (callStep s c).1 q r) ∧
      (∀ q g, (callStep s c).2.before? = some (q, g) → q.target = .group g) := by
    have same : (callStep s c).1 = s → (∀ q r, (callStep s c).2.at? = some (q, r) → RightReg n0 s q r) →
        (∀ q g, (callStep s c).2.before? = some (q, g) → q.target = .group g) → _ := fun e a b =>
      (⟨by rw [e]; exact h.base, by rw [e]; exact h.groupRange, by rw [e]; exact h.groupInj, by rw [e]; exact h.unborn,
        by rw [e]; exact a, b⟩ : (n0 ≤ (callStep s c).1.nextReg) ∧
      (∀ g r, (callStep s c).1.groups.get? g = some r → n0 ≤ r ∧ r < (callStep s c).1.nextReg) ∧
      (∀ g g' r, (callStep s c).1.groups.get? g = some r → (callStep s c).1.groups.get? g' = some r → g = g') ∧
      (∀ r, (callStep s c).1.nextReg ≤ r → ((callStep s c).1.regs r).metricsMap = [] ∧ ((callStep s c).1.regs r).metricsCount = 0) ∧
      (∀ q r, (callStep s c).2.at? = some (q, r) → RightReg n0 (callStep s c).1 q r) ∧
      (∀ q g, (callStep s c).2.before? = some (q, g) → q.target = .group g))
    have rlt : ∀ q r, RightReg n0 s q r → r < s.nextReg := by
      intro q r hr
      unfold RightReg at hr
      have hb := h.base
      cases ht : q.target with
      | direct d => rw [ht] at hr; simp only at hr; omega
      | group g => rw [ht] at hr; exact (h.groupRange _ _ hr).2
    cases c with
    | readEnable q g =>
      have ht := hpend q g rfl
      apply same rfl
      · intro q' r; simp only [callStep]; split <;> simp [PC.at?]
      · intro q' g'; simp only [callStep]; split
        · simp only [PC.before?, Option.some.injEq, Prod.mk.injEq]; rintro ⟨rfl, rfl⟩; exact ht
        · simp [PC.before?]
    | loadGroup q g =>
      have ht := hpend q g rfl
      cases hg : s.groups.get? g with
      | some rid =>
        apply same (by simp [callStep, hg])
        · intro q' r; simp only [callStep, hg, PC.at?, Option.some.injEq, Prod.mk.injEq]; rintro ⟨rfl, rfl⟩
          unfold RightReg; rw [ht]; exact hg
        · intro q' g'; simp [callStep, hg, PC.before?]
      | none =>
        apply same (by simp [callStep, hg])
        · intro q' r; simp [callStep, hg, PC.at?]
        · intro q' g'; simp only [callStep, hg, PC.before?, Option.some.injEq, Prod.mk.injEq]; rintro ⟨rfl, rfl⟩; exact ht
    | storeGroup q g =>
      have ht := hpend q g rfl
      have hb := h.base
      cases hg : s.groups.get? g with
      | some rid =>
        simp only [callStep, hg]
        refine ⟨by omega, fun g r hh => ?_, h.groupInj, fun r hr => ?_, ?_, ?_⟩
        · have := h.groupRange g r hh; omega
        · skip
          have : r ≠ s.nextReg := by omega
          simp only [setReg_regs, this, if_false]
          exact h.unborn r (by omega)
        · intro q' r; simp only [PC.at?, Option.some.injEq, Prod.mk.injEq]; rintro ⟨rfl, rfl⟩
          unfold RightReg; rw [ht]; exact hg
        · intro q' g'; simp [PC.before?]
      | none =>
        simp only [callStep, hg]
        have fresh : ∀ g' , s.groups.get? g' ≠ some s.nextReg := by
          intro g' h'; exact absurd (h.groupRange _ _ h').2 (by omega)
        refine ⟨by omega, fun g' r hh => ?_, fun g1 g2 r h1 h2 => ?_, fun r hr => ?_, ?_, ?_⟩
        · simp only [GoMap.get?_set] at hh
          by_cases e : g = g'
          · simp [e] at hh; omega
          · simp [e] at hh; have := h.groupRange g' r hh; omega
        · simp only [GoMap.get?_set] at h1 h2
          by_cases e1 : g = g1 <;> by_cases e2 : g = g2
          · rw [← e1, ← e2]
          · simp [e1] at h1; simp [e2] at h2; subst h1; exact absurd h2 (fresh _)
          · simp [e1] at h1; simp [e2] at h2; subst h2; exact absurd h1 (fresh _)
          · simp [e1] at h1; simp [e2] at h2; exact h.groupInj _ _ _ h1 h2
        · skip
          have : r ≠ s.nextReg := by omega
          simp only [setReg_regs, this, if_false]
          exact h.unborn r (by omega)
        · intro q' r; simp only [PC.at?, Option.some.injEq, Prod.mk.injEq]; rintro ⟨rfl, rfl⟩
          unfold RightReg; rw [ht]; simp
        · intro q' g'; simp [PC.before?]
    | load q rid =>
      have hr := hloc q rid rfl
      cases hg : (s.regs rid).metricsMap.get? q.name.hash with
      | some e =>
        apply same (by simp [callStep, hg])
        · intro q' r; simp only [callStep, hg, PC.at?, Option.some.injEq, Prod.mk.injEq]; rintro ⟨rfl, rfl⟩; exact hr
        · intro q' g'; simp [callStep, hg, PC.before?]
      | none =>
        apply same (by simp [callStep, hg])
        · intro q' r; simp only [callStep, hg, PC.at?, Option.some.injEq, Prod.mk.injEq]; rintro ⟨rfl, rfl⟩; exact hr
        · intro q' g'; simp [callStep, hg, PC.before?]
    | create q rid =>
      have hr := hloc q rid rfl
      refine ⟨h.base, h.groupRange, h.groupInj, h.unborn, ?_, ?_⟩
      · intro q' r; simp only [callStep, PC.at?, Option.some.injEq, Prod.mk.injEq]; rintro ⟨rfl, rfl⟩; exact hr
      · intro q' g'; simp [callStep, PC.before?]
    | check q rid m =>
      have hr := hloc q rid rfl
      apply same rfl
      · intro q' r; simp only [callStep, PC.at?, Option.some.injEq, Prod.mk.injEq]; rintro ⟨rfl, rfl⟩; exact hr
      · intro q' g'; simp [callStep, PC.before?]
    | store q rid m =>
      have hr := hloc q rid rfl
      cases hg : (s.regs rid).metricsMap.get? q.name.hash with
      | some e =>
        apply same (by simp [callStep, hg])
        · intro q' r; simp only [callStep, hg, PC.at?, Option.some.injEq, Prod.mk.injEq]; rintro ⟨rfl, rfl⟩; exact hr
        · intro q' g'; simp [callStep, hg, PC.before?]
      | none =>
        simp only [callStep, hg]
        refine ⟨h.base, h.groupRange, h.groupInj, fun r hr' => ?_, ?_, ?_⟩
        · have := rlt _ _ hr
          simp only [setReg_nextReg] at hr'
          have hne : r ≠ rid := by omega
          simp only [setReg_regs, hne, if_false]
          exact h.unborn r hr'
        · intro q' r; simp only [PC.at?, Option.some.injEq, Prod.mk.injEq]; rintro ⟨rfl, rfl⟩; exact hr
        · intro q' g'; simp [PC.before?]
    | incr q rid m =>
      have hr := hloc q rid rfl
      refine ⟨h.base, h.groupRange, h.groupInj, fun r hr' => ?_, ?_, ?_⟩
      · have := rlt _ _ hr
        simp only [callStep, setReg_nextReg] at hr'
        have hne : r ≠ rid := by omega
        simp only [callStep, setReg_regs, hne, if_false]
        exact h.unborn r hr'
      · intro q' r; simp only [callStep, PC.at?, Option.some.injEq, Prod.mk.injEq]; rintro ⟨rfl, rfl⟩; exact hr
      · intro q' g'; simp [callStep, PC.before?]
    | assert q rid m =>
      have hr := hloc q rid rfl
      apply same rfl
      · intro q' r; simp only [callStep]; split <;>
          (simp only [PC.at?, Option.some.injEq, Prod.mk.injEq]; rintro ⟨rfl, rfl⟩; exact hr)
      · intro q' g'; simp only [callStep]; split <;> simp [PC.before?]
    | done q rid m => exact same rfl hloc hpend
    | panicked q rid => exact same rfl hloc hpend
    | setDone b => exact same rfl hloc hpend
    | setEnable b =>
      refine ⟨h.base, h.groupRange, h.groupInj, h.unborn, ?_, ?_⟩
      · intro q' r; simp [callStep, PC.at?]
      · intro q' g'; simp [callStep, PC.before?]
  obtain ⟨a1, a2, a3, a4, a5, a6⟩ := main
  refine ⟨a1, a2, a3, a4, ?_, ?_⟩
  · intro d hd q r hq
    rcases List.mem_append.1 hd with hd | hd
    · exact (h.loc d (by simp [hd]) q r hq).mono hm
    · rcases List.mem_cons.1 hd with rfl | hd
      · exact a5 q r hq
      · exact (h.loc d (by simp [hd]) q r hq).mono hm
  · intro d hd q r hq
    rcases List.mem_append.1 hd with hd | hd
    · exact h.pend d (by simp [hd]) q r hq
    · rcases List.mem_cons.1 hd with rfl | hd
      · exact a6 q r hq
      · exact h.pend d (by simp [hd]) q r hq

/-- A registry the user asks for directly is one of the user's own. -/
def Call.ok (n0 : Nat) : Call → Prop
  | .lookup q => match q.target with
    | .direct r => r < n0
    | .group _ => True
  | .setEnable _ => True

theorem inv1_spawn {n0 : Nat} {s : Mem} {cs : List PC} {a : Call} (ha : a.ok n0) (h : Inv1 n0 s cs) :
    Inv1 n0 s (cs ++ [begin a]) := by
  refine ⟨h.base, h.groupRange, h.groupInj, h.unborn, ?_, ?_⟩
  · intro d hd q r hq
    rcases List.mem_append.1 hd with hd | hd
    · exact h.loc d hd q r hq
    · simp only [List.mem_singleton] at hd
      subst hd
      cases a with
      | setEnable b => simp [begin, PC.at?] at hq
      | lookup q' =>
        simp only [Call.ok] at ha
        simp only [begin] at hq
        cases ht : q'.target with
        | direct d =>
          rw [ht] at hq ha
          simp only [PC.at?, Option.some.injEq, Prod.mk.injEq] at hq
          obtain ⟨rfl, rfl⟩ := hq
          unfold RightReg; rw [ht]; exact ⟨rfl, ha⟩
        | group g => rw [ht] at hq; simp [PC.at?] at hq
  · intro d hd q g hq
    rcases List.mem_append.1 hd with hd | hd
    · exact h.pend d hd q g hq
    · simp only [List.mem_singleton] at hd
      subst hd
      cases a with
      | setEnable b => simp [begin, PC.before?] at hq
      | lookup q' =>
        simp only [begin] at hq
        cases ht : q'.target with
        | direct d => rw [ht] at hq; simp [PC.before?] at hq
        | group g' =>
          rw [ht] at hq
          simp only [PC.before?, Option.some.injEq, Prod.mk.injEq] at hq
          obtain ⟨rfl, rfl⟩ := hq
          exact ht

/-- All calls of the schedule are on existing registries. -/
def SchedOk (n0 : Nat) (es : List (Ev Call Unit)) : Prop := ∀ a, Ev.spawn a ∈ es → a.ok n0

end Registry

namespace Machine
variable {S C A I : Type} (M : Machine S C A I)
/-- As `inv_run`, with a condition on the calls that are started. -/
theorem inv_run' (Inv : Pool S C → Prop) (P : A → Prop)
    (hspawn : ∀ s cs a, P a → Inv ⟨s, cs⟩ → Inv ⟨s, cs ++ [M.call a]⟩)
    (hstep : ∀ s pre c post x, Inv ⟨s, pre ++ c :: post⟩ →
      Inv ⟨(M.step s x c).1, pre ++ (M.step s x c).2 :: post⟩)
    (p : Pool S C) (h0 : Inv p) (es : List (Ev A I)) (hP : ∀ a, Ev.spawn a ∈ es → P a) : Inv (M.run p es) := by
  induction es generalizing p with
  | nil => exact h0
  | cons e es ih =>
    refine ih _ ?_ (fun a ha => hP a (List.mem_cons_of_mem _ ha))
    cases e with
    | spawn a => exact hspawn _ _ _ (hP a (by simp)) h0
    | step i x =>
      cases h : p.calls[i]? with
      | none => simpa [apply, h] using h0
      | some c =>
        obtain ⟨pre, post, h1, _, h2⟩ := M.apply_step_eq (x := x) h
        rw [h2]
        apply hstep
        rw [← h1]; exact h0
end Machine
end GoMetrics
