import Verif.Proofs.RegistryIds
import Verif.Spec.Registry
/-! # Registry and manager: sequential histories -/
namespace GoMetrics
namespace Registry

theorem solo_over (n : Nat) (s : Mem) (c : PC) (h : c.over = true) : solo n (s, c) = (s, c) := by
  induction n with
  | zero => rfl
  | succ n ih =>
    cases c <;> simp [PC.over] at h <;> simpa [solo, callStep] using ih

theorem solo_succ (n : Nat) (s : Mem) (c : PC) : solo (n + 1) (s, c) = solo n (callStep s c) := rfl

theorem setReg_setReg (s : Mem) (rid : Nat) (a b : Reg) : (s.setReg rid a).setReg rid b = s.setReg rid b := by
  simp only [Mem.setReg, Mem.mk.injEq, and_true, true_and]
  funext j
  by_cases hj : j = rid <;> simp [hj]

theorem solo_load (n : Nat) (s : Mem) (q : Req) (rid : Nat) : solo (n + 6) (s, .load q rid) = getOn s q rid := by
  unfold getOn
  rw [show n + 6 = (n + 5) + 1 by omega, solo_succ]
  cases h : (s.regs rid).metricsMap.get? q.name.hash with
  | some e =>
    rw [show callStep s (.load q rid) = (s, .assert q rid e.metric) by simp only [callStep, h]]
    rw [show n + 5 = (n + 4) + 1 by omega, solo_succ]
    rw [show callStep s (.assert q rid e.metric) =
      (s, if e.metric.kind = q.kind then PC.done q (some rid) e.metric else .panicked q rid) from rfl]
    apply solo_over
    split <;> rfl
  | none =>
    have hk : (if (s.regs rid).metricsCount ≥ (s.regs rid).maxMetricCount then Metric.nop q.kind
        else creator q.kind q.name.level s.fresh).kind = q.kind := by
      split
      · rfl
      · exact creator_kind _ _ _
    rw [show callStep s (.load q rid) = (s, .create q rid) by simp only [callStep, h]]
    rw [show n + 5 = (n + 4) + 1 by omega, solo_succ]
    rw [show callStep s (.create q rid) =
      ({ s with fresh := s.fresh + 1 }, .check q rid (creator q.kind q.name.level s.fresh)) from rfl]
    rw [show n + 4 = (n + 3) + 1 by omega, solo_succ]
    generalize hm : (if (s.regs rid).metricsCount ≥ (s.regs rid).maxMetricCount then Metric.nop q.kind
        else creator q.kind q.name.level s.fresh) = m at hk
    rw [show callStep { s with fresh := s.fresh + 1 } (.check q rid (creator q.kind q.name.level s.fresh)) =
      ({ s with fresh := s.fresh + 1 }, .store q rid m) by rw [← hm]; rfl]
    rw [show n + 3 = (n + 2) + 1 by omega, solo_succ]
    rw [show callStep { s with fresh := s.fresh + 1 } (.store q rid m) =
      ({ s with fresh := s.fresh + 1 }.setReg rid { s.regs rid with metricsMap := (s.regs rid).metricsMap.set q.name.hash ⟨q.name, m⟩ },
        .incr q rid m) by simp only [callStep, h]]
    rw [show n + 2 = (n + 1) + 1 by omega, solo_succ]
    simp only [callStep, setReg_self, setReg_setReg]
    rw [solo_succ]
    simp only [callStep, hk, if_true]
    rw [solo_over _ _ _ rfl]

theorem exec_direct (s : Mem) (q : Req) (r : Nat) (h : q.target = .direct r) : exec s (.lookup q) = getOn s q r := by
  unfold exec
  rw [show begin (.lookup q) = .load q r by simp only [begin, h]]
  exact solo_load 3 s q r

theorem exec_group (s : Mem) (q : Req) (g : GoStr) (h : q.target = .group g) : exec s (.lookup q) = getManaged s q g := by
  unfold exec getManaged
  rw [show begin (.lookup q) = .readEnable q g by simp only [begin, h], solo_succ]
  by_cases he : s.enable = true
  · rw [show callStep s (.readEnable q g) = (s, .loadGroup q g) by simp only [callStep, he, if_true], if_pos he, solo_succ]
    cases hg : s.groups.get? g with
    | some rid =>
      rw [show callStep s (.loadGroup q g) = (s, .load q rid) by simp only [callStep, hg]]
      exact solo_load 1 s q rid
    | none =>
      rw [show callStep s (.loadGroup q g) = (s, .storeGroup q g) by simp only [callStep, hg], solo_succ]
      rw [show callStep s (.storeGroup q g) = ({ s.setReg s.nextReg { maxMetricCount := 5000 } with
        nextReg := s.nextReg + 1, groups := s.groups.set g s.nextReg }, .load q s.nextReg) by simp only [callStep, hg]]
      exact solo_load 0 _ q s.nextReg
  · rw [show callStep s (.readEnable q g) = (s, .done q none (.nop q.kind)) by simp [callStep, he], if_neg he]
    exact solo_over _ _ _ rfl

theorem exec_setEnable (s : Mem) (b : Bool) : exec s (.setEnable b) = ({ s with enable := b }, .setDone b) := by
  simp [exec, begin, solo, callStep]

theorem enabledAfter_snoc (en : Bool) (h : List Call) (c : Call) :
    enabledAfter en (h ++ [c]) = enabledAfter (enabledAfter en h) [c] := by
  induction h generalizing en with
  | nil => rfl
  | cons a h ih => cases a <;> simp [enabledAfter, ih]

theorem asked_snoc (t : Target) (en : Bool) (h : List Call) (c : Call) :
    asked t en (h ++ [c]) = asked t en h ++ asked t (enabledAfter en h) [c] := by
  induction h generalizing en with
  | nil => rfl
  | cons a h ih =>
    cases a with
    | setEnable b => simp only [List.cons_append, asked, enabledAfter, ih]
    | lookup q =>
      simp only [List.cons_append, asked, enabledAfter, ih]
      split <;> rfl

theorem firsts_snoc (l : List Req) (q : Req) :
    firsts (l ++ [q]) = if (firsts l).any (fun p => p.name.hash == q.name.hash) then firsts l else firsts l ++ [q] := by
  simp [firsts]

/-- What the map of a registry must be. -/
def expected (limit : Int) (l : List Req) : List (GoStr × Name × Kind × Bool) :=
  (firsts l).zipIdx.map (fun x => (x.1.name.hash, x.1.name, x.1.kind, decide ((x.2 : Int) < limit)))

/-- What can be seen of a map of a registry without the identities. -/
def shape (m : GoMap GoStr Entry) : List (GoStr × Name × Kind × Bool) :=
  m.map (fun x => (x.1, x.2.name, x.2.metric.kind, x.2.metric.isReal))

/-- Small enough for `metricsCount`. -/
def Small (l : List Req) : Prop := (firsts l).length < 2147483648

theorem firsts_length_snoc (l : List Req) (q : Req) : (firsts l).length ≤ (firsts (l ++ [q])).length := by
  rw [firsts_snoc]; split <;> simp

structure SeqInv (limits : List Int) (h : List Call) (s : Mem) : Prop where
  inv1 : Inv1 limits.length s []
  en : s.enable = enabledAfter true h
  reg : ∀ t r, registryOf limits.length s t = some r → (s.regs r).maxMetricCount = limitOf limits t ∧
    ((firsts (asked t true h)).length ≤ 2147483647 →
      (s.regs r).metricsCount = (s.regs r).metricsMap.length ∧ shape (s.regs r).metricsMap = expected (limitOf limits t) (asked t true h))
  none : ∀ g, s.groups.get? g = none → asked (.group g) true h = []

theorem inv1_drop {n0 : Nat} {s : Mem} {cs : List PC} (h : Inv1 n0 s cs) : Inv1 n0 s [] :=
  ⟨h.base, h.groupRange, h.groupInj, h.unborn, by simp, by simp⟩

theorem inv1_exec {n0 : Nat} {s : Mem} (h : Inv1 n0 s []) {a : Call} (ha : a.ok n0) : Inv1 n0 (exec s a).1 [] := by
  have key : ∀ n s c, Inv1 n0 s [c] → Inv1 n0 (solo n (s, c)).1 [(solo n (s, c)).2] := by
    intro n
    induction n with
    | zero => intro s c h; exact h
    | succ n ih => intro s c h; exact ih _ _ (inv1_step (pre := []) (post := []) h)
  exact inv1_drop (key 9 s (begin a) (inv1_spawn (cs := []) ha h))

theorem get?_isSome_shape (m : GoMap GoStr Entry) (limit : Int) (l : List Req) (hs : shape m = expected limit l) (k : GoStr) :
    (m.get? k).isSome = (firsts l).any (fun p => p.name.hash == k) := by
  have h1 : m.keys = (firsts l).map (fun q => q.name.hash) := by
    have := congrArg (List.map Prod.fst) hs
    simp only [shape, expected, List.map_map] at this
    rw [GoMap.keys]
    rw [show (Prod.fst : GoStr × Entry → GoStr) =
      (Prod.fst ∘ fun x : GoStr × Entry => (x.1, x.2.name, x.2.metric.kind, x.2.metric.isReal)) by rfl, this]
    rw [show ((Prod.fst ∘ fun x : Req × Nat => (x.1.name.hash, x.1.name, x.1.kind, decide ((x.2 : Int) < limit)))) =
      ((fun q : Req => q.name.hash) ∘ Prod.fst) by rfl, ← List.map_map, List.zipIdx_map_fst]
  have h2 := GoMap.mem_keys_iff m k
  rw [h1] at h2
  rw [Bool.eq_iff_iff, List.any_eq_true, Option.isSome_iff_exists, ← h2]
  simp

theorem expected_snoc_new (limit : Int) (l : List Req) (q : Req) (h : (firsts l).any (fun p => p.name.hash == q.name.hash) = false) :
    expected limit (l ++ [q]) = expected limit l ++ [(q.name.hash, q.name, q.kind, decide (((firsts l).length : Int) < limit))] := by
  unfold expected
  rw [firsts_snoc, h]
  simp [List.zipIdx_append]

theorem expected_snoc_old (limit : Int) (l : List Req) (q : Req) (h : (firsts l).any (fun p => p.name.hash == q.name.hash) = true) :
    expected limit (l ++ [q]) = expected limit l := by
  unfold expected
  rw [firsts_snoc, h]
  simp

theorem getOn_spec (s : Mem) (q : Req) (rid : Nat) (limit : Int) (l : List Req)
    (hmax : (s.regs rid).maxMetricCount = limit)
    (hc : (s.regs rid).metricsCount = (s.regs rid).metricsMap.length)
    (hs : shape (s.regs rid).metricsMap = expected limit l) (hsm : (firsts (l ++ [q])).length ≤ 2147483647) :
    ((getOn s q rid).1.regs rid).metricsCount = ((getOn s q rid).1.regs rid).metricsMap.length ∧
    shape ((getOn s q rid).1.regs rid).metricsMap = expected limit (l ++ [q]) := by
  have hany := get?_isSome_shape _ _ _ hs q.name.hash
  have hlen : (s.regs rid).metricsMap.length = (firsts l).length := by
    have := congrArg List.length hs
    simpa [shape, expected] using this
  unfold getOn
  cases h : (s.regs rid).metricsMap.get? q.name.hash with
  | some e =>
    rw [h] at hany
    simp only [Option.isSome_some] at hany
    rw [expected_snoc_old _ _ _ hany.symm]
    exact ⟨hc, hs⟩
  | none =>
    rw [h] at hany
    simp only [Option.isSome_none] at hany
    have hfl : (firsts (l ++ [q])).length = (firsts l).length + 1 := by rw [firsts_snoc, ← hany]; simp
    rw [expected_snoc_new _ _ _ hany.symm]
    simp only [setReg_self]
    rw [GoMap.set_of_none _ h]
    constructor
    · rw [hc, List.length_append, List.length_singleton, hlen]
      rw [i32_of_range (by omega) (by omega)]
      push_cast; rfl
    · rw [shape, List.map_append, ← shape, hs]
      congr 1
      simp only [List.map_cons, List.map_nil, hc, hmax, hlen]
      have hk : (if ((firsts l).length : Int) ≥ limit then Metric.nop q.kind else creator q.kind q.name.level s.fresh).kind = q.kind := by
        split
        · rfl
        · exact creator_kind _ _ _
      rw [hk]
      congr 4
      by_cases hl : ((firsts l).length : Int) ≥ limit
      · rw [if_pos hl]
        have : ¬ ((firsts l).length : Int) < limit := by omega
        simp [Metric.isReal, this]
      · rw [if_neg hl]
        have : ((firsts l).length : Int) < limit := by omega
        rw [decide_eq_true this]
        cases q.kind <;> rfl

theorem getOn_other (s : Mem) (q : Req) (rid r : Nat) (h : r ≠ rid) : (getOn s q rid).1.regs r = s.regs r := by
  unfold getOn
  split
  · rfl
  · simp [setReg_regs, h]

theorem getOn_max (s : Mem) (q : Req) (rid r : Nat) : ((getOn s q rid).1.regs r).maxMetricCount = (s.regs r).maxMetricCount := by
  unfold getOn
  split
  · rfl
  · simp only [setReg_regs]
    by_cases h : r = rid <;> simp [h]

theorem getOn_globals (s : Mem) (q : Req) (rid : Nat) :
    (getOn s q rid).1.groups = s.groups ∧ (getOn s q rid).1.enable = s.enable ∧ (getOn s q rid).1.nextReg = s.nextReg := by
  unfold getOn
  split <;> simp

theorem registryOf_inj {n0 : Nat} {s : Mem} (h : Inv1 n0 s []) {t t' : Target} {r : Nat}
    (h1 : registryOf n0 s t = some r) (h2 : registryOf n0 s t' = some r) : t = t' := by
  unfold registryOf at h1 h2
  cases t with
  | direct d =>
    cases t' with
    | direct d' => simp at h1 h2; rw [h1.2, h2.2]
    | group g' => simp at h1 h2; have := h.groupRange _ _ h2; omega
  | group g =>
    cases t' with
    | direct d' => simp at h1 h2; have := h.groupRange _ _ h1; omega
    | group g' => simp at h1 h2; rw [h.groupInj _ _ _ h1 h2]

theorem registryOf_lt {n0 : Nat} {s : Mem} (h : Inv1 n0 s []) {t : Target} {r : Nat} (h1 : registryOf n0 s t = some r) :
    r < s.nextReg := by
  have hb := h.base
  unfold registryOf at h1
  cases t with
  | direct d => simp at h1; omega
  | group g => exact (h.groupRange _ _ h1).2

theorem seqInv_initial (limits : List Int) : SeqInv limits [] (initial limits) := by
  refine ⟨(inv_initial limits).i1, rfl, fun t r hr => ?_, fun g _ => rfl⟩
  cases t with
  | group g => simp [registryOf, initial] at hr
  | direct d =>
    simp [registryOf] at hr
    obtain ⟨-, rfl⟩ := hr
    exact ⟨rfl, fun _ => ⟨rfl, rfl⟩⟩

/-- One lookup on the registry of its target. -/
theorem seqInv_getOn {limits : List Int} {h : List Call} {s : Mem} (hi : SeqInv limits h s) (q : Req) (rid : Nat)
    (hr : registryOf limits.length s q.target = some rid)
    (hreach : s.enable = true ∨ ∃ r, q.target = .direct r)
    (hinv : Inv1 limits.length (getOn s q rid).1 []) :
    SeqInv limits (h ++ [.lookup q]) (getOn s q rid).1 := by
  obtain ⟨g1, g2, g3⟩ := getOn_globals s q rid
  have hask : ∀ t, asked t true (h ++ [.lookup q]) = if q.target = t then asked t true h ++ [q] else asked t true h := by
    intro t
    rw [asked_snoc, ← hi.en]
    by_cases ht : q.target = t
    · subst ht
      simp [asked, hreach]
    · simp [asked, ht]
  refine ⟨hinv, ?_, fun t r htr => ?_, fun g hg => ?_⟩
  · rw [g2, enabledAfter_snoc, hi.en]; rfl
  · have htr' : registryOf limits.length s t = some r := by
      unfold registryOf at htr ⊢
      rw [g1] at htr; exact htr
    obtain ⟨m1, m2⟩ := hi.reg t r htr'
    refine ⟨by rw [getOn_max]; exact m1, fun hsm => ?_⟩
    rw [hask] at hsm ⊢
    by_cases ht : q.target = t
    · subst ht
      rw [if_pos rfl] at hsm ⊢
      have : r = rid := by rw [hr] at htr'; exact (Option.some.inj htr').symm
      subst this
      obtain ⟨c1, c2⟩ := m2 (le_trans (firsts_length_snoc _ _) hsm)
      exact getOn_spec s q r _ _ m1 c1 c2 hsm
    · rw [if_neg ht] at hsm ⊢
      have : r ≠ rid := fun e => ht (registryOf_inj hi.inv1 hr (e ▸ htr'))
      rw [getOn_other _ _ _ _ this]
      exact m2 hsm
  · rw [g1] at hg
    rw [hask]
    by_cases ht : q.target = .group g
    · rw [ht] at hr
      simp only [registryOf] at hr
      rw [hr] at hg
      simp at hg
    · rw [if_neg ht]; exact hi.none g hg

theorem seqInv_step {limits : List Int} {h : List Call} {s : Mem} (hi : SeqInv limits h s) (c : Call) (hc : c.ok limits.length) :
    SeqInv limits (h ++ [c]) (exec s c).1 := by
  have hinv := inv1_exec hi.inv1 hc
  cases c with
  | setEnable b =>
    rw [exec_setEnable] at hinv ⊢
    have hask : ∀ t, asked t true (h ++ [.setEnable b]) = asked t true h := by
      intro t; rw [asked_snoc]; simp [asked]
    refine ⟨hinv, by rw [enabledAfter_snoc]; rfl, fun t r hr => ?_, fun g hg => ?_⟩
    · rw [hask]; exact hi.reg t r hr
    · rw [hask]; exact hi.none g hg
  | lookup q =>
    cases ht : q.target with
    | direct r =>
      rw [exec_direct s q r ht] at hinv ⊢
      simp only [Call.ok, ht] at hc
      exact seqInv_getOn hi q r (by simp [registryOf, ht, hc]) (Or.inr ⟨r, ht⟩) hinv
    | group g =>
      rw [exec_group s q g ht] at hinv ⊢
      unfold getManaged at hinv ⊢
      by_cases he : s.enable = true
      · rw [if_pos he] at hinv ⊢
        cases hg : s.groups.get? g with
        | some rid =>
          rw [hg] at hinv
          exact seqInv_getOn hi q rid (by simp [registryOf, ht, hg]) (Or.inl he) hinv
        | none =>
          rw [hg] at hinv
          simp only at hinv ⊢
          -- the state after the group got its registry
          have hs1 : SeqInv limits h { s.setReg s.nextReg { maxMetricCount := 5000 } with
              nextReg := s.nextReg + 1, groups := s.groups.set g s.nextReg } := by
            have h1 : Inv1 limits.length s [.storeGroup q g] :=
              ⟨hi.inv1.base, hi.inv1.groupRange, hi.inv1.groupInj, hi.inv1.unborn, by simp [PC.at?], by
                intro c hc q' g' e
                simp only [List.mem_singleton] at hc
                subst hc
                simp only [PC.before?, Option.some.injEq, Prod.mk.injEq] at e
                obtain ⟨rfl, rfl⟩ := e; exact ht⟩
            have h2 := inv1_drop (inv1_step (pre := []) (post := []) h1)
            simp only [callStep, hg] at h2
            refine ⟨h2, hi.en, fun t r hr => ?_, fun g' hg' => ?_⟩
            · by_cases htg : t = .group g
              · subst htg
                simp only [registryOf, GoMap.get?_set_self, Option.some.injEq] at hr
                subst hr
                simp only [setReg_self]
                refine ⟨rfl, fun _ => ⟨rfl, ?_⟩⟩
                rw [hi.none g hg]; rfl
              · have hr' : registryOf limits.length s t = some r := by
                  cases t with
                  | direct d => exact hr
                  | group g' =>
                    have hne : g ≠ g' := fun e => htg (by rw [e])
                    simp only [registryOf, GoMap.get?_set_ne _ _ hne] at hr
                    exact hr
                have hlt := registryOf_lt hi.inv1 hr'
                have hne : r ≠ s.nextReg := by omega
                simp only [setReg_regs, hne, if_false]
                exact hi.reg t r hr'
            · simp only [GoMap.get?_set] at hg'
              by_cases e : g = g'
              · simp [e] at hg'
              · simp only [e, if_false] at hg'
                exact hi.none g' hg'
          exact seqInv_getOn hs1 q s.nextReg (by simp [registryOf, ht]) (Or.inl he) hinv
      · rw [if_neg he] at hinv ⊢
        have hask : ∀ t, asked t true (h ++ [.lookup q]) = asked t true h := by
          intro t
          rw [asked_snoc, ← hi.en]
          by_cases e : q.target = t
          · subst e; simp [asked, he, ht]
          · simp [asked, e]
        refine ⟨hinv, ?_, fun t r hr => ?_, fun g hg => ?_⟩
        · rw [enabledAfter_snoc, hi.en]; rfl
        · rw [hask]; exact hi.reg t r hr
        · rw [hask]; exact hi.none g hg

theorem runSeq_snoc (s : Mem) (h : List Call) (c : Call) : runSeq s (h ++ [c]) = (exec (runSeq s h) c).1 := by simp [runSeq]

theorem seqInv_all (limits : List Int) (h : List Call) (hok : ∀ c ∈ h, c.ok limits.length) :
    SeqInv limits h (runSeq (initial limits) h) := by
  induction h using List.reverseRecOn with
  | nil => exact seqInv_initial limits
  | append_singleton h c ih =>
    rw [runSeq_snoc]
    exact seqInv_step (ih fun c hc => hok c (by simp [hc])) c (hok c (by simp))

end Registry
end GoMetrics
