import Verif.Model.App
import Verif.Props.Registry
import Verif.Proofs.CompassType
/-! # Registry and metric objects together: invariants -/
namespace GoMetrics
namespace App
open Registry

variable {O U E : Type}

/-- The registry events of a run. -/
def regEvents : List (Event U E) → List (Ev Call Unit)
  | [] => []
  | .reg e _ :: es => e :: regEvents es
  | .use _ _ :: es => regEvents es

theorem regEvents_append (es es' : List (Event U E)) : regEvents (es ++ es') = regEvents es ++ regEvents es' := by
  induction es with
  | nil => rfl
  | cons e es ih => cases e <;> simp [regEvents, ih]

variable (K : Kit O U E)

theorem run_snoc (s : State O) (es : List (Event U E)) (e : Event U E) : run K s (es ++ [e]) = apply K (run K s es) e := by simp [run]

/-- The registry side of a run does not depend on the uses. -/
theorem run_pool (limits : List Int) (es : List (Event U E)) : (run K (start limits) es).pool = regRun limits (regEvents es) := by
  induction es using List.reverseRecOn with
  | nil => rfl
  | append_singleton es e ih =>
    rw [run_snoc, regEvents_append]
    cases e with
    | reg e env =>
      simp only [apply, regEvents]
      rw [ih, regRun, regRun, Machine.run_snoc]
    | use i u => simpa [apply, regEvents] using ih

/-- What an event does to the object with identity `id`, as a list of uses. -/
def usesAt (s : State O) (id : Nat) : Event U E → List U
  | .reg _ _ => []
  | .use i u =>
    match s.pool.calls[i]? with
    | some (.done _ _ (.real j _)) => if j = id then [u] else []
    | _ => []

/-- The uses of the object with identity `id`, in order. -/
def usesOfId (s : State O) (id : Nat) : List (Event U E) → List U
  | [] => []
  | e :: es => usesAt s id e ++ usesOfId (apply K s e) id es

theorem usesOfId_append (s : State O) (id : Nat) (es es' : List (Event U E)) :
    usesOfId K s id (es ++ es') = usesOfId K s id es ++ usesOfId K (run K s es) id es' := by
  induction es generalizing s with
  | nil => rfl
  | cons e es ih => simp only [List.cons_append, usesOfId, ih, List.append_assoc]; rfl

theorem usesOfId_snoc (s : State O) (id : Nat) (es : List (Event U E)) (e : Event U E) :
    usesOfId K s id (es ++ [e]) = usesOfId K s id es ++ usesAt (run K s es) id e := by
  rw [usesOfId_append]; simp [usesOfId]

/-- The metric a call has in hand. -/
def held? : PC → Option Metric
  | .check _ _ m | .store _ _ m | .incr _ _ m | .assert _ _ m | .done _ _ m => some m
  | _ => none

/-- The object of a real metric exists and is what its uses have made of it. -/
def Good (s : State O) (uses : Nat → List U) : Metric → Prop
  | .nop _ => True
  | .real id p => id < s.pool.shared.fresh ∧ ∃ env, s.objs id = some ((uses id).foldl (fun o u => K.use o u) (K.create p env))

structure Inv (s : State O) (uses : Nat → List U) : Prop where
  calls : ∀ c ∈ s.pool.calls, ∀ m, held? c = some m → Good K s uses m
  maps : ∀ r k e, (s.pool.shared.regs r).metricsMap.get? k = some e → Good K s uses e.metric
  unused : ∀ id, s.pool.shared.fresh ≤ id → uses id = []

theorem held_begin (a : Call) : held? (begin a) = none := by
  cases a with
  | setEnable b => rfl
  | lookup q => simp only [begin]; cases q.target <;> rfl

theorem creator_real (k : Kind) (l : Int) (i : Nat) : ∃ p, creator k l i = .real i p := by cases k <;> exact ⟨_, rfl⟩

/-- A step other than the one that creates an object neither makes metrics up nor changes the number of objects. -/
theorem step_other (s : Mem) (hu : ∀ r, s.nextReg ≤ r → (s.regs r).metricsMap = []) (c : PC) (hc : ∀ q r, c ≠ .create q r)
    (P : Metric → Prop) (hn : ∀ k, P (.nop k)) (h1 : ∀ m, held? c = some m → P m)
    (h2 : ∀ r k e, (s.regs r).metricsMap.get? k = some e → P e.metric) :
    (callStep s c).1.fresh = s.fresh ∧ (∀ m, held? (callStep s c).2 = some m → P m) ∧
    ∀ r k e, ((callStep s c).1.regs r).metricsMap.get? k = some e → P e.metric := by
  cases c with
  | create q r => exact absurd rfl (hc q r)
  | readEnable q g =>
    refine ⟨by trivial, ?_, h2⟩
    intro m hm
    by_cases he : s.enable = true
    · simp [callStep, he, held?] at hm
    · simp only [callStep, he] at hm
      simp [held?] at hm
      rw [← hm]; exact hn _
  | loadGroup q g =>
    cases hg : s.groups.get? g <;> simp only [callStep, hg] <;> exact ⟨by trivial, by simp [held?], h2⟩
  | storeGroup q g =>
    have hmap : ∀ r k e, ((s.setReg s.nextReg { maxMetricCount := 5000 }).regs r).metricsMap.get? k = some e → P e.metric := by
      intro r k e he
      rw [setReg_regs] at he
      by_cases hr : r = s.nextReg
      · rw [if_pos hr] at he; simp [GoMap.get?] at he
      · rw [if_neg hr] at he; exact h2 r k e he
    cases hg : s.groups.get? g <;> simp only [callStep, hg] <;> exact ⟨by trivial, by simp [held?], hmap⟩
  | load q r =>
    cases hg : (s.regs r).metricsMap.get? q.name.hash with
    | none => simp only [callStep, hg]; exact ⟨by trivial, by simp [held?], h2⟩
    | some e =>
      simp only [callStep, hg]
      refine ⟨by trivial, ?_, h2⟩
      intro m hm
      simp only [held?, Option.some.injEq] at hm
      rw [← hm]; exact h2 _ _ _ hg
  | check q r m =>
    simp only [callStep]
    refine ⟨by trivial, ?_, h2⟩
    intro m' hm
    simp only [held?, Option.some.injEq] at hm
    rw [← hm]
    split
    · exact hn _
    · exact h1 m rfl
  | store q r m =>
    cases hg : (s.regs r).metricsMap.get? q.name.hash with
    | some e =>
      simp only [callStep, hg]
      refine ⟨by trivial, ?_, h2⟩
      intro m' hm
      simp only [held?, Option.some.injEq] at hm
      rw [← hm]; exact h2 _ _ _ hg
    | none =>
      simp only [callStep, hg]
      refine ⟨by trivial, ?_, ?_⟩
      · intro m' hm
        simp only [held?, Option.some.injEq] at hm
        rw [← hm]; exact h1 m rfl
      · intro r' k e he
        rw [setReg_regs] at he
        by_cases hr : r' = r
        · rw [if_pos hr] at he
          simp only at he
          by_cases hk : q.name.hash = k
          · rw [hk, GoMap.get?_set_self] at he
            rw [← Option.some.inj he]; exact h1 m rfl
          · rw [GoMap.get?_set_ne _ _ hk] at he
            exact h2 r k e he
        · rw [if_neg hr] at he; exact h2 r' k e he
  | incr q r m =>
    simp only [callStep]
    refine ⟨by trivial, ?_, ?_⟩
    · intro m' hm
      simp only [held?, Option.some.injEq] at hm
      rw [← hm]; exact h1 m rfl
    · intro r' k e he
      rw [setReg_regs] at he
      by_cases hr : r' = r
      · rw [if_pos hr] at he; exact h2 r k e he
      · rw [if_neg hr] at he; exact h2 r' k e he
  | assert q r m =>
    simp only [callStep]
    refine ⟨by trivial, ?_, h2⟩
    intro m' hm
    split at hm
    · simp only [held?, Option.some.injEq] at hm
      rw [← hm]; exact h1 m rfl
    · simp [held?] at hm
  | done q r m => exact ⟨rfl, h1, h2⟩
  | panicked q r => exact ⟨rfl, by simp [callStep, held?], h2⟩
  | setEnable b => exact ⟨rfl, by simp [callStep, held?], h2⟩
  | setDone b => exact ⟨rfl, by simp [callStep, held?], h2⟩

theorem Good.keep {s s' : State O} {uses uses' : Nat → List U} {m : Metric} (h : Good K s uses m)
    (hf : s.pool.shared.fresh ≤ s'.pool.shared.fresh) (hk : ∀ id, id < s.pool.shared.fresh → s'.objs id = s.objs id ∧ uses' id = uses id) :
    Good K s' uses' m := by
  cases m with
  | nop k => trivial
  | real id p =>
    obtain ⟨h1, env, h2⟩ := h
    exact ⟨by omega, env, by rw [(hk id h1).1, (hk id h1).2]; exact h2⟩

theorem inv_all (limits : List Int) (es : List (Event U E)) (hes : SchedOk limits.length (regEvents es)) :
    Inv K (run K (start limits) es) (fun id => usesOfId K (start limits) id es) := by
  induction es using List.reverseRecOn with
  | nil =>
    refine ⟨by simp [run, start, Machine.start], ?_, fun _ _ => rfl⟩
    intro r k e he
    simp [run, start, Machine.start, initial, GoMap.get?] at he
  | append_singleton es e ih =>
    have hes0 : SchedOk limits.length (regEvents es) := by
      intro a ha; apply hes a; rw [regEvents_append]; exact List.mem_append_left _ ha
    have hreg := Registry.inv_all limits (regEvents es) hes0
    change Registry.Inv limits.length (regRun limits (regEvents es)).shared (regRun limits (regEvents es)).calls at hreg
    rw [← run_pool K] at hreg
    have ih := ih hes0
    simp only [usesOfId_snoc]
    rw [run_snoc]
    generalize run K (start limits) es = s at *
    have hu : ∀ r, s.pool.shared.nextReg ≤ r → (s.pool.shared.regs r).metricsMap = [] := fun r hr => (hreg.i1.unborn r hr).1
    generalize huses : (fun id => usesOfId K (start limits) id es) = uses at *
    have hu' : ∀ id, usesOfId K (start limits) id es = uses id := fun id => by rw [← huses]
    simp only [hu']
    clear huses hu'
    cases e with
    | use i u =>
      simp only [apply]
      cases hc : s.pool.calls[i]? with
      | none =>
        simp only [used, usesAt, hc, List.append_nil]
        exact ⟨fun c hc m hm => ih.calls c hc m hm, fun r k e he => ih.maps r k e he, ih.unused⟩
      | some c =>
        have hplain : (∀ q r id p, c ≠ .done q r (.real id p)) →
            Inv K ⟨s.pool, used K s i u⟩ (fun id => uses id ++ usesAt s id (.use i u : Event U E)) := by
          intro hne
          have e1 : used K s i u = s.objs := by
            unfold used; rw [hc]; split
            · rename_i q r id p he; exact absurd (Option.some.inj he) (hne q r id p)
            · rfl
          have e2 : (fun id => uses id ++ usesAt s id (.use i u : Event U E)) = uses := by
            funext id
            unfold usesAt; simp only [hc]; split
            · rename_i q r id p he; exact absurd (Option.some.inj he) (hne q r id p)
            · simp
          rw [e1, e2]
          exact ih
        cases c with
        | done q r m =>
          cases m with
          | nop k => exact hplain (by simp)
          | real id p =>
            have hg := ih.calls _ (List.mem_of_getElem? hc) (.real id p) rfl
            have key : ∀ m, Good K s uses m → Good K ⟨s.pool, used K s i u⟩ (fun id => uses id ++ usesAt s id (.use i u : Event U E)) m := by
              intro m hm
              cases m with
              | nop k => trivial
              | real j p' =>
                obtain ⟨g1, env, g2⟩ := hm
                refine ⟨g1, env, ?_⟩
                simp only [used, usesAt, hc]
                by_cases hj : j = id
                · subst hj
                  simp only [if_true, g2, Option.map_some, List.foldl_append, List.foldl_cons, List.foldl_nil]
                · rw [if_neg hj, if_neg (Ne.symm hj), g2, List.append_nil]
            refine ⟨fun c hc m hm => key m (ih.calls c hc m hm), fun r k e he => key _ (ih.maps r k e he), ?_⟩
            intro j hj
            simp only [usesAt, hc]
            have : id ≠ j := by
              have := hg.1
              simp only at hj
              omega
            rw [if_neg this, List.append_nil]
            exact ih.unused j hj
        | _ => exact hplain (by simp)
    | reg e env =>
      simp only [apply, usesAt, List.append_nil]
      cases e with
      | spawn a =>
        simp only [created, Machine.apply]
        refine ⟨?_, fun r k e he => ih.maps r k e he, ih.unused⟩
        intro c hc m hm
        rcases List.mem_append.1 hc with hc | hc
        · exact ih.calls c hc m hm
        · simp only [List.mem_singleton] at hc
          subst hc
          rw [show conc.call = begin from rfl, held_begin] at hm
          simp at hm
      | step i x =>
        cases hc : s.pool.calls[i]? with
        | none =>
          simp only [created, Machine.apply, hc]
          exact ⟨fun c hc m hm => ih.calls c hc m hm, fun r k e he => ih.maps r k e he, ih.unused⟩
        | some c =>
          have hci : c ∈ s.pool.calls := List.mem_of_getElem? hc
          have hset : ∀ {d' : PC} {d : PC}, d ∈ s.pool.calls.set i d' → d = d' ∨ d ∈ s.pool.calls := by
            intro d' d hd
            rcases List.mem_or_eq_of_mem_set hd with h | h
            · exact Or.inr h
            · exact Or.inl h
          by_cases hcr : ∃ q r, c = .create q r
          · obtain ⟨q, r, rfl⟩ := hcr
            obtain ⟨p, hp⟩ := creator_real q.kind q.name.level s.pool.shared.fresh
            simp only [created, Machine.apply, hc]
            rw [show conc.step s.pool.shared x (.create q r) = callStep s.pool.shared (.create q r) from rfl]
            simp only [callStep, hp]
            have keep : ∀ m, Good K s uses m → Good K ⟨⟨{ s.pool.shared with fresh := s.pool.shared.fresh + 1 },
                s.pool.calls.set i (.check q r (.real s.pool.shared.fresh p))⟩,
                fun j => if j = s.pool.shared.fresh then some (K.create p env) else s.objs j⟩ uses m := by
              intro m hm
              refine Good.keep K hm (Nat.le_succ _) ?_
              intro id hid
              exact ⟨by simp only; rw [if_neg (by omega)], rfl⟩
            refine ⟨?_, fun r k e he => keep _ (ih.maps r k e he), fun id hid => ih.unused id (by simp only at hid; omega)⟩
            intro d hd m hm
            rcases hset hd with rfl | hd
            · simp only [held?, Option.some.injEq] at hm
              subst hm
              refine ⟨Nat.lt_succ_self _, env, ?_⟩
              simp only [if_true]
              rw [ih.unused _ le_rfl]; rfl
            · exact keep m (ih.calls d hd m hm)
          · have hob : created K s (.step i x) env = s.objs := by
              unfold created; simp only [hc]
              split
              · rename_i q r he; exact absurd ⟨q, r, Option.some.inj he⟩ hcr
              · rfl
            rw [hob]
            simp only [Machine.apply, hc]
            rw [show conc.step s.pool.shared x c = callStep s.pool.shared c from rfl]
            obtain ⟨o1, o2, o3⟩ := step_other s.pool.shared hu c (fun q r h => hcr ⟨q, r, h⟩) (Good K s uses) (fun _ => trivial)
              (fun m hm => ih.calls c hci m hm) ih.maps
            have keep : ∀ m, Good K s uses m → Good K ⟨⟨(callStep s.pool.shared c).1, s.pool.calls.set i (callStep s.pool.shared c).2⟩,
                s.objs⟩ uses m := fun m hm => Good.keep K hm (by simp only; omega) (fun _ _ => ⟨rfl, rfl⟩)
            refine ⟨?_, fun r k e he => keep _ (o3 r k e he), fun id hid => ih.unused id (by simp only at hid; omega)⟩
            intro d hd m hm
            rcases hset hd with rfl | hd
            · exact keep m (o2 m hm)
            · exact keep m (ih.calls d hd m hm)

end App
end GoMetrics
