import Verif.Model.AppAny
import Verif.Proofs.App
import Verif.Proofs.StaleRegistry
/-! # Registry and metric objects together, whatever plain loads return: invariants -/
namespace GoMetrics
namespace Registry

/-- What a step can do that the step of Model/Registry.lean does not. -/
theorem any_cases (s : Mem) (x : Loads) (c : PC) :
    anyStep s x c = callStep s c ∨
    (∃ q g b, c = .readEnable q g ∧ anyStep s x c = (s, (callStep { s with enable := b } c).2)) ∨
    ∃ q r m m', c = .check q r m ∧ (m' = m ∨ m' = .nop q.kind) ∧ anyStep s x c = (s, .store q r m') := by
  cases c with
  | readEnable q g => exact .inr (.inl ⟨q, g, x.enable.getD s.enable, rfl, rfl⟩)
  | check q r m =>
    refine .inr (.inr ⟨q, r, m, if (x.count.getD (s.regs r).metricsCount) ≥ (s.regs r).maxMetricCount then .nop q.kind else m, rfl, ?_, rfl⟩)
    split <;> simp
  | _ => exact .inl rfl

/-- The invariants of Proofs/RegistryIds.lean do not need what these loads return. -/
theorem any_step {n0 : Nat} {s : Mem} {pre post : List PC} {c : PC} (x : Loads) (h : Inv n0 s (pre ++ c :: post)) :
    Inv n0 (anyStep s x c).1 (pre ++ (anyStep s x c).2 :: post) := by
  rcases any_cases s x c with e | ⟨q, g, b, rfl, e⟩ | ⟨q, r, m, m', rfl, hm, e⟩
  · rw [e]; exact inv_step h
  · rw [e]
    have a := inv_enable s.enable (inv_step (inv_enable b h))
    exact a
  · rw [e]; exact inv_check hm h

/-- A run from fresh registries and a fresh manager. -/
abbrev anyRun (limits : List Int) (es : List (Ev Call Loads)) : Pool Mem PC := anyConc.run (Machine.start (initial limits)) es

theorem any_all (limits : List Int) (es : List (Ev Call Loads)) (hes : ∀ a, Ev.spawn a ∈ es → a.ok limits.length) :
    Inv limits.length (anyRun limits es).shared (anyRun limits es).calls :=
  anyConc.inv_run' (fun p => Inv limits.length p.shared p.calls) (Call.ok limits.length)
    (fun _ _ _ ha h => inv_spawn ha h) (fun _ _ _ _ x h => any_step x h) _ (inv_initial limits) es hes

end Registry

namespace AppAny
open Registry
open App (Kit State held? Good Inv held_begin step_other start)

variable {O U E : Type}

/-- A step other than the one that creates an object neither makes metrics up nor changes the number of objects. -/
theorem any_other (s : Mem) (hu : ∀ r, s.nextReg ≤ r → (s.regs r).metricsMap = []) (x : Loads) (c : PC) (hc : ∀ q r, c ≠ .create q r)
    (P : Metric → Prop) (hn : ∀ k, P (.nop k)) (h1 : ∀ m, held? c = some m → P m)
    (h2 : ∀ r k e, (s.regs r).metricsMap.get? k = some e → P e.metric) :
    (anyStep s x c).1.fresh = s.fresh ∧ (∀ m, held? (anyStep s x c).2 = some m → P m) ∧
    ∀ r k e, ((anyStep s x c).1.regs r).metricsMap.get? k = some e → P e.metric := by
  rcases any_cases s x c with e | ⟨q, g, b, rfl, e⟩ | ⟨q, r, m, m', rfl, hm, e⟩
  · rw [e]; exact step_other s hu c hc P hn h1 h2
  · rw [e]
    have := step_other { s with enable := b } hu (.readEnable q g) hc P hn h1 h2
    exact ⟨rfl, this.2.1, h2⟩
  · rw [e]
    refine ⟨rfl, fun m'' hx => ?_, h2⟩
    simp only [held?, Option.some.injEq] at hx
    subst hx
    rcases hm with rfl | rfl
    · exact h1 _ rfl
    · exact hn _

/-- The registry events of a run. -/
def regEvents : List (Event U E) → List (Ev Call Loads)
  | [] => []
  | .reg e _ :: es => e :: regEvents es
  | .use _ _ :: es => regEvents es

theorem regEvents_append (es es' : List (Event U E)) : regEvents (es ++ es') = regEvents es ++ regEvents es' := by
  induction es with
  | nil => rfl
  | cons e es ih => cases e <;> simp [regEvents, ih]

variable (K : Kit O U E)

theorem run_snoc (s : State O) (es : List (Event U E)) (e : Event U E) : run K s (es ++ [e]) = apply K (run K s es) e := by simp [run]

/-- The registry side of a run does not depend on the uses. -/
theorem run_pool (limits : List Int) (es : List (Event U E)) : (run K (start limits) es).pool = anyRun limits (regEvents es) := by
  induction es using List.reverseRecOn with
  | nil => rfl
  | append_singleton es e ih =>
    rw [run_snoc, regEvents_append]
    cases e with
    | reg e env =>
      simp only [apply, regEvents]
      rw [ih, anyRun, anyRun, Machine.run_snoc]
    | use i u => simpa [apply, regEvents] using ih

/-- What an event does to the object with identity `id`, as a list of uses. -/
def usesAt (s : State O) (id : Nat) : Event U E → List U
  | .reg _ _ => []
  | .use i u =>
    match s.pool.calls[i]? with
    | some (.done _ _ (.real j _)) => if j = id then [u] else []
    | _ => []

/-- The uses of the object with identity `id`, in order. -/
def usesOfId (s : State O) (id : Nat) : List (Event U E) → List U
  | [] => []
  | e :: es => usesAt s id e ++ usesOfId (apply K s e) id es

theorem usesOfId_append (s : State O) (id : Nat) (es es' : List (Event U E)) :
    usesOfId K s id (es ++ es') = usesOfId K s id es ++ usesOfId K (run K s es) id es' := by
  induction es generalizing s with
  | nil => rfl
  | cons e es ih => simp only [List.cons_append, usesOfId, ih, List.append_assoc]; rfl

theorem usesOfId_snoc (s : State O) (id : Nat) (es : List (Event U E)) (e : Event U E) :
    usesOfId K s id (es ++ [e]) = usesOfId K s id es ++ usesAt (run K s es) id e := by
  rw [usesOfId_append]; simp [usesOfId]

theorem inv_all (limits : List Int) (es : List (Event U E)) (hes : ∀ a, Ev.spawn a ∈ regEvents es → a.ok limits.length) :
    Inv K (run K (start limits) es) (fun id => usesOfId K (start limits) id es) := by
  induction es using List.reverseRecOn with
  | nil =>
    refine ⟨by simp [run, start, Machine.start], ?_, fun _ _ => rfl⟩
    intro r k e he
    simp [run, start, Machine.start, initial] at he
  | append_singleton es e ih =>
    have hes0 : ∀ a, Ev.spawn a ∈ regEvents es → a.ok limits.length := by
      intro a ha; apply hes a; rw [regEvents_append]; exact List.mem_append_left _ ha
    have hreg := any_all limits (regEvents es) hes0
    change Registry.Inv limits.length (anyRun limits (regEvents es)).shared (anyRun limits (regEvents es)).calls at hreg
    rw [← run_pool K] at hreg
    have ih := ih hes0
    simp only [usesOfId_snoc]
    rw [run_snoc]
    generalize run K (start limits) es = s at *
    have hu : ∀ r, s.pool.shared.nextReg ≤ r → (s.pool.shared.regs r).metricsMap = [] := fun r hr => (hreg.i1.unborn r hr).1
    generalize huses : (fun id => usesOfId K (start limits) id es) = uses at *
    have hu' : ∀ id, usesOfId K (start limits) id es = uses id := fun id => by rw [← huses]
    simp only [hu']
    clear huses hu'
    cases e with
    | use i u =>
      simp only [apply]
      cases hc : s.pool.calls[i]? with
      | none =>
        simp only [App.used, usesAt, hc, List.append_nil]
        exact ⟨fun c hc m hm => ih.calls c hc m hm, fun r k e he => ih.maps r k e he, ih.unused⟩
      | some c =>
        have hplain : (∀ q r id p, c ≠ .done q r (.real id p)) →
            Inv K ⟨s.pool, App.used K s i u⟩ (fun id => uses id ++ usesAt s id (.use i u : Event U E)) := by
          intro hne
          have e1 : App.used K s i u = s.objs := by
            unfold App.used; rw [hc]; split
            · rename_i q r id p he; exact absurd (Option.some.inj he) (hne q r id p)
            · rfl
          have e2 : (fun id => uses id ++ usesAt s id (.use i u : Event U E)) = uses := by
            funext id
            unfold usesAt; simp only [hc]; split
            · rename_i q r id p he; exact absurd (Option.some.inj he) (hne q r id p)
            · simp
          rw [e1, e2]
          exact ih
        cases c with
        | done q r m =>
          cases m with
          | nop k => exact hplain (by simp)
          | real id p =>
            have hg := ih.calls _ (List.mem_of_getElem? hc) (.real id p) rfl
            have key : ∀ m, Good K s uses m → Good K ⟨s.pool, App.used K s i u⟩ (fun id => uses id ++ usesAt s id (.use i u : Event U E)) m := by
              intro m hm
              cases m with
              | nop k => trivial
              | real j p' =>
                obtain ⟨g1, env, g2⟩ := hm
                refine ⟨g1, env, ?_⟩
                simp only [App.used, usesAt, hc]
                by_cases hj : j = id
                · subst hj
                  simp only [if_true, g2, Option.map_some, List.foldl_append, List.foldl_cons, List.foldl_nil]
                · rw [if_neg hj, if_neg (Ne.symm hj), g2, List.append_nil]
            refine ⟨fun c hc m hm => key m (ih.calls c hc m hm), fun r k e he => key _ (ih.maps r k e he), ?_⟩
            intro j hj
            simp only [usesAt, hc]
            have : id ≠ j := by
              have := hg.1
              simp only at hj
              omega
            rw [if_neg this, List.append_nil]
            exact ih.unused j hj
        | _ => exact hplain (by simp)
    | reg e env =>
      simp only [apply, usesAt, List.append_nil]
      cases e with
      | spawn a =>
        simp only [created, Machine.apply]
        refine ⟨?_, fun r k e he => ih.maps r k e he, ih.unused⟩
        intro c hc m hm
        rcases List.mem_append.1 hc with hc | hc
        · exact ih.calls c hc m hm
        · simp only [List.mem_singleton] at hc
          subst hc
          rw [show anyConc.call = begin from rfl, held_begin] at hm
          simp at hm
      | step i x =>
        cases hc : s.pool.calls[i]? with
        | none =>
          simp only [created, Machine.apply, hc]
          exact ⟨fun c hc m hm => ih.calls c hc m hm, fun r k e he => ih.maps r k e he, ih.unused⟩
        | some c =>
          have hci : c ∈ s.pool.calls := List.mem_of_getElem? hc
          have hset : ∀ {d' : PC} {d : PC}, d ∈ s.pool.calls.set i d' → d = d' ∨ d ∈ s.pool.calls := by
            intro d' d hd
            rcases List.mem_or_eq_of_mem_set hd with h | h
            · exact Or.inr h
            · exact Or.inl h
          by_cases hcr : ∃ q r, c = .create q r
          · obtain ⟨q, r, rfl⟩ := hcr
            obtain ⟨p, hp⟩ := App.creator_real q.kind q.name.level s.pool.shared.fresh
            simp only [created, Machine.apply, hc]
            rw [show anyConc.step s.pool.shared x (.create q r) = callStep s.pool.shared (.create q r) from rfl]
            simp only [callStep, hp]
            have keep : ∀ m, Good K s uses m → Good K ⟨⟨{ s.pool.shared with fresh := s.pool.shared.fresh + 1 },
                s.pool.calls.set i (.check q r (.real s.pool.shared.fresh p))⟩,
                fun j => if j = s.pool.shared.fresh then some (K.create p env) else s.objs j⟩ uses m := by
              intro m hm
              refine App.Good.keep K hm (Nat.le_succ _) ?_
              intro id hid
              exact ⟨by simp only; rw [if_neg (by omega)], rfl⟩
            refine ⟨?_, fun r k e he => keep _ (ih.maps r k e he), fun id hid => ih.unused id (by simp only at hid; omega)⟩
            intro d hd m hm
            rcases hset hd with rfl | hd
            · simp only [held?, Option.some.injEq] at hm
              subst hm
              refine ⟨Nat.lt_succ_self _, env, ?_⟩
              simp only [if_true]
              rw [ih.unused _ le_rfl]; rfl
            · exact keep m (ih.calls d hd m hm)
          · have hob : created K s (.step i x) env = s.objs := by
              unfold created; simp only [hc]
              split
              · rename_i q r he; exact absurd ⟨q, r, Option.some.inj he⟩ hcr
              · rfl
            rw [hob]
            simp only [Machine.apply, hc]
            rw [show anyConc.step s.pool.shared x c = anyStep s.pool.shared x c from rfl]
            obtain ⟨o1, o2, o3⟩ := any_other s.pool.shared hu x c (fun q r h => hcr ⟨q, r, h⟩) (Good K s uses) (fun _ => trivial)
              (fun m hm => ih.calls c hci m hm) ih.maps
            have keep : ∀ m, Good K s uses m → Good K ⟨⟨(anyStep s.pool.shared x c).1, s.pool.calls.set i (anyStep s.pool.shared x c).2⟩,
                s.objs⟩ uses m := fun m hm => App.Good.keep K hm (by simp only; omega) (fun _ _ => ⟨rfl, rfl⟩)
            refine ⟨?_, fun r k e he => keep _ (o3 r k e he), fun id hid => ih.unused id (by simp only at hid; omega)⟩
            intro d hd m hm
            rcases hset hd with rfl | hd
            · exact keep m (o2 m hm)
            · exact keep m (ih.calls d hd m hm)

/-- Specification: the uses, in order, of metrics that were returned by lookups of key `k` in the registry or group `t`. (Lookups made
while the manager was disabled returned a no-op, from no registry; these do not count.) -/
def usesThrough (limits : List Int) (t : Target) (k : GoStr) (es : List (Event U E)) : List U :=
  (List.range es.length).filterMap fun n =>
    match (es[n]? : Option (Event U E)) with
    | some (Event.use i u) =>
      match (anyRun limits (regEvents (es.take n))).calls[i]? with
      | some (.done q (some _) _) => if q.target = t ∧ q.name.hash = k then some u else none
      | _ => none
    | _ => none

theorem usesThrough_snoc (limits : List Int) (t : Target) (k : GoStr) (es : List (Event U E)) (e : Event U E) :
    usesThrough limits t k (es ++ [e]) = usesThrough limits t k es ++
      match e with
      | .use i u =>
        match (anyRun limits (regEvents es)).calls[i]? with
        | some (.done q (some _) _) => if q.target = t ∧ q.name.hash = k then [u] else []
        | _ => []
      | _ => [] := by
  unfold usesThrough
  rw [List.length_append, List.length_singleton, List.range_succ, List.filterMap_append]
  congr 1
  · apply List.filterMap_congr
    intro n hn
    have hn : n < es.length := List.mem_range.1 hn
    rw [List.getElem?_append_left hn, List.take_append_of_le_length hn.le]
  · simp only [List.filterMap_cons, List.filterMap_nil, List.getElem?_concat_length, List.take_left]
    cases e with
    | reg e env => rfl
    | use i u =>
      simp only
      cases hc : (anyRun limits (regEvents es)).calls[i]? with
      | none => rfl
      | some c =>
        cases c with
        | done q r m =>
          cases r with
          | none => rfl
          | some r =>
            simp only
            by_cases h : q.target = t ∧ q.name.hash = k
            · rw [if_pos h, if_pos h]
            · rw [if_neg h, if_neg h]
        | _ => rfl

/-- A result stays. -/
theorem done_stays (p : Pool Mem PC) (es : List (Ev Call Loads)) (i : Nat) (q : Req) (r : Option Nat) (m : Metric)
    (h : p.calls[i]? = some (.done q r m)) : (anyConc.run p es).calls[i]? = some (.done q r m) := by
  induction es generalizing p with
  | nil => exact h
  | cons e es ih =>
    apply ih
    cases e with
    | spawn a =>
      simp only [Machine.apply]
      rw [List.getElem?_append_left (List.getElem?_eq_some_iff.1 h).1]; exact h
    | step j x =>
      cases hc : p.calls[j]? with
      | none => simp only [Machine.apply, hc]; exact h
      | some c =>
        simp only [Machine.apply, hc]
        by_cases hj : j = i
        · subst hj
          rw [hc] at h
          obtain rfl := Option.some.inj h
          rw [List.getElem?_set_self (List.getElem?_eq_some_iff.1 hc).1]
          rfl
        · rw [List.getElem?_set_ne hj]; exact h

/-- What reaches the object behind a result is what went through results of lookups for the same key in the same place. -/
theorem usesOfId_eq (K : Kit O U E) (limits : List Int) (es rest : List (Event U E))
    (hes : ∀ a, Ev.spawn a ∈ regEvents (es ++ rest) → a.ok limits.length) (q : Req) (r : Nat) (id : Nat) (p : Params)
    (h : .done q (some r) (.real id p) ∈ (anyRun limits (regEvents (es ++ rest))).calls) :
    usesOfId K (start limits) id es = usesThrough limits q.target q.name.hash es := by
  induction es using List.reverseRecOn generalizing rest with
  | nil => rfl
  | append_singleton es e ih =>
    rw [usesOfId_snoc, usesThrough_snoc, ih ([e] ++ rest) (by rw [← List.append_assoc]; exact hes) (by rw [← List.append_assoc]; exact h)]
    congr 1
    cases e with
    | reg e env => rfl
    | use i u =>
      simp only [usesAt, run_pool]
      cases hc : (anyRun limits (regEvents es)).calls[i]? with
      | none => rfl
      | some c =>
        cases c with
        | done q' r' m' =>
          have hfin : .done q' r' m' ∈ (anyRun limits (regEvents (es ++ [.use i u] ++ rest))).calls := by
            rw [List.append_assoc, regEvents_append, anyRun, Machine.run_append]
            exact List.mem_of_getElem? (done_stays _ _ i q' r' m' hc)
          cases r' with
          | none =>
            have hn := (any_all limits _ hes).i2.doneKind _ hfin q' none m' rfl
            simp only
            cases m' with
            | nop k => rfl
            | real j p' => have := hn.2 rfl; simp at this
          | some r' =>
            simp only
            by_cases hsame : q'.target = q.target ∧ q'.name.hash = q.name.hash
            · have := (any_all limits _ hes).same_metric q' q r' r m' _ hfin h hsame.1 hsame.2
              subst this
              simp [hsame]
            · rw [if_neg hsame]
              cases m' with
              | nop k => rfl
              | real j p' =>
                simp only
                by_cases hj : j = id
                · exfalso
                  subst hj
                  have hi := any_all limits _ hes
                  obtain ⟨e1, g1, g2⟩ := hi.i2.got _ h q r _ rfl
                  obtain ⟨e2, g3, g4⟩ := hi.i2.got _ hfin q' r' _ rfl
                  obtain ⟨rfl, hk⟩ := hi.i3.uniqMap r _ e1 r' _ e2 j g1 g3 (by rw [g2]; rfl) (by rw [g4]; rfl)
                  have hm : Metric.real j p = Metric.real j p' := by
                    rw [← g2, ← g4]
                    rw [hk, g3] at g1
                    rw [Option.some.inj g1]
                  have hpp := (Metric.real.inj hm).2
                  subst hpp
                  rcases not_and_or.1 hsame with hne | hne
                  · obtain ⟨k, hk⟩ := (any_all limits _ hes).distinct q' q _ _ _ hfin h (Or.inl hne); simp at hk
                  · exact hne hk.symm
                · rw [if_neg hj]
        | _ => rfl

/-- In every run, with whatever metric objects, the object behind the result of a finished lookup is a new object of its parameters to which exactly the
uses through results of lookups of the same key in the same registry or group were applied, in the order in which they happened. -/
theorem object {O U E : Type} (K : Kit O U E) (limits : List Int) (es : List (Event U E)) (hes : ∀ a, Ev.spawn a ∈ regEvents es → a.ok limits.length)
    (q : Req) (r : Option Nat) (id : Nat) (p : Params) (h : .done q r (.real id p) ∈ (anyRun limits (regEvents es)).calls) :
    ∃ env, (run K (start limits) es).objs id = some ((usesThrough limits q.target q.name.hash es).foldl K.use (K.create p env)) := by
  cases r with
  | none => have := ((any_all limits _ hes).i2.doneKind _ h q none _ rfl).2 rfl; simp at this
  | some r =>
    have hi := AppAny.inv_all K limits es hes
    have h' := h
    rw [← run_pool K] at h'
    obtain ⟨-, env, he⟩ := hi.calls _ h' (.real id p) rfl
    refine ⟨env, ?_⟩
    simp only at he
    rw [he, usesOfId_eq K limits es [] (by simpa using hes) q r id p (by simpa using h)]

end AppAny
end GoMetrics
