import Verif.Proofs.StaleRegistry
import Verif.Props.RegistryMore
import Verif.Props.Races
/-! # C101, registry and manager: what old values cannot break

`staleAfter limits es`: the user's own registries have the given limits, and any number of lookups and `SetEnable` calls run concurrently; the manager's switch
and the count that is compared with the limit are loaded with any older value. (A registry of a group may even be seen as it was before it was made, which Go
rules out; what is proved holds all the same.) -/
namespace GoMetrics
open Registry

/-- **C101.** These two are all that lookups and `SetEnable` calls race for (C88), and all their unsynchronised loads of them may see old values. -/
theorem C101_covers_registry : Registry.footprint.Covers Registry.conc Registry.racy ∧
    ∀ s l, Registry.footprint.Races Registry.conc s (fun _ => True) l → Registry.racy l = true := by
  refine ⟨Registry.covers, fun s l h => ?_⟩
  rcases C88_registry s l h with rfl | ⟨r, rfl⟩ <;> rfl

/-- **C101.** Two lookups of the same key in the same registry or group that got that far return the same metric. -/
theorem C101_same_metric (limits : List Int) (es : List (Ev Call (Unit × Nat))) (hes : ∀ a, Ev.spawn a ∈ es → a.ok limits.length)
    (q q' : Req) (r r' : Nat) (m m' : Metric)
    (h : .done q (some r) m ∈ (staleAfter limits es).calls) (h' : .done q' (some r') m' ∈ (staleAfter limits es).calls)
    (ht : q.target = q'.target) (hk : q.name.hash = q'.name.hash) : m = m' :=
  (stale_all limits es hes).1.same_metric q q' r r' m m' h h' ht hk

/-- **C101.** An entry stays. -/
theorem C101_entries_stay (limits : List Int) (es es' : List (Ev Call (Unit × Nat))) (hes : ∀ a, Ev.spawn a ∈ es ++ es' → a.ok limits.length) (r : Nat)
    (k : GoStr) (e : Entry) (h : ((staleAfter limits es).shared.regs r).metricsMap.get? k = some e) :
    ((staleAfter limits (es ++ es')).shared.regs r).metricsMap.get? k = some e := (stale_mono limits es es' hes).entries r k e h

/-- **C101.** Lookups of different keys, or in different registries or groups, never return the same metric object, except the shared no-op. -/
theorem C101_distinct (limits : List Int) (es : List (Ev Call (Unit × Nat))) (hes : ∀ a, Ev.spawn a ∈ es → a.ok limits.length)
    (q q' : Req) (r r' : Option Nat) (m : Metric)
    (h : .done q r m ∈ (staleAfter limits es).calls) (h' : .done q' r' m ∈ (staleAfter limits es).calls)
    (hne : q.target ≠ q'.target ∨ q.name.hash ≠ q'.name.hash) : ∃ k, m = .nop k :=
  (stale_all limits es hes).1.distinct q q' r r' m h h' hne

/-- **C101.** Two lookups through the manager use the same registry if and only if they name the same group. -/
theorem C101_one_registry_per_group (limits : List Int) (es : List (Ev Call (Unit × Nat))) (hes : ∀ a, Ev.spawn a ∈ es → a.ok limits.length)
    (q q' : Req) (g g' : GoStr) (r r' : Nat) (m m' : Metric) (hq : q.target = .group g) (hq' : q'.target = .group g')
    (h : .done q (some r) m ∈ (staleAfter limits es).calls) (h' : .done q' (some r') m' ∈ (staleAfter limits es).calls) : r = r' ↔ g = g' :=
  (stale_all limits es hes).1.one_registry_per_group q q' g g' r r' m m' hq hq' h h'

/-- **C101.** A key is in a registry only if some lookup asked for it there, every lookup that returned or panicked left its key there, and no key is there twice. -/
theorem C101_keys (limits : List Int) (es : List (Ev Call (Unit × Nat))) (hes : ∀ a, Ev.spawn a ∈ es → a.ok limits.length) (r : Nat) (k : GoStr) :
    ((∃ e, ((staleAfter limits es).shared.regs r).metricsMap.get? k = some e) →
      ∃ c ∈ (staleAfter limits es).calls, ∃ q, c.req? = some q ∧ q.name.hash = k ∧
        (q.target = .direct r ∨ ∃ g, q.target = .group g ∧ (staleAfter limits es).shared.groups.get? g = some r)) ∧
    ((∃ q, ((∃ m, .done q (some r) m ∈ (staleAfter limits es).calls) ∨ .panicked q r ∈ (staleAfter limits es).calls) ∧ q.name.hash = k) →
      ∃ e, ((staleAfter limits es).shared.regs r).metricsMap.get? k = some e) ∧
    (((staleAfter limits es).shared.regs r).metricsMap.map Prod.fst).Nodup :=
  (stale_all limits es hes).1.keys r k

/-- **C101.** A lookup that panics has met a lookup for the other kind; one that returns, returns the kind asked for. -/
theorem C101_kinds (limits : List Int) (es : List (Ev Call (Unit × Nat))) (hes : ∀ a, Ev.spawn a ∈ es → a.ok limits.length) (q : Req) :
    (∀ r, .panicked q r ∈ (staleAfter limits es).calls →
      ∃ c ∈ (staleAfter limits es).calls, ∃ q', c.req? = some q' ∧ q'.target = q.target ∧ q'.name.hash = q.name.hash ∧ q'.kind ≠ q.kind) ∧
    (∀ r m, .done q r m ∈ (staleAfter limits es).calls → m.kind = q.kind) := (stale_all limits es hes).1.kinds q

/-- **C101.** An old count is a smaller one: a lookup on one of the user's registries is refused, that is, given the no-op, only if that registry has as many
entries as its limit. -/
theorem C101_refused_only_if_full (limits : List Int) (es : List (Ev Call (Unit × Nat))) (hes : ∀ a, Ev.spawn a ∈ es → a.ok limits.length) (q : Req) (r : Nat)
    (k : Kind) (L : Int) (hL : limits[r]? = some L) (h : .done q (some r) (.nop k) ∈ (staleAfter limits es).calls)
    (hlt : ((staleAfter limits es).shared.regs r).metricsMap.length < 2 ^ 31) :
    L ≤ ((staleAfter limits es).shared.regs r).metricsMap.length := by
  obtain ⟨hi, h5⟩ := stale_all limits es hes
  have hr : r < limits.length := by
    by_contra hh
    rw [List.getElem?_eq_none (by omega)] at hL
    simp at hL
  obtain ⟨e, he, hm⟩ := hi.i2.got _ h q r (.nop k) rfl
  have hx := h5.entry r _ e he hr (by rw [hm]; rfl) hlt
  have hmax : ((staleAfter limits es).shared.regs r).maxMetricCount = L := by
    have := (stale_mono limits [] es hes).limits r hr
    rw [show [] ++ es = es from rfl] at this
    rw [this]
    show ((initial limits).regs r).maxMetricCount = L
    simp [initial, hL]
  rw [hmax] at hx
  exact hx

/-- **C101**, the same when no value is old: in every interleaving. (C34 says more of sequential histories.) -/
theorem C101_refused_only_if_full_fresh (limits : List Int) (es : List (Ev Call Unit)) (hes : SchedOk limits.length es) (q : Req) (r : Nat)
    (k : Kind) (L : Int) (hL : limits[r]? = some L) (h : .done q (some r) (.nop k) ∈ (regRun limits es).calls)
    (hlt : ((regRun limits es).shared.regs r).metricsMap.length < 2 ^ 31) :
    L ≤ ((regRun limits es).shared.regs r).metricsMap.length := by
  obtain ⟨es', hs, e⟩ : ∃ es' : List (Ev Call (Unit × Nat)), (∀ a, Ev.spawn a ∈ es' → a.ok limits.length) ∧ staleAfter limits es' = regRun limits es := by
    refine ⟨_, ?_, footprint.staleRun_fresh conc racy Registry.covers (initial limits) es es.length le_rfl⟩
    intro a ha
    obtain ⟨e', he', hae⟩ := List.mem_map.1 ha
    cases e' with
    | spawn b => simp only [Ev.spawn.injEq] at hae; exact hes a (hae ▸ he')
    | step i x => simp at hae
  rw [← e] at h hlt ⊢
  exact C101_refused_only_if_full limits es' hs q r k L hL h hlt

/-- Three lookups of different names, one after the other, on a registry of limit 1; the third does not see that the first two have counted. -/
def staleLookups (t : Nat) : List (Ev Call (Unit × Nat)) :=
  (List.range 3).flatMap fun i => .spawn (.lookup ⟨.direct 0, .compass, { hash := [97 + UInt8.ofNat i] }⟩) :: List.replicate 6 (.step i ((), if i = 2 then t else 100))

/-- The second is refused, and the third is not. -/
example : (staleAfter [1] (staleLookups 0)).calls.filterMap PC.result = [creator .compass 2 0, .nop .compass, creator .compass 2 2] ∧
    (staleAfter [1] (staleLookups 100)).calls.filterMap PC.result = [creator .compass 2 0, .nop .compass, .nop .compass] := by
  decide +kernel

/-- **C101.** Not so for the limit itself: a registry of limit 1 can hold two real metrics although no two lookups ever overlapped. -/
theorem C101_limit_refuted : (∀ es', es' <+: staleLookups 0 → inFlight (staleAfter [1] es').calls ≤ 1) ∧
    realCount ((staleAfter [1] (staleLookups 0)).shared.regs 0).metricsMap = 2 := by
  constructor
  · intro es' h
    rw [List.prefix_iff_eq_take] at h
    have hn : es'.length ≤ 21 := by rw [h, List.length_take]; exact Nat.min_le_right _ _
    have key : ∀ n ≤ 21, inFlight (staleAfter [1] ((staleLookups 0).take n)).calls ≤ 1 := by decide +kernel
    rw [h]
    exact key _ hn
  · decide +kernel

/-- **C101.** Nor for the switch: after `SetEnable(false)` has returned, a lookup may still find the manager enabled. -/
theorem C101_disabled_refuted :
    (staleAfter [] ([.spawn (.setEnable false), .step 0 ((), 0), .spawn (.lookup ⟨.group [103], .fast, { hash := [97] }⟩)] ++
      .step 1 ((), 0) :: List.replicate 8 (.step 1 ((), 100)))).calls =
      [.setDone false, .done ⟨.group [103], .fast, { hash := [97] }⟩ (some 0) (creator .fast 2 0)] := by decide +kernel

end GoMetrics
