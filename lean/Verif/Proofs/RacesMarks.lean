import Verif.Proofs.Races
import Verif.Proofs.Compass
/-! # The footprint of `UpdateWithError` is honest -/
namespace GoMetrics
namespace CompassConc


/-- A new counter is only put under a label that has none. -/
def insertable (s : Marks) (m : Mark) : Prop := ∀ w b, m.pc = .insert w b → (s.lab w).counters.get? (m.arg.label w) = none

theorem mem_lift {Loc Loc' : Type} {f : Loc → Loc'} {l : List (Access Loc)} {a : Access Loc} (h : a ∈ l) : Access.lift f a ∈ l.map (Access.lift f) :=
  List.mem_map_of_mem h

theorem keys_set_congr {m m' : GoMap String BucketCounter} (k : String) (b b' : BucketCounter) (h : m.keys = m'.keys) :
    (m.set k b).keys = (m'.set k b').keys := by
  by_cases hk : k ∈ m.keys
  · rw [Compass.keys_set_of_mem _ _ _ hk, Compass.keys_set_of_mem _ _ _ (h ▸ hk), h]
  · rw [Compass.keys_set_of_not_mem _ _ _ hk, Compass.keys_set_of_not_mem _ _ _ (h ▸ hk), h]

theorem markFootprint_honest : markFootprint.Honest marking insertable where
  frame s x m l hp hl h := by
    obtain ⟨arg, pc⟩ := m
    cases pc with
    | total c =>
      cases l with
      | total l' =>
        refine BucketCounter.footprint_honest.frame s.total x c l' trivial hl fun a ha e => ?_
        exact h (Access.lift .total a) (mem_lift ha) (congrArg MarkLoc.total e)
      | _ => rfl
    | success c =>
      cases l with
      | success l' =>
        refine BucketCounter.footprint_honest.frame s.success x c l' trivial hl fun a ha e => ?_
        exact h (Access.lift .success a) (mem_lift ha) (congrArg MarkLoc.success e)
      | _ => rfl
    | lock w =>
      simp only [marking, markStep]
      split
      · rfl
      · cases l with
        | mutex w' =>
          by_cases e : w' = w
          · subst e; exact absurd (h (awr (.mutex w')) (by simp [markFootprint, markAccesses]) rfl) (by simp [awr])
          · change ((s.setLab w _).lab w').held = _
            rw [setLab_ne s e]; rfl
        | map w' =>
          change ((s.setLab w _).lab w').counters.keys = (s.lab w').counters.keys
          by_cases e : w' = w
          · subst e; rw [setLab_same]
          · rw [setLab_ne s e]
        | counter w' k l' =>
          change (((s.setLab w _).lab w').counters.get? k).map _ = ((s.lab w').counters.get? k).map _
          by_cases e : w' = w
          · subst e; rw [setLab_same]
          · rw [setLab_ne s e]
        | const =>
          refine Prod.ext ?_ (Prod.ext ?_ rfl)
          · change ((s.setLab w _).lab false).limit = (s.lab false).limit
            cases w <;> simp [Marks.setLab]
          · change ((s.setLab w _).lab true).limit = (s.lab true).limit
            cases w <;> simp [Marks.setLab]
        | _ => rfl
    | find w => simp only [marking, markStep]; (repeat' split) <;> rfl
    | make w => rfl
    | insert w b =>
      simp only [marking, markStep]
      cases l with
      | mutex w' =>
        change ((s.setLab w _).lab w').held = (s.lab w').held
        by_cases e : w' = w
        · subst e; rw [setLab_same]
        · rw [setLab_ne s e]
      | map w' =>
        by_cases e : w' = w
        · subst e; exact absurd (h (wr (.map w')) (by simp [markFootprint, markAccesses]) rfl) (by simp [wr])
        · change ((s.setLab w _).lab w').counters.keys = (s.lab w').counters.keys
          rw [setLab_ne s e]
      | counter w' k l' =>
        change (((s.setLab w _).lab w').counters.get? k).map _ = ((s.lab w').counters.get? k).map _
        by_cases e : w' = w
        · subst e
          rw [setLab_same]
          have hn := hp w' b rfl
          obtain ⟨b', hb', -⟩ := hl
          have : arg.label w' ≠ k := by
            rintro rfl; rw [hn] at hb'; cases hb'
          simp only [GoMap.get?_set_ne _ _ this]
        · rw [setLab_ne s e]
      | const =>
        refine Prod.ext ?_ (Prod.ext ?_ rfl)
        · change ((s.setLab w _).lab false).limit = (s.lab false).limit
          cases w <;> simp [Marks.setLab]
        · change ((s.setLab w _).lab true).limit = (s.lab true).limit
          cases w <;> simp [Marks.setLab]
      | _ => rfl
    | unlock w f =>
      simp only [marking, markStep]
      cases l with
      | mutex w' =>
        by_cases e : w' = w
        · subst e; exact absurd (h (awr (.mutex w')) (by simp [markFootprint, markAccesses]) rfl) (by simp [awr])
        · change ((s.setLab w _).lab w').held = _
          rw [setLab_ne s e]; rfl
      | map w' =>
        change ((s.setLab w _).lab w').counters.keys = (s.lab w').counters.keys
        by_cases e : w' = w
        · subst e; rw [setLab_same]
        · rw [setLab_ne s e]
      | counter w' k l' =>
        change (((s.setLab w _).lab w').counters.get? k).map _ = ((s.lab w').counters.get? k).map _
        by_cases e : w' = w
        · subst e; rw [setLab_same]
        · rw [setLab_ne s e]
      | const =>
        refine Prod.ext ?_ (Prod.ext ?_ rfl)
        · change ((s.setLab w _).lab false).limit = (s.lab false).limit
          cases w <;> simp [Marks.setLab]
        · change ((s.setLab w _).lab true).limit = (s.lab true).limit
          cases w <;> simp [Marks.setLab]
      | _ => rfl
    | hit w c =>
      simp only [marking, markStep]
      cases hb : (s.lab w).counters.get? (arg.label w) with
      | none => rfl
      | some b =>
        simp only
        cases l with
        | mutex w' =>
          change ((s.setLab w _).lab w').held = (s.lab w').held
          by_cases e : w' = w
          · subst e; rw [setLab_same]
          · rw [setLab_ne s e]
        | map w' =>
          change ((s.setLab w _).lab w').counters.keys = (s.lab w').counters.keys
          by_cases e : w' = w
          · subst e
            rw [setLab_same]
            exact Compass.keys_set_of_mem _ _ _ ((GoMap.mem_keys_iff _ _).2 ⟨b, hb⟩)
          · rw [setLab_ne s e]
        | counter w' k l' =>
          change (((s.setLab w _).lab w').counters.get? k).map _ = ((s.lab w').counters.get? k).map _
          by_cases e : w' = w
          · subst e
            rw [setLab_same]
            by_cases ek : arg.label w' = k
            · subst ek
              simp only [GoMap.get?_set_self, hb, Option.map_some]
              obtain ⟨b', hb', hl'⟩ := hl
              rw [hb] at hb'
              cases hb'
              refine congrArg some (BucketCounter.footprint_honest.frame b x c l' trivial hl' fun a ha e => ?_)
              refine h (Access.lift (.counter w' (arg.label w')) a) ?_ (congrArg (MarkLoc.counter w' (arg.label w')) e)
              simp only [markFootprint, markAccesses, hb]
              exact mem_lift ha
            · simp only [GoMap.get?_set_ne _ _ ek]
          · rw [setLab_ne s e]
        | const =>
          refine Prod.ext ?_ (Prod.ext ?_ rfl)
          · change ((s.setLab w _).lab false).limit = (s.lab false).limit
            cases w <;> simp [Marks.setLab]
          · change ((s.setLab w _).lab true).limit = (s.lab true).limit
            cases w <;> simp [Marks.setLab]
        | _ => rfl
    | done => rfl
    | panicked w => rfl
    | crashed => rfl
  depends s s' x m hp hp' hl h := by
    obtain ⟨arg, pc⟩ := m
    cases pc with
    | total c =>
      obtain ⟨g1, g2⟩ := BucketCounter.footprint_honest.depends s.total s'.total x c trivial trivial (fun l => hl (.total l))
        (fun a ha => h (Access.lift .total a) (mem_lift ha))
      refine ⟨?_, fun a ha => ?_⟩
      · simp only [marking, markStep]
        have g1 : (BucketCounter.callStep s.total x c).2 = (BucketCounter.callStep s'.total x c).2 := g1
        rw [g1]
      · obtain ⟨a', ha', rfl⟩ := List.mem_map.1 ha
        exact g2 a' ha'
    | success c =>
      obtain ⟨g1, g2⟩ := BucketCounter.footprint_honest.depends s.success s'.success x c trivial trivial (fun l => hl (.success l))
        (fun a ha => h (Access.lift .success a) (mem_lift ha))
      refine ⟨?_, fun a ha => ?_⟩
      · simp only [marking, markStep]
        have g1 : (BucketCounter.callStep s.success x c).2 = (BucketCounter.callStep s'.success x c).2 := g1
        rw [g1]
      · obtain ⟨a', ha', rfl⟩ := List.mem_map.1 ha
        exact g2 a' ha'
    | lock w =>
      have h1 : (s.lab w).held = (s'.lab w).held := h (awr (.mutex w)) (by simp [markFootprint, markAccesses])
      refine ⟨by simp only [marking, markStep, h1]; split <;> rfl, fun a ha => ?_⟩
      simp only [markFootprint, markAccesses, List.mem_singleton] at ha
      subst ha
      simp only [marking, markStep, h1]
      split
      · exact h1
      · change ((s.setLab w _).lab w).held = ((s'.setLab w _).lab w).held
        rw [setLab_same, setLab_same]
    | find w =>
      have h1 : (s.lab w).counters.keys = (s'.lab w).counters.keys := h (rd (.map w)) (by simp [markFootprint, markAccesses])
      have h2 : ((s.lab false).limit, (s.lab true).limit, s.interval, s.buckets) = ((s'.lab false).limit, (s'.lab true).limit, s'.interval, s'.buckets) :=
        h (rd .const) (by simp [markFootprint, markAccesses])
      have h3 : (s.lab w).limit = (s'.lab w).limit := by
        cases w
        · exact congrArg (fun z => z.1) h2
        · exact congrArg (fun z => z.2.1) h2
      have h4 : (s.lab w).counters.length = (s'.lab w).counters.length := by
        have := congrArg List.length h1
        simpa [GoMap.keys] using this
      have e : ∀ s : Marks, (markStep s x ⟨arg, .find w⟩).1 = s := by
        intro s; simp only [markStep]; (repeat' split) <;> rfl
      refine ⟨?_, fun a ha => by simp only [marking, e]; exact h a ha⟩
      simp only [marking, markStep]
      by_cases hk : arg.label w ∈ (s.lab w).counters.keys
      · obtain ⟨b, hb⟩ := (GoMap.mem_keys_iff _ _).1 hk
        obtain ⟨b', hb'⟩ := (GoMap.mem_keys_iff _ _).1 (h1 ▸ hk)
        simp only [hb, hb']
      · have hb := (GoMap.get?_eq_none_iff _ _).2 hk
        have hb' := (GoMap.get?_eq_none_iff _ _).2 (h1 ▸ hk)
        simp only [hb, hb', h3, h4]
        split <;> rfl
    | make w =>
      have h2 : ((s.lab false).limit, (s.lab true).limit, s.interval, s.buckets) = ((s'.lab false).limit, (s'.lab true).limit, s'.interval, s'.buckets) :=
        h (rd .const) (by simp [markFootprint, markAccesses])
      have h3 : s.interval = s'.interval := congrArg (fun z => z.2.2.1) h2
      have h4 : s.buckets = s'.buckets := congrArg (fun z => z.2.2.2) h2
      exact ⟨by simp only [marking, markStep, h3, h4], fun a ha => h a ha⟩
    | insert w b =>
      have h1 : (s.lab w).counters.keys = (s'.lab w).counters.keys := h (wr (.map w)) (by simp [markFootprint, markAccesses])
      refine ⟨rfl, fun a ha => ?_⟩
      simp only [markFootprint, markAccesses, List.mem_singleton] at ha
      subst ha
      change ((s.setLab w _).lab w).counters.keys = ((s'.setLab w _).lab w).counters.keys
      rw [setLab_same, setLab_same]
      exact keys_set_congr _ _ _ h1
    | unlock w f =>
      refine ⟨rfl, fun a ha => ?_⟩
      simp only [markFootprint, markAccesses, List.mem_singleton] at ha
      subst ha
      change ((s.setLab w _).lab w).held = ((s'.setLab w _).lab w).held
      rw [setLab_same, setLab_same]
    | hit w c =>
      have hlive := hl (.counter w (arg.label w) .total)
      cases hb : (s.lab w).counters.get? (arg.label w) with
      | none =>
        have hb' : (s'.lab w).counters.get? (arg.label w) = none := by
          cases hb' : (s'.lab w).counters.get? (arg.label w) with
          | none => rfl
          | some b' =>
            obtain ⟨b, hb2, -⟩ := hlive.2 ⟨b', hb', trivial⟩
            rw [hb] at hb2; cases hb2
        refine ⟨by simp only [marking, markStep, hb, hb'], fun a ha => ?_⟩
        simp [markFootprint, markAccesses, hb] at ha
      | some b =>
        obtain ⟨b', hb', -⟩ := hlive.1 ⟨b, hb, trivial⟩
        have hacc : markFootprint.acc s ⟨arg, .hit w c⟩ = (BucketCounter.accesses b c).map (Access.lift (.counter w (arg.label w))) := by
          simp only [markFootprint, markAccesses, hb]
        obtain ⟨g1, g2⟩ := BucketCounter.footprint_honest.depends b b' x c trivial trivial
          (fun l => by
            constructor
            · intro hx
              obtain ⟨b2, hb2, h2⟩ := (hl (.counter w (arg.label w) l)).1 ⟨b, hb, hx⟩
              rw [hb'] at hb2; cases hb2; exact h2
            · intro hx
              obtain ⟨b2, hb2, h2⟩ := (hl (.counter w (arg.label w) l)).2 ⟨b', hb', hx⟩
              rw [hb] at hb2; cases hb2; exact h2)
          (fun a ha => by
            have this : ((s.lab w).counters.get? (arg.label w)).map a.loc.val = ((s'.lab w).counters.get? (arg.label w)).map a.loc.val :=
              h (Access.lift (.counter w (arg.label w)) a) (by rw [hacc]; exact mem_lift ha)
            rw [hb, hb'] at this
            exact Option.some.inj this)
        have g1 : (BucketCounter.callStep b x c).2 = (BucketCounter.callStep b' x c).2 := g1
        refine ⟨by simp only [marking, markStep, hb, hb', g1], fun a ha => ?_⟩
        rw [hacc] at ha
        obtain ⟨a', ha', rfl⟩ := List.mem_map.1 ha
        simp only [marking, markStep, hb, hb']
        change (((s.setLab w _).lab w).counters.get? (arg.label w)).map a'.loc.val = (((s'.setLab w _).lab w).counters.get? (arg.label w)).map a'.loc.val
        rw [setLab_same, setLab_same]
        simp only [GoMap.get?_set_self, Option.map_some]
        exact congrArg some (g2 a' ha')
    | done => exact ⟨rfl, by simp [markFootprint, markAccesses]⟩
    | panicked w => exact ⟨rfl, by simp [markFootprint, markAccesses]⟩
    | crashed => exact ⟨rfl, by simp [markFootprint, markAccesses]⟩

end CompassConc
end GoMetrics
