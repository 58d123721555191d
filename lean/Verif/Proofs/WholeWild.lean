import Verif.Model.WholeWild
import Verif.Proofs.WholeCompass
import Verif.Proofs.CompassWild
/-! # Invariants of a whole compass whose unsynchronised loads may return anything

The proofs are those of Proofs/WholeCompass.lean, for the machines of Model/CompassWild.lean. -/
namespace GoMetrics
namespace WholeWild
open Whole
open CompassConc (MarkArg Mark Marks TickSeen)
open BucketCounter (Seen)
open Machine (At Reached)

variable {S C A I : Type}

theorem updOf_step (bi : Int) (s : CompassConc.Shared) (x : TickSeen) (c : CompassConc.PC) :
    updOf ((CompassConc.wildConc bi).step s x c).2 = updOf c := by
  cases c <;> simp only [CompassConc.wildConc, CompassConc.wildTickStep, CompassConc.callStep] <;> (try split) <;> first | rfl | exact updOf_after _ | exact updOf_loop _ _

theorem tickOver_step (bi : Int) (s : CompassConc.Shared) (x : TickSeen) (c : CompassConc.PC) (h : tickOver c = true) :
    tickOver ((CompassConc.wildConc bi).step s x c).2 = true := by
  cases c <;> simp [tickOver] at h
  rfl

theorem fed_step (bi : Int) (s : CompassConc.Shared) (x : TickSeen) (c : CompassConc.PC) (w : Which) :
    fedOf ((CompassConc.wildConc bi).step s x c).1 w = fedOf s w ++ (match feeds c with
      | some (v, n) => if v = w then [n] else []
      | none => []) := by
  cases w <;> cases c <;> simp only [CompassConc.wildConc, CompassConc.wildTickStep, CompassConc.callStep, feeds] <;> (try split) <;> simp_all [fedOf]

theorem markArg_step (s : Marks) (t : Seen) (m : Mark) : (CompassConc.wildMarking.step s t m).2.arg = m.arg := by
  simp only [CompassConc.wildMarking, CompassConc.markStepBy]
  cases m.pc <;> simp only [] <;> (repeat' split) <;> rfl

theorem markOver_step (s : Marks) (t : Seen) (m : Mark) (h : markOver m = true) : markOver (CompassConc.wildMarking.step s t m).2 = true := by
  obtain ⟨a, pc⟩ := m
  cases pc <;> simp [markOver] at h <;> rfl

/-- Every part is as it was, or has made one step. -/
structure Later (R : Rounding) (T : Stepped S C A I) (bi : Int) (s s' : Parts S C) : Prop where
  ticks : s'.ticks = s.ticks ∨ ∃ e, s'.ticks = (CompassConc.wildConc bi).apply s.ticks e
  avg : ∀ w, s'.avg w = s.avg w ∨ ∃ e, s'.avg w = (EWMA.conc R).apply (s.avg w) e
  marks : s'.marks = s.marks ∨ ∃ e, s'.marks = CompassConc.wildMarking.apply s.marks e
  res : s'.res = s.res ∨ ∃ e, s'.res = T.machine.apply s.res e

theorem crashed_step (s : Marks) (t : Seen) (m : Mark) (h : m.pc = .crashed) : (CompassConc.wildMarking.step s t m).2.pc = .crashed := by
  obtain ⟨a, pc⟩ := m
  subst h
  rfl

theorem Here.later {R : Rounding} {T : Stepped S C A I} {arg : C → Option Int} (hT : T.Ok arg) {bi : Int} {s s' : Parts S C} (h : Later R T bi s s') {c : Call}
    (hc : Here T arg s c) : Here T arg s' c := by
  have htick : ∀ i b, (At s.ticks i fun t => updOf t = b) → At s'.ticks i fun t => updOf t = b := fun i b h0 =>
    At.later h0 (fun s x c hh => by rw [updOf_step]; exact hh) h.ticks
  have hover : ∀ i b, (At s.ticks i fun t => tickOver t = true ∧ updOf t = b) → At s'.ticks i fun t => tickOver t = true ∧ updOf t = b := fun i b h0 =>
    At.later h0 (fun s x c hh => ⟨tickOver_step _ _ _ _ hh.1, by rw [updOf_step]; exact hh.2⟩) h.ticks
  have hmark : ∀ i a, (At s.marks i fun k => k.arg = a) → At s'.marks i fun k => k.arg = a := fun i a h0 =>
    At.later h0 (fun s x c hh => by rw [markArg_step]; exact hh) h.marks
  have hres : ∀ i a, (At s.res i fun q => arg q = a) → At s'.res i fun q => arg q = a := fun i a h0 =>
    At.later h0 (fun s x c hh => by rw [hT.arg_step]; exact hh) h.res
  have hres2 : ∀ i a b, (At s.res i fun q => arg q = a ∧ T.over q = some b) → At s'.res i fun q => arg q = a ∧ T.over q = some b := fun i a b h0 =>
    At.later h0 (fun s x c hh => ⟨by rw [hT.arg_step]; exact hh.1, hT.over_step _ _ _ _ hh.2⟩) h.res
  unfold Here at hc ⊢
  cases hpc : c.pc with
  | start => trivial
  | tick i => simp only [hpc] at hc; exact ⟨hc.1, htick _ _ hc.2⟩
  | avg i w j =>
    simp only [hpc] at hc
    exact ⟨hc.1, htick _ _ hc.2.1, At.later hc.2.2 (fun _ _ _ _ => trivial) (h.avg w)⟩
  | total i m => simp only [hpc] at hc; obtain ⟨d, a, h1, h2, h3⟩ := hc; exact ⟨d, a, h1, hover _ _ h2, hmark _ _ h3⟩
  | res i m r => simp only [hpc] at hc; obtain ⟨d, a, h1, h2, h3, h4⟩ := hc; exact ⟨d, a, h1, hover _ _ h2, hmark _ _ h3, hres _ _ h4⟩
  | rest i m r => simp only [hpc] at hc; obtain ⟨d, a, h1, h2, h3, h4⟩ := hc; exact ⟨d, a, h1, hover _ _ h2, hmark _ _ h3, hres2 _ _ _ h4⟩
  | done i m r =>
    simp only [hpc] at hc; obtain ⟨d, a, h1, h2, h3, h4⟩ := hc
    exact ⟨d, a, h1, hover _ _ h2,
      At.later h3 (fun s x c hh => ⟨by rw [markArg_step]; exact hh.1, markOver_step _ _ _ hh.2⟩) h.marks, hres2 _ _ _ h4⟩
  | resPanicked i m r => simp only [hpc] at hc; obtain ⟨d, a, h1, h2, h3, h4⟩ := hc; exact ⟨d, a, h1, hover _ _ h2, hmark _ _ h3, hres2 _ _ _ h4⟩
  | crashed i m =>
    simp only [hpc] at hc; obtain ⟨d, a, h1, h2, h3⟩ := hc
    exact ⟨d, a, h1, hover _ _ h2, At.later h3 (fun s x c hh => ⟨by rw [markArg_step]; exact hh.1, crashed_step _ _ _ hh.2⟩) h.marks⟩
  | rate i => simp only [hpc] at hc; exact ⟨hc.1, hover _ _ hc.2⟩
  | got i v => simp only [hpc] at hc; exact ⟨hc.1, hover _ _ hc.2⟩
  | snap r => simp only [hpc] at hc; exact ⟨hc.1, hres _ _ hc.2⟩
  | snapped r =>
    simp only [hpc] at hc
    refine ⟨hc.1, At.later hc.2 (fun s x c hh => ⟨by rw [hT.arg_step]; exact hh.1, ?_⟩) h.res⟩
    obtain ⟨b, hb⟩ := Option.isSome_iff_exists.1 hh.2
    rw [hT.over_step _ _ _ _ hb]; rfl

/-- The invariant: every part is in a state its own machine reaches, and its calls are those of the compass's calls. -/
structure Inv (R : Rounding) (T : Stepped S C A I) (arg : C → Option Int) (bi : Int) (Qt : TickSeen → Prop) (Qr : I → Prop) (p0 p : Pool (Parts S C) Call) : Prop where
  ticks : (CompassConc.wildConc bi).Reached p0.shared.ticks Qt p.shared.ticks
  avg : ∀ w, (EWMA.conc R).Reached (p0.shared.avg w) (fun _ => True) (p.shared.avg w)
  marks : CompassConc.wildMarking.Reached p0.shared.marks (fun _ => True) p.shared.marks
  res : T.machine.Reached p0.shared.res Qr p.shared.res
  tickIx : (p.calls.filterMap Call.tickIx).Perm (List.range p.shared.ticks.calls.length)
  markIx : (p.calls.filterMap Call.markIx).Perm (List.range p.shared.marks.calls.length)
  resIx : (p.calls.filterMap Call.resIx).Perm (List.range p.shared.res.calls.length)
  here : ∀ c ∈ p.calls, Here T arg p.shared c
  fed : ∀ w, (p.shared.avg w).calls.map countOf = (fedOf p.shared.ticks.shared w).map some
  owned : ∀ w, ∀ j e, (p.shared.avg w).calls[j]? = some e → avgOver e = true ∨ ∃ c ∈ p.calls, ∃ i, c.pc = .avg i w j

theorem Later.rfl' {R : Rounding} {T : Stepped S C A I} {bi : Int} {s : Parts S C} : Later R T bi s s :=
  ⟨.inl rfl, fun _ => .inl rfl, .inl rfl, .inl rfl⟩

/-- How the index of a call in a part may change: not at all, or the call gets the next free one. -/
theorem Inv.next {R : Rounding} {T : Stepped S C A I} {arg : C → Option Int} (hT : T.Ok arg) {bi : Int} {Qt : TickSeen → Prop} {Qr : I → Prop}
    {p0 : Pool (Parts S C) Call} {s s' : Parts S C} {pre post : List Call} {c c' : Call}
    (h : Inv R T arg bi Qt Qr p0 ⟨s, pre ++ c :: post⟩)
    (hl : Later R T bi s s')
    (h1 : (CompassConc.wildConc bi).Reached p0.shared.ticks Qt s'.ticks)
    (h2 : ∀ w, (EWMA.conc R).Reached (p0.shared.avg w) (fun _ => True) (s'.avg w))
    (h3 : CompassConc.wildMarking.Reached p0.shared.marks (fun _ => True) s'.marks)
    (h4 : T.machine.Reached p0.shared.res Qr s'.res)
    (m1 : Moved c.tickIx c'.tickIx s.ticks.calls.length s'.ticks.calls.length)
    (m2 : Moved c.markIx c'.markIx s.marks.calls.length s'.marks.calls.length)
    (m3 : Moved c.resIx c'.resIx s.res.calls.length s'.res.calls.length)
    (hc : Here T arg s' c')
    (hf : ∀ w, (s'.avg w).calls.map countOf = (fedOf s'.ticks.shared w).map some)
    (ho : ∀ w j e, (s'.avg w).calls[j]? = some e → avgOver e = true ∨ (∃ i, c'.pc = .avg i w j) ∨
      (∃ e', (s.avg w).calls[j]? = some e' ∧ avgOver e' = false ∧ ∀ i, c.pc ≠ .avg i w j)) :
    Inv R T arg bi Qt Qr p0 ⟨s', pre ++ c' :: post⟩ := by
  refine ⟨h1, h2, h3, h4, m1.perm _ _ _ _ _ _ _ h.tickIx, m2.perm _ _ _ _ _ _ _ h.markIx, m3.perm _ _ _ _ _ _ _ h.resIx, ?_, hf, ?_⟩
  · intro d hd
    rcases List.mem_append.1 hd with hd | hd
    · exact Here.later hT hl (h.here d (by simp [hd]))
    · rcases List.mem_cons.1 hd with rfl | hd
      · exact hc
      · exact Here.later hT hl (h.here d (by simp [hd]))
  · intro w j e he
    rcases ho w j e he with ho | ⟨i, ho⟩ | ⟨e', g1, g2, g3⟩
    · exact .inl ho
    · exact .inr ⟨c', by simp, i, ho⟩
    · rcases h.owned w j e' g1 with h' | ⟨d, hd, i, hi⟩
      · rw [g2] at h'; cases h'
      · refine .inr ⟨d, ?_, i, hi⟩
        rcases List.mem_append.1 hd with hd | hd
        · simp [hd]
        · rcases List.mem_cons.1 hd with rfl | hd
          · exact absurd hi (g3 i)
          · simp [hd]

/-- Nothing happens to the averages, and the call was in none. -/
theorem call_updOf (bi : Int) (b : Bool) : updOf ((CompassConc.wildConc bi).call b) = b := rfl

theorem inv_step {R : Rounding} {T : Stepped S C A I} {arg : C → Option Int} (hT : T.Ok arg) {bi : Int} {Qt : TickSeen → Prop} {Qr : I → Prop}
    {p0 : Pool (Parts S C) Call} {s : Parts S C} {pre post : List Call} {c : Call} (x : InBy TickSeen Seen I) (hx : Qt x.tick) (hr : Qr x.res)
    (h : Inv R T arg bi Qt Qr p0 ⟨s, pre ++ c :: post⟩) :
    Inv R T arg bi Qt Qr p0 ⟨(callStepBy R T (CompassConc.wildConc bi) CompassConc.wildMarking (fun any r => any.getD r) s x c).1, pre ++ (callStepBy R T (CompassConc.wildConc bi) CompassConc.wildMarking (fun any r => any.getD r) s x c).2 :: post⟩ := by
  obtain ⟨use, pc⟩ := c
  have hc := h.here ⟨use, pc⟩ (by simp)
  have hsame : ∀ {o n}, Moved o o n n := fun {o n} => .inl ⟨rfl, rfl⟩
  cases pc with
  | start =>
    cases use with
    | snapshot =>
      try dsimp only [callStepBy]
      exact h.next hT ⟨.inl rfl, fun _ => .inl rfl, .inl rfl, .inr ⟨.spawn _, rfl⟩⟩ h.ticks h.avg h.marks (h.res.spawn _) hsame hsame
        (.inr ⟨rfl, rfl, spawn_length _⟩) ⟨rfl, At.new _ hT.arg_snapshot⟩ h.fed (owned_same rfl (by simp))
    | update d a =>
      try dsimp only [callStepBy]
      exact h.next hT ⟨.inr ⟨.spawn _, rfl⟩, fun _ => .inl rfl, .inl rfl, .inl rfl⟩ (h.ticks.spawn _) h.avg h.marks h.res
        (.inr ⟨rfl, rfl, spawn_length _⟩) hsame hsame ⟨by simp, At.new _ rfl⟩ h.fed (owned_same rfl (by simp))
    | rate w =>
      try dsimp only [callStepBy]
      exact h.next hT ⟨.inr ⟨.spawn _, rfl⟩, fun _ => .inl rfl, .inl rfl, .inl rfl⟩ (h.ticks.spawn _) h.avg h.marks h.res
        (.inr ⟨rfl, rfl, spawn_length _⟩) hsame hsame ⟨by simp, At.new _ rfl⟩ h.fed (owned_same rfl (by simp))
  | tick i =>
    obtain ⟨hu, t, ht, hb⟩ := hc
    simp only at ht hb hu
    simp only [callStepBy, ht]
    by_cases hov : tickOver t = true
    · rw [if_pos hov]
      cases use with
      | snapshot => exact absurd rfl hu
      | update d a =>
        try dsimp only [callStepBy]
        exact h.next hT ⟨.inl rfl, fun _ => .inl rfl, .inr ⟨.spawn _, rfl⟩, .inl rfl⟩ h.ticks h.avg (h.marks.spawn _) h.res hsame
          (.inr ⟨rfl, rfl, spawn_length _⟩) hsame ⟨d, a, rfl, ⟨t, ht, hov, hb⟩, At.new _ rfl⟩ h.fed (owned_same rfl (by simp))
      | rate w =>
        try dsimp only [callStepBy]
        exact h.next hT .rfl' h.ticks h.avg h.marks h.res hsame hsame hsame ⟨⟨w, rfl⟩, ⟨t, ht, hov, hb⟩⟩ h.fed (owned_same rfl (by simp))
    · rw [if_neg hov]
      have hfed : ∀ w, fedOf ((CompassConc.wildConc bi).apply s.ticks (.step i x.tick)).shared w = fedOf s.ticks.shared w ++ (match feeds t with
          | some (v, n) => if v = w then [n] else []
          | none => []) := by
        intro w
        simp only [Machine.apply, ht]
        exact fed_step bi s.ticks.shared x.tick t w
      have hlen := Machine.apply_length (M := CompassConc.wildConc bi) (p := s.ticks) i x.tick
      have hat : At ((CompassConc.wildConc bi).apply s.ticks (.step i x.tick)) i fun t => updOf t = use.records :=
        Machine.At.apply (M := CompassConc.wildConc bi) ⟨t, ht, hb⟩ (fun s x c hh => by rw [updOf_step]; exact hh) _
      cases hfe : feeds t with
      | none =>
        try dsimp only [callStepBy]
        refine h.next hT ⟨.inr ⟨.step i x.tick, rfl⟩, fun _ => .inl rfl, .inl rfl, .inl rfl⟩ (h.ticks.step i hx) h.avg h.marks h.res
          (.inl ⟨rfl, hlen⟩) hsame hsame ⟨hu, hat⟩ ?_ (owned_same rfl (by simp))
        intro w
        have := hfed w
        rw [hfe] at this
        simp only [List.append_nil] at this
        simp only [this]
        exact h.fed w
      | some vn =>
        obtain ⟨w, n⟩ := vn
        try dsimp only [callStepBy]
        refine h.next hT ⟨.inr ⟨.step i x.tick, rfl⟩, fun v => ?_, .inl rfl, .inl rfl⟩ (h.ticks.step i hx) (fun v => ?_) h.marks h.res
          (.inl ⟨rfl, hlen⟩) hsame hsame ⟨hu, hat, ?_⟩ ?_ ?_
        · by_cases hv : v = w
          · subst hv; exact .inr ⟨.spawn (.tickN n), by simp only [Parts.setAvg, Function.update_self]⟩
          · exact .inl (by simp [Parts.setAvg, Function.update_of_ne hv])
        · by_cases hv : v = w
          · subst hv; simp only [Parts.setAvg, Function.update_self]; exact (h.avg v).spawn _
          · simp only [Parts.setAvg, Function.update_of_ne hv]; exact h.avg v
        · simp only [Parts.setAvg, Function.update_self]; exact At.new _ trivial
        · intro v
          have := hfed v
          rw [hfe] at this
          simp only at this
          change _ = List.map some (fedOf ((CompassConc.wildConc bi).apply s.ticks (.step i x.tick)).shared v)
          rw [this]
          by_cases hv : v = w
          · subst hv
            simp only [Parts.setAvg, Function.update_self, if_true, List.map_append]
            simp only [Machine.apply, List.map_append]
            rw [h.fed v]; rfl
          · simp only [Parts.setAvg, Function.update_of_ne hv, if_neg (Ne.symm hv), List.append_nil]; exact h.fed v
        · intro v j e he
          by_cases hv : v = w
          · subst hv
            simp only [Parts.setAvg, Function.update_self, Machine.apply] at he
            by_cases hj : j < (s.avg v).calls.length
            · rw [List.getElem?_append_left hj] at he
              cases hov' : avgOver e
              · exact .inr (.inr ⟨e, he, hov', by simp⟩)
              · exact .inl rfl
            · have hj' : j = (s.avg v).calls.length := by
                obtain ⟨hj2, -⟩ := List.getElem?_eq_some_iff.1 he
                simp only [List.length_append, List.length_cons, List.length_nil] at hj2
                omega
              exact .inr (.inl ⟨i, by rw [hj']⟩)
          · simp only [Parts.setAvg, Function.update_of_ne hv] at he
            cases hov' : avgOver e
            · exact .inr (.inr ⟨e, he, hov', by simp⟩)
            · exact .inl rfl
  | avg i w j =>
    obtain ⟨hu, hti, e, he, -⟩ := hc
    simp only at he hti hu
    simp only [callStepBy, he]
    by_cases hov : avgOver e = true
    · rw [if_pos hov]
      try dsimp only [callStepBy]
      refine h.next hT .rfl' h.ticks h.avg h.marks h.res hsame hsame hsame ⟨hu, hti⟩ h.fed ?_
      intro v k e' he'
      cases hov' : avgOver e'
      · refine .inr (.inr ⟨e', he', hov', ?_⟩)
        rintro i' hi
        simp only [PC.avg.injEq] at hi
        obtain ⟨rfl, rfl, rfl⟩ := hi
        rw [he] at he'
        obtain rfl := Option.some.inj he'
        rw [hov] at hov'; cases hov'
      · exact .inl rfl
    · rw [if_neg hov]
      have hlen := Machine.apply_length (M := EWMA.conc R) (p := s.avg w) j ()
      have hmap : ((EWMA.conc R).apply (s.avg w) (.step j ())).calls.map countOf = (s.avg w).calls.map countOf := by
        apply Machine.map_step
        intro e' he'
        have hsome : (countOf e').isSome := by
          have h1 : countOf e' ∈ (s.avg w).calls.map countOf := List.mem_map.2 ⟨e', List.mem_of_getElem? he', rfl⟩
          rw [h.fed w] at h1
          obtain ⟨n, -, hn⟩ := List.mem_map.1 h1
          rw [← hn]; rfl
        obtain ⟨n, hn⟩ := Option.isSome_iff_exists.1 hsome
        rw [countOf_step R _ _ _ _ hn, hn]
      try dsimp only [callStepBy]
      refine h.next hT ⟨.inl rfl, fun v => ?_, .inl rfl, .inl rfl⟩ h.ticks (fun v => ?_) h.marks h.res hsame hsame hsame ⟨hu, hti, ?_⟩ ?_ ?_
      · by_cases hv : v = w
        · subst hv; exact .inr ⟨.step j (), by simp only [Parts.setAvg, Function.update_self]⟩
        · exact .inl (by simp [Parts.setAvg, Function.update_of_ne hv])
      · by_cases hv : v = w
        · subst hv; simp only [Parts.setAvg, Function.update_self]; exact (h.avg v).step j trivial
        · simp only [Parts.setAvg, Function.update_of_ne hv]; exact h.avg v
      · simp only [Parts.setAvg, Function.update_self]
        exact Machine.At.apply (M := EWMA.conc R) ⟨e, he, trivial⟩ (fun _ _ _ _ => trivial) _
      · intro v
        by_cases hv : v = w
        · subst hv; simp only [Parts.setAvg, Function.update_self]; rw [hmap]; exact h.fed v
        · simp only [Parts.setAvg, Function.update_of_ne hv]; exact h.fed v
      · intro v k e' he'
        by_cases hv : v = w
        · subst hv
          by_cases hk : k = j
          · subst hk; exact .inr (.inl ⟨i, rfl⟩)
          · simp only [Parts.setAvg, Function.update_self, Machine.apply, he] at he'
            rw [List.getElem?_set_ne (Ne.symm hk)] at he'
            cases hov' : avgOver e'
            · exact .inr (.inr ⟨e', he', hov', fun i' hi => by simp only [PC.avg.injEq] at hi; exact hk hi.2.2.symm⟩)
            · exact .inl rfl
        · simp only [Parts.setAvg, Function.update_of_ne hv] at he'
          cases hov' : avgOver e'
          · exact .inr (.inr ⟨e', he', hov', fun i' hi => by simp only [PC.avg.injEq] at hi; exact hv hi.2.1.symm⟩)
          · exact .inl rfl
  | total i m =>
    obtain ⟨d, a, hu, hti, k, hk, hka⟩ := hc
    simp only at hu hti hk
    subst hu
    simp only [callStepBy, hk]
    by_cases hp : pastTotal k = true
    · rw [if_pos hp]
      by_cases hcr : k.pc = .crashed
      · rw [if_pos hcr]
        try dsimp only [callStepBy]
        exact h.next hT .rfl' h.ticks h.avg h.marks h.res hsame hsame hsame ⟨d, a, rfl, hti, k, hk, hka, hcr⟩ h.fed (owned_same rfl (by simp))
      · rw [if_neg hcr]
        try dsimp only [callStepBy]
        exact h.next hT ⟨.inl rfl, fun _ => .inl rfl, .inl rfl, .inr ⟨.spawn _, rfl⟩⟩ h.ticks h.avg h.marks (h.res.spawn _) hsame hsame
          (.inr ⟨rfl, rfl, spawn_length _⟩) ⟨d, a, rfl, hti, ⟨k, hk, hka⟩, At.new _ (hT.arg_update _)⟩ h.fed (owned_same rfl (by simp))
    · rw [if_neg hp]
      try dsimp only [callStepBy]
      exact h.next hT ⟨.inl rfl, fun _ => .inl rfl, .inr ⟨.step m x.time, rfl⟩, .inl rfl⟩ h.ticks h.avg (h.marks.step m trivial) h.res hsame
        (.inl ⟨rfl, Machine.apply_length _ _⟩) hsame ⟨d, a, rfl, hti,
          Machine.At.apply (M := CompassConc.wildMarking) ⟨k, hk, hka⟩ (fun s x c hh => by rw [markArg_step]; exact hh) _⟩ h.fed (owned_same rfl (by simp))
  | res i m r =>
    obtain ⟨d, a, hu, hti, hm, q, hq, hqa⟩ := hc
    simp only at hu hti hm hq
    subst hu
    simp only [callStepBy, hq]
    cases hov : T.over q with
    | none =>
      try dsimp only [callStepBy]
      exact h.next hT ⟨.inl rfl, fun _ => .inl rfl, .inl rfl, .inr ⟨.step r x.res, rfl⟩⟩ h.ticks h.avg h.marks (h.res.step r hr) hsame hsame
        (.inl ⟨rfl, Machine.apply_length _ _⟩) ⟨d, a, rfl, hti, hm,
          Machine.At.apply (M := T.machine) ⟨q, hq, hqa⟩ (fun s x c hh => by rw [hT.arg_step]; exact hh) _⟩ h.fed (owned_same rfl (by simp))
    | some b =>
      cases b
      · try dsimp only [callStepBy]
        exact h.next hT .rfl' h.ticks h.avg h.marks h.res hsame hsame hsame ⟨d, a, rfl, hti, hm, q, hq, hqa, hov⟩ h.fed (owned_same rfl (by simp))
      · try dsimp only [callStepBy]
        exact h.next hT .rfl' h.ticks h.avg h.marks h.res hsame hsame hsame ⟨d, a, rfl, hti, hm, q, hq, hqa, hov⟩ h.fed (owned_same rfl (by simp))
  | rest i m r =>
    obtain ⟨d, a, hu, hti, ⟨k, hk, hka⟩, hq⟩ := hc
    simp only at hu hti hk hq
    subst hu
    simp only [callStepBy, hk]
    by_cases hp : markOver k = true
    · rw [if_pos hp]
      try dsimp only [callStepBy]
      exact h.next hT .rfl' h.ticks h.avg h.marks h.res hsame hsame hsame ⟨d, a, rfl, hti, ⟨k, hk, hka, hp⟩, hq⟩ h.fed (owned_same rfl (by simp))
    · rw [if_neg hp]
      try dsimp only [callStepBy]
      exact h.next hT ⟨.inl rfl, fun _ => .inl rfl, .inr ⟨.step m x.time, rfl⟩, .inl rfl⟩ h.ticks h.avg (h.marks.step m trivial) h.res hsame
        (.inl ⟨rfl, Machine.apply_length _ _⟩) hsame ⟨d, a, rfl, hti,
          Machine.At.apply (M := CompassConc.wildMarking) ⟨k, hk, hka⟩ (fun s x c hh => by rw [markArg_step]; exact hh) _, hq⟩ h.fed
        (owned_same rfl (by simp))
  | rate i =>
    obtain ⟨⟨w, hu⟩, hti⟩ := hc
    simp only at hu
    subst hu
    try dsimp only [callStepBy]
    exact h.next hT .rfl' h.ticks h.avg h.marks h.res hsame hsame hsame ⟨⟨w, rfl⟩, hti⟩ h.fed (owned_same rfl (by simp))
  | snap r =>
    obtain ⟨hu, q, hq, hqa⟩ := hc
    simp only at hu hq
    subst hu
    simp only [callStepBy, hq]
    by_cases hov : (T.over q).isSome = true
    · rw [if_pos hov]
      try dsimp only [callStepBy]
      exact h.next hT .rfl' h.ticks h.avg h.marks h.res hsame hsame hsame ⟨rfl, q, hq, hqa, hov⟩ h.fed (owned_same rfl (by simp))
    · rw [if_neg hov]
      try dsimp only [callStepBy]
      exact h.next hT ⟨.inl rfl, fun _ => .inl rfl, .inl rfl, .inr ⟨.step r x.res, rfl⟩⟩ h.ticks h.avg h.marks (h.res.step r hr) hsame hsame
        (.inl ⟨rfl, Machine.apply_length _ _⟩) ⟨rfl,
          Machine.At.apply (M := T.machine) ⟨q, hq, hqa⟩ (fun s x c hh => by rw [hT.arg_step]; exact hh) _⟩ h.fed (owned_same rfl (by simp))
  | done i m r => exact h
  | resPanicked i m r => exact h
  | crashed i m => exact h
  | got i v => exact h
  | snapped r => exact h

/-- A list of calls, each of which has at most one call of a part: what the calls of the part are about is what the calls are about. -/
theorem inv_all {R : Rounding} {T : Stepped S C A I} {arg : C → Option Int} (hT : T.Ok arg) {bi : Int} {Qt : TickSeen → Prop} {Qr : I → Prop}
    (s0 : S) (n : Nat) (maxErr maxAdd now t1 t2 : Int) (es : List (Ev Use (InBy TickSeen Seen I)))
    (hes : ∀ i x, Ev.step i x ∈ es → Qt x.tick ∧ Qr x.res) :
    Inv R T arg bi Qt Qr (init s0 bi n maxErr maxAdd now t1 t2) ((wildMachine R T bi).run (init s0 bi n maxErr maxAdd now t1 t2) es) := by
  refine (wildMachine R T bi).inv_runE (fun _ p => Inv R T arg bi Qt Qr (init s0 bi n maxErr maxAdd now t1 t2) p)
    (fun e => ∀ i x, e = .step i x → Qt x.tick ∧ Qr x.res) (fun _ _ h => h) ?_ ?_ _ 0 ?_ es (fun e he i x hx => hes i x (hx ▸ he))
  · intro _ s cs a _ h
    refine ⟨h.ticks, h.avg, h.marks, h.res, ?_, ?_, ?_, ?_, h.fed, ?_⟩
    · have hn : [(wildMachine R T bi).call a].filterMap Call.tickIx = [] := rfl
      simp only [List.filterMap_append, hn, List.append_nil]
      exact h.tickIx
    · have hn : [(wildMachine R T bi).call a].filterMap Call.markIx = [] := rfl
      simp only [List.filterMap_append, hn, List.append_nil]
      exact h.markIx
    · have hn : [(wildMachine R T bi).call a].filterMap Call.resIx = [] := rfl
      simp only [List.filterMap_append, hn, List.append_nil]
      exact h.resIx
    · intro c hc
      rcases List.mem_append.1 hc with hc | hc
      · exact h.here c hc
      · rw [List.mem_singleton.1 hc]; trivial
    · intro w j e he
      rcases h.owned w j e he with h' | ⟨c, hc, hi⟩
      · exact .inl h'
      · exact .inr ⟨c, by simp [hc], hi⟩
  · intro _ s pre c post x i hq h
    exact inv_step hT x (hq i x rfl).1 (hq i x rfl).2 h
  · refine ⟨.refl, fun _ => .refl, .refl, .refl, by simp [init, Machine.start], by simp [init, Machine.start], by simp [init, Machine.start],
      by simp [init, Machine.start], ?_, by simp [init, Machine.start]⟩
    intro w
    cases w <;> simp [init, Machine.start, fedOf]

end WholeWild
end GoMetrics
