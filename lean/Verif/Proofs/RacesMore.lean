import Verif.Proofs.RacesMarks
/-! # Where there are races, and where not -/
namespace GoMetrics

namespace BucketCounter
theorem at_stamp {h h' : BHeap} {p : Nat} (e : h[p]?.map (·.timestamp) = h'[p]?.map (·.timestamp)) : (h.at p).timestamp = (h'.at p).timestamp := by
  simp only [BHeap.at, List.getD_eq_getElem?_getD]
  cases h1 : h[p]? <;> cases h2 : h'[p]? <;> simp_all

theorem at_count {h h' : BHeap} {p : Nat} (e : h[p]?.map (·.count) = h'[p]?.map (·.count)) : (h.at p).count = (h'.at p).count := by
  simp only [BHeap.at, List.getD_eq_getElem?_getD]
  cases h1 : h[p]? <;> cases h2 : h'[p]? <;> simp_all

theorem slot_eq {q q' : Deque} {k : Nat} (e : q.queue[k]? = q'.queue[k]?) : q.slot k = q'.slot k := by
  simp only [Deque.slot, List.getD_eq_getElem?_getD, e]

theorem readStep_depends (startTime : Int) (b b' : BucketCounter) (t : Int) (q : ReadPC)
    (h : ∀ a ∈ readAccesses b q, a.loc.val b = a.loc.val b') : readStep startTime b t q = readStep startTime b' t q := by
  have hconst : rd Loc.const ∈ readAccesses b q → b.interval = b'.interval ∧ b.buckets.queue.length = b'.buckets.queue.length := by
    intro m
    have : (b.updateTotalCount, b.interval, b.buckets.queue.length) = (b'.updateTotalCount, b'.interval, b'.buckets.queue.length) := h _ m
    simp only [Prod.mk.injEq] at this
    exact ⟨this.2.1, this.2.2⟩
  have hpos : rd Loc.position ∈ readAccesses b q → b.buckets.current = b'.buckets.current := fun m => h _ m
  have hslot : ∀ k, rd (Loc.slot k) ∈ readAccesses b q → b.buckets.slot k = b'.buckets.slot k := fun k m => slot_eq (h _ m)
  have hstamp : ∀ p, rd (Loc.stamp p) ∈ readAccesses b q → (b.heap.at p).timestamp = (b'.heap.at p).timestamp := fun p m => at_stamp (h _ m)
  have hcount : ∀ p, rd (Loc.count p) ∈ readAccesses b q → (b.heap.at p).count = (b'.heap.at p).count := fun p m => at_count (h _ m)
  cases q with
  | clock => simp only [readStep, (hconst (by simp [readAccesses])).1]
  | pos now => simp only [readStep, hpos (by simp [readAccesses])]
  | again now s => simp only [readStep, hpos (by simp [readAccesses])]
  | startTs now s cur =>
    have e1 := hstamp (b.buckets.slot cur) (by simp [readAccesses])
    have e2 := hslot cur (by simp [readAccesses])
    simp only [readStep, (hconst (by simp [readAccesses])).2, e1, ← e2]
  | slots now ts first second acc =>
    cases first with
    | cons i first => simp only [readStep, hslot i (by simp [readAccesses])]
    | nil =>
      cases second with
      | cons i second =>
        have e1 := hstamp (b.buckets.slot i) (by simp [readAccesses])
        have e2 := hslot i (by simp [readAccesses])
        simp only [readStep, e1, ← e2]
      | nil => rfl
  | counts now todo r =>
    cases todo with
    | nil => rfl
    | cons p todo =>
      have e1 := hstamp p (by simp [readAccesses])
      have e2 := hcount p (by simp [readAccesses])
      simp only [readStep, collect, e1, e2]
  | done r => rfl
  | panicked => rfl

theorem query_conflict {b : BucketCounter} {q : ReadPC} {c : Call} {x y : Access Loc}
    (hx : x ∈ readAccesses b q) (hy : y ∈ accesses b c) (h : x.Conflict y) :
    x.loc = .position ∨ (∃ k, x.loc = .slot k) ∨ ∃ p, x.loc = .count p := by
  obtain ⟨n, pc⟩ := c
  obtain ⟨h1, h2, -, -⟩ := h
  have hxw : x.write = false := by
    unfold readAccesses at hx
    split at hx <;> simp only [List.mem_cons, List.not_mem_nil, or_false] at hx <;> rcases hx with rfl | rfl | rfl <;> rfl
  have hyw : y.write = true := by rcases h2 with g | g; (· rw [hxw] at g; cases g); exact g
  have hxl : x.loc = .const ∨ x.loc = .position ∨ (∃ k, x.loc = .slot k) ∨ (∃ p, x.loc = .stamp p) ∨ ∃ p, x.loc = .count p := by
    unfold readAccesses at hx
    split at hx <;> simp only [List.mem_cons, List.not_mem_nil, or_false] at hx <;> rcases hx with rfl | rfl | rfl <;> simp [rd]
  rcases hxl with e | e | e | e | e
  · rw [e] at h1
    cases pc <;> simp only [accesses, List.mem_cons, List.not_mem_nil, or_false] at hy <;> rcases hy with rfl | rfl <;> simp [rd, wr, awr] at h1 hyw
  · exact Or.inl e
  · exact Or.inr (Or.inl e)
  · obtain ⟨p, e⟩ := e
    rw [e] at h1
    cases pc <;> simp only [accesses, List.mem_cons, List.not_mem_nil, or_false] at hy <;> rcases hy with rfl | rfl <;> simp [rd, wr, awr] at h1 hyw
  · exact Or.inr (Or.inr e)
end BucketCounter

namespace CompassConc
theorem tick_race (I t0 : Int) : tickFootprint.Races (conc I) ⟨t0, 0, [], [], [], [], []⟩ (fun _ => True) .lastTick := by
  refine ⟨[.spawn true, .spawn true, .step 0 0, .step 0 (t0 + 6000000000)], by simp, 0, 1,
    .swap true t0 (i64 (t0 + 6000000000 - (i64 (t0 + 6000000000 - t0)).tmod I)) ((i64 (t0 + 6000000000 - t0)).tdiv Compass.tickInterval).toNat, .readOld true,
    awr .lastTick, rd .lastTick, by decide, ?_, rfl, by simp [tickFootprint], by simp [tickFootprint], rfl, rfl, Or.inl rfl, by simp [rd], by simp [rd]⟩
  have h : i64 6000000000 = 6000000000 := i64_of_in (x := 6000000000) (by unfold InI64; omega)
  simp [Machine.run, Machine.apply, Machine.start, conc, callStep, Compass.tickInterval, h]

/-- What a step of `UpdateWithError` accesses. -/
inductive Touch (s : Marks) (m : Mark) (x : Access MarkLoc) : Prop where
  | total (c : BucketCounter.Call) (y : Access BucketCounter.Loc) (h : y ∈ BucketCounter.accesses s.total c) (e : x = Access.lift .total y)
  | success (c : BucketCounter.Call) (y : Access BucketCounter.Loc) (h : y ∈ BucketCounter.accesses s.success c) (e : x = Access.lift .success y)
  | counter (w : Bool) (b : BucketCounter) (hb : (s.lab w).counters.get? (m.arg.label w) = some b) (c : BucketCounter.Call) (y : Access BucketCounter.Loc)
      (h : y ∈ BucketCounter.accesses b c) (e : x = Access.lift (.counter w (m.arg.label w)) y)
  | mutex (w : Bool) (e : x = awr (.mutex w))
  | const (e : x = rd .const)
  | map (w : Bool) (h : (stage w m.pc).inLock = true) (e : x.loc = .map w)

theorem touch {s : Marks} {m : Mark} {x : Access MarkLoc} (h : x ∈ markAccesses s m) : Touch s m x := by
  obtain ⟨arg, pc⟩ := m
  cases pc with
  | total c =>
    obtain ⟨y, hy, rfl⟩ := List.mem_map.1 h
    exact .total c y hy rfl
  | success c =>
    obtain ⟨y, hy, rfl⟩ := List.mem_map.1 h
    exact .success c y hy rfl
  | lock w => exact .mutex w (List.mem_singleton.1 h)
  | find w =>
    simp only [markAccesses, List.mem_cons, List.not_mem_nil, or_false] at h
    rcases h with rfl | rfl
    · exact .map w (by cases w <;> rfl) rfl
    · exact .const rfl
  | make w => exact .const (List.mem_singleton.1 h)
  | insert w b => exact .map w (by cases w <;> rfl) (by rw [List.mem_singleton.1 h]; rfl)
  | unlock w f => exact .mutex w (List.mem_singleton.1 h)
  | hit w c =>
    simp only [markAccesses] at h
    split at h
    · cases h
    · rename_i b hb
      obtain ⟨y, hy, rfl⟩ := List.mem_map.1 h
      exact .counter w b hb c y hy rfl
  | done => cases h
  | panicked w => cases h
  | crashed => cases h

theorem lift_conflict {f : BucketCounter.Loc → MarkLoc} (hf : Function.Injective f) {y y' : Access BucketCounter.Loc}
    (h : (Access.lift f y).Conflict (Access.lift f y')) : y.Conflict y' := by
  obtain ⟨h1, h2, h3, h4⟩ := h
  exact ⟨hf h1, h2, h3, h4⟩

theorem mark_race (I : Int) (n : Nat) (maxErr maxAdd t1 t2 : Int) (es : List (Ev MarkArg Int)) {i j : Nat} {c d : Mark} {x y : Access MarkLoc}
    (hij : i ≠ j) (hc : (marking.run (Machine.start (Marks.new I n maxErr maxAdd t1 t2)) es).calls[i]? = some c)
    (hd : (marking.run (Machine.start (Marks.new I n maxErr maxAdd t1 t2)) es).calls[j]? = some d)
    (hx : x ∈ markFootprint.acc (marking.run (Machine.start (Marks.new I n maxErr maxAdd t1 t2)) es).shared c)
    (hy : y ∈ markFootprint.acc (marking.run (Machine.start (Marks.new I n maxErr maxAdd t1 t2)) es).shared d) (h : x.Conflict y) :
    ∃ l' : BucketCounter.Loc, (l' = .latest ∨ l' = .position ∨ ∃ k, l' = .slot k) ∧
      (x.loc = .total l' ∨ x.loc = .success l' ∨ ∃ w k, x.loc = .counter w k l') := by
  have inv := minv_run I n maxErr maxAdd t1 t2 es
  rcases touch hx with ⟨c1, z, hz, rfl⟩ | ⟨c1, z, hz, rfl⟩ | ⟨w, b, hb, c1, z, hz, rfl⟩ | ⟨w, rfl⟩ | rfl | ⟨w, hw, e⟩ <;>
    rcases touch hy with ⟨c2, z', hz', rfl⟩ | ⟨c2, z', hz', rfl⟩ | ⟨w', b', hb', c2, z', hz', rfl⟩ | ⟨w', rfl⟩ | rfl | ⟨w', hw', e'⟩ <;>
    first
      | exact ⟨z.loc, BucketCounter.conflict_where hz hz' (lift_conflict (fun _ _ e => by simpa using e) h), Or.inl rfl⟩
      | exact ⟨z.loc, BucketCounter.conflict_where hz hz' (lift_conflict (fun _ _ e => by simpa using e) h), Or.inr (Or.inl rfl)⟩
      | (have := h.1; simp [Access.lift, awr, rd, *] at this; done)
      | (have := h.2; simp [Access.lift, awr, rd] at this; done)
      | skip
  · have e : w = w' ∧ c.arg.label w = d.arg.label w' ∧ z.loc = z'.loc := by
      have := h.1
      simpa only [Access.lift, MarkLoc.counter.injEq] using this
    obtain ⟨rfl, e2, e3⟩ := e
    rw [← e2, hb] at hb'
    cases hb'
    exact ⟨z.loc, BucketCounter.conflict_where hz hz' ⟨e3, h.2⟩, Or.inr (Or.inr ⟨w, _, rfl⟩)⟩
  · have : w = w' := by
      have := h.1
      rw [e, e'] at this
      simpa using this
    subst this
    have hcount := (inv.lab w).held
    exact (two_of_countP (f := fun m => (stage w m.pc).inLock) hij hc hd hw hw' (by rw [hcount]; split <;> omega)).elim

theorem mem_acc {s : Marks} {m : Mark} {x : Access MarkLoc} (h : x ∈ markAccesses s m) : x ∈ markFootprint.acc s m := h

theorem mark_races :
    markFootprint.Races marking (.new 1000000000 2 10 10 0 0) (fun a => a = ⟨true, "e", "a"⟩) (.total .latest) ∧
    markFootprint.Races marking (.new 1000000000 2 10 10 0 0) (fun a => a = ⟨true, "e", "a"⟩) (.success .latest) ∧
    markFootprint.Races marking (.new 1000000000 2 10 10 0 0) (fun a => a = ⟨true, "e", "a"⟩) (.counter false "e" .latest) ∧
    markFootprint.Races marking (.new 1000000000 2 10 10 0 0) (fun a => a = ⟨true, "e", "a"⟩) (.counter true "a" .latest) := by
  have hsp : ∀ j k : Nat, ∀ a : MarkArg, Ev.spawn (I := Int) a ∈ [.spawn ⟨true, "e", "a"⟩, .spawn ⟨true, "e", "a"⟩] ++ List.replicate j (.step 0 5000) ++
      List.replicate k (.step 1 5000) → a = ⟨true, "e", "a"⟩ := by
    intro j k a ha
    simpa using ha
  refine ⟨⟨_, hsp 3 2, 0, 1, ⟨⟨true, "e", "a"⟩, .total ⟨1, .cas 5 0⟩⟩, ⟨⟨true, "e", "a"⟩, .total ⟨1, .load 5⟩⟩, awr (.total .latest), rd (.total .latest), ?_⟩,
    ⟨_, hsp 12 6, 0, 1, ⟨⟨true, "e", "a"⟩, .success ⟨1, .cas 5 0⟩⟩, ⟨⟨true, "e", "a"⟩, .success ⟨1, .load 5⟩⟩, awr (.success .latest), rd (.success .latest), ?_⟩,
    ⟨_, hsp 26 13, 0, 1, ⟨⟨true, "e", "a"⟩, .hit false ⟨1, .cas 5 0⟩⟩, ⟨⟨true, "e", "a"⟩, .hit false ⟨1, .load 5⟩⟩, awr (.counter false "e" .latest),
      rd (.counter false "e" .latest), ?_⟩,
    ⟨_, hsp 40 20, 0, 1, ⟨⟨true, "e", "a"⟩, .hit true ⟨1, .cas 5 0⟩⟩, ⟨⟨true, "e", "a"⟩, .hit true ⟨1, .load 5⟩⟩, awr (.counter true "a" .latest),
      rd (.counter true "a" .latest), ?_⟩⟩
  all_goals exact ⟨by decide, by decide +kernel, by decide +kernel, mem_acc (by decide +kernel), mem_acc (by decide +kernel),
    rfl, rfl, Or.inl rfl, by simp [rd], by simp [rd]⟩

theorem getLabels_race (w : Bool) :
    markFootprint.RacesWith marking (.new 1000000000 2 10 10 0 0) (fun a => a = ⟨true, "e", "a"⟩) (getLabelsAccess w) := by
  have hsp : ∀ j : Nat, ∀ a : MarkArg, Ev.spawn (I := Int) a ∈ [.spawn ⟨true, "e", "a"⟩] ++ List.replicate j (.step 0 5000) → a = ⟨true, "e", "a"⟩ := by
    intro j a ha
    simpa using ha
  refine ⟨_, hsp (if w then 35 else 21), ⟨⟨true, "e", "a"⟩, .insert w (.new 1000000000 2 5000 true)⟩, wr (.map w), ?_⟩
  cases w <;> exact ⟨by decide +kernel, mem_acc (by decide +kernel), rfl, Or.inr rfl, by simp [wr], by simp [wr]⟩
end CompassConc

namespace EDRConc
theorem races (A : EDR.Arith) (size : Int) (alpha : F64) (time tick : Int) :
    footprint.Races (machine A) ⟨EDR.new size alpha time tick, []⟩ (fun a => ∃ v, a = .updateN v) .nextScaleTime ∧
    footprint.Races (machine A) ⟨EDR.new size alpha time tick, []⟩ (fun a => ∃ v, a = .updateN v) .startTime ∧
    footprint.Races (machine A) ⟨EDR.new size alpha time tick, []⟩ (fun _ => True) .count := by
  generalize hN : i64 (tick + EDR.rescaleThreshold) = N
  have hr : (EDR.new size alpha time tick).nextScaleTime = N := hN
  generalize EDR.new size alpha time tick = r at hr
  refine ⟨⟨[.spawn (.updateN 1), .spawn (.updateN 1), .step 0 { tick := N }, .step 0 {}, .step 0 {}, .step 1 { tick := N }], by simp, 0, 1,
      .cas (.updateN 1) N N N, .check (.updateN 1) N, awr .nextScaleTime, rd .nextScaleTime, by decide, ?_, ?_, by simp [footprint], by simp [footprint], rfl,
      rfl, Or.inl rfl, by simp [rd], by simp [rd]⟩,
    ⟨[.spawn (.updateN 1), .spawn (.updateN 1), .step 1 { tick := N - 1 }, .step 1 {}, .step 1 {}, .step 0 { tick := N }, .step 0 {}, .step 0 {}, .step 0 {}],
      by simp, 0, 1, .lockScale (.updateN 1), .weigh 1 (EDR.currentTimeInSecond 0), lwr .startTime, rd .startTime, by decide, ?_, ?_, by simp [footprint],
      by simp [footprint], rfl, rfl, Or.inl rfl, by simp [rd], by simp [rd]⟩,
    ⟨[.spawn (.updateN 1), .spawn .size, .step 0 { tick := N }, .step 0 {}, .step 0 {}, .step 0 {}], by simp, 0, 1,
      .lockScale (.updateN 1), .size1, lwr .count, rd .count, by decide, ?_, ?_, by simp [footprint], by simp [footprint], rfl, rfl, Or.inl rfl,
      by simp [rd], by simp [rd]⟩⟩ <;>
    simp [Machine.run, Machine.apply, Machine.start, machine, callStep, start, after, hr]

/-- Not a call of `Size`. -/
def noSize : PC → Prop
  | .tick a | .check a _ | .reread a _ _ | .cas a _ _ _ | .lockScale a => a ≠ .size
  | .size1 | .size2 => False
  | _ => True

theorem noSize_after {a : Act} (h : a ≠ .size) : noSize (after a) := by
  cases a with
  | size => exact absurd rfl h
  | _ => trivial

theorem noSize_step (A : EDR.Arith) (s : Shared) (x : In) (c : PC) (h : noSize c) : noSize (callStep A s x c).2 := by
  cases c with
  | check a now => simp only [callStep]; split; (· exact h); exact noSize_after h
  | cas a now due next => simp only [callStep]; split; (· exact h); exact noSize_after h
  | lockScale a => exact noSize_after h
  | lockRecord v p w ts u l => simp only [callStep]; split <;> trivial
  | size1 => exact h.elim
  | size2 => exact h.elim
  | tick a => exact h
  | reread a n d => exact h
  | _ => trivial

theorem no_count_race (A : EDR.Arith) (size : Int) (alpha : F64) (time tick : Int) :
    ¬ footprint.Races (machine A) ⟨EDR.new size alpha time tick, []⟩ (fun a => a ≠ .size) .count := by
  rintro ⟨es, hes, i, j, c, d, x, y, -, hc, hd, hx, hy, hl, h1, h2, h3, h4⟩
  have inv := (machine A).inv_runE (fun _ p => ∀ c ∈ p.calls, noSize c) (fun ev => ∀ a, ev = .spawn a → a ≠ .size)
    (fun _ _ h => h) ?_ ?_ (Machine.start ⟨EDR.new size alpha time tick, []⟩) 0 (by simp [Machine.start]) es (fun ev hev a ha => hes a (ha ▸ hev))
  · have hc := inv c (List.mem_of_getElem? hc)
    have hd := inv d (List.mem_of_getElem? hd)
    cases c <;> simp only [footprint, List.mem_cons, List.not_mem_nil, or_false] at hx <;> (try exact hc.elim) <;>
      rcases hx with rfl | rfl | rfl | rfl <;> simp [rd, awr, lwr, lrd] at hl <;>
      cases d <;> simp only [footprint, List.mem_cons, List.not_mem_nil, or_false] at hy <;> (try exact hd.elim) <;>
      rcases hy with rfl | rfl | rfl | rfl <;> simp [rd, awr, lwr, lrd] at h1 h4
  · intro _ s cs a ha h c hc
    rcases List.mem_append.1 hc with hc | hc
    · exact h c hc
    · rw [List.mem_singleton.1 hc]
      cases a with
      | size => exact absurd rfl (ha _ rfl)
      | updateN v => simp [machine, start, noSize]
      | getSnapshot => simp [machine, start, noSize]
  · intro _ s pre c post x i _ h d hd
    rcases List.mem_append.1 hd with g | g
    · exact h d (by simp [g])
    · rcases List.mem_cons.1 g with rfl | g
      · exact noSize_step A s x c (h c (by simp))
      · exact h d (by simp [g])
end EDRConc

namespace Registry
theorem races (limit : Int) :
    footprint.Races conc (initial [limit]) (fun _ => True) .enable ∧
    footprint.Races conc (initial [limit]) (fun a => ∀ b, a ≠ .setEnable b) (.count 0) := by
  refine ⟨⟨[.spawn (.lookup ⟨.group [1], .compass, ⟨0, [1], 2⟩⟩), .spawn (.setEnable false)], by simp, 0, 1, .readEnable ⟨.group [1], .compass, ⟨0, [1], 2⟩⟩ [1],
      .setEnable false, rd .enable, wr .enable, by decide, rfl, rfl, by simp [footprint], by simp [footprint], rfl, rfl, Or.inr rfl, by simp [rd], by simp [rd]⟩,
    ⟨[.spawn (.lookup ⟨.direct 0, .compass, ⟨0, [1], 2⟩⟩), .spawn (.lookup ⟨.direct 0, .compass, ⟨1, [2], 2⟩⟩), .step 0 (), .step 0 (), .step 0 (), .step 0 (),
      .step 1 (), .step 1 ()], by simp, 0, 1,
      .incr ⟨.direct 0, .compass, ⟨0, [1], 2⟩⟩ 0 (if 0 ≥ limit then .nop .compass else creator .compass 2 0),
      .check ⟨.direct 0, .compass, ⟨1, [2], 2⟩⟩ 0 (creator .compass 2 1), awr (.count 0), rd (.count 0), by decide, ?_, ?_, by simp [footprint],
      by simp [footprint], rfl, rfl, Or.inl rfl, by simp [rd], by simp [rd]⟩⟩
  · simp [Machine.run, Machine.apply, Machine.start, conc, callStep, begin, initial, GoMap.get?, Mem.setReg]
  · simp [Machine.run, Machine.apply, Machine.start, conc, callStep, begin, initial, GoMap.get?, GoMap.set, Mem.setReg]

theorem no_enable_race (s : Mem) : ¬ footprint.Races conc s (fun a => ∀ b, a ≠ .setEnable b) .enable := by
  rintro ⟨es, hes, i, j, c, d, x, y, -, hc, hd, hx, hy, hl, h1, h2, h3, h4⟩
  have inv := conc.inv_runE (fun _ p => ∀ c ∈ p.calls, ∀ b, c ≠ PC.setEnable b) (fun ev => ∀ a, ev = .spawn a → ∀ b, a ≠ .setEnable b)
    (fun _ _ h => h) ?_ ?_ (Machine.start s) 0 (by simp [Machine.start]) es (fun ev hev a ha => hes a (ha ▸ hev))
  · have hc := inv c (List.mem_of_getElem? hc)
    have hd := inv d (List.mem_of_getElem? hd)
    cases c <;> simp only [footprint, List.mem_cons, List.not_mem_nil, or_false] at hx <;> (try exact absurd rfl (hc _)) <;>
      rcases hx with rfl | rfl <;> simp [rd, awr, ard] at hl <;>
      cases d <;> simp only [footprint, List.mem_cons, List.not_mem_nil, or_false] at hy <;> (try exact absurd rfl (hd _)) <;>
      rcases hy with rfl | rfl <;> simp [rd, awr, ard] at h1 h2
  · intro _ s cs a ha h c hc
    rcases List.mem_append.1 hc with hc | hc
    · exact h c hc
    · rw [List.mem_singleton.1 hc]
      cases a with
      | setEnable b => exact absurd rfl (ha _ rfl b)
      | lookup q => simp only [conc, begin]; split <;> simp
  · intro _ s pre c post x i _ h d hd
    rcases List.mem_append.1 hd with g | g
    · exact h d (by simp [g])
    · rcases List.mem_cons.1 g with rfl | g
      · have hc := h c (by simp)
        cases c with
        | setEnable b => exact absurd rfl (hc b)
        | _ => simp only [conc, callStep] <;> (repeat' split) <;> simp
      · exact h d (by simp [g])
end Registry

namespace Counter
theorem no_race (c : Counter) : footprint.RaceFree usage c (fun u => u ≠ .get) := by
  rintro l ⟨es, hes, i, j, c1, d, x, y, -, hc, hd, hx, hy, hl, h1, h2, h3, h4⟩
  have inv := usage.inv_runE (fun _ p => ∀ c ∈ p.calls, c ≠ UsePC.before .get) (fun ev => ∀ a, ev = .spawn a → a ≠ .get)
    (fun _ _ h => h) ?_ ?_ (Machine.start c) 0 (by simp [Machine.start]) es (fun ev hev a ha => hes a (ha ▸ hev))
  · have hc := inv c1 (List.mem_of_getElem? hc)
    have hd := inv d (List.mem_of_getElem? hd)
    rcases c1 with (o | _) | v
    · rcases d with (o' | _) | v'
      · rw [List.mem_singleton.1 hx, List.mem_singleton.1 hy] at h3
        exact h3 ⟨rfl, rfl⟩
      · exact hd rfl
      · cases hy
    · exact hc rfl
    · cases hx
  · intro _ s cs a ha h c hc
    rcases List.mem_append.1 hc with hc | hc
    · exact h c hc
    · rw [List.mem_singleton.1 hc]
      intro e
      exact ha a rfl (by injection e)
  · intro _ s pre c post x i _ h d hd
    rcases List.mem_append.1 hd with g | g
    · exact h d (by simp [g])
    · rcases List.mem_cons.1 g with rfl | g
      · have hc := h c (by simp)
        rcases c with (o | _) | v
        · simp [usage]
        · exact absurd rfl hc
        · simp [usage]
      · exact h d (by simp [g])
end Counter
end GoMetrics
