import Verif.Proofs.RacesMore
import Verif.Model.UniformConc
import Verif.Model.FastCompassConc
/-! # C88: which methods can be called from several goroutines without a data race, and where the others race -/
namespace GoMetrics

/-- **C88.** The accesses with which the following theorems speak about races are those the steps of the models make. -/
theorem C88_honest :
    Guarded.footprint.Honest UniformConc.guarded.machine (fun _ _ => True) ∧
    Guarded.footprint.Honest FastCompassConc.guarded.machine (fun _ _ => True) ∧
    (∀ R, EWMA.footprint.Honest (EWMA.conc R) (fun _ _ => True)) ∧
    BucketCounter.footprint.Honest BucketCounter.conc (fun _ _ => True) ∧
    MetricName.footprint.Honest MetricName.conc (fun _ _ => True) ∧
    (∀ I, CompassConc.tickFootprint.Honest (CompassConc.conc I) (fun _ _ => True)) ∧
    CompassConc.markFootprint.Honest CompassConc.marking CompassConc.insertable ∧
    (∀ A, EDRConc.footprint.Honest (EDRConc.machine A) (fun _ _ => True)) ∧
    Registry.footprint.Honest Registry.conc (fun _ _ => True) ∧
    Counter.footprint.Honest Counter.usage (fun _ _ => True) :=
  ⟨Guarded.footprint_honest, Guarded.footprint_honest, EWMA.footprint_honest, BucketCounter.footprint_honest, MetricName.footprint_honest,
    CompassConc.tickFootprint_honest, CompassConc.markFootprint_honest, EDRConc.footprint_honest, Registry.footprint_honest, Counter.footprint_honest⟩

/-- **C88.** What `UpdateWithError` calls can be up to is what `C88_honest` speaks about. -/
theorem C88_honest_labels (I : Int) (n : Nat) (maxErr maxAdd t1 t2 : Int) (es : List (Ev CompassConc.MarkArg Int)) :
    ∀ m ∈ (CompassConc.marking.run (Machine.start (CompassConc.Marks.new I n maxErr maxAdd t1 t2)) es).calls,
      CompassConc.insertable (CompassConc.marking.run (Machine.start (CompassConc.Marks.new I n maxErr maxAdd t1 t2)) es).shared m := by
  intro m hm w b hpc
  have h := (CompassConc.minv_run I n maxErr maxAdd t1 t2 es).lab w
  have := h.loc m hm
  cases w <;> simp only [hpc, CompassConc.stage, CompassConc.stageErr, CompassConc.stageAdd, CompassConc.Loc] at this <;> exact this.2.1

/-- **C88.** All methods of a uniform reservoir can be called from any number of goroutines: no schedule has a race. -/
theorem C88_uniform (u : UniformReservoir) : Guarded.footprint.RaceFree UniformConc.guarded.machine { obj := u } (fun _ => True) :=
  Guarded.raceFree u

/-- **C88.** `Record` of a fast compass can be called from any number of goroutines: no schedule has a race. -/
theorem C88_fast_compass_record (fc : FastCompass) :
    Guarded.footprint.RaceFree FastCompassConc.guarded.machine { obj := fc } (fun _ => True) :=
  Guarded.raceFree fc

/-- **C88.** A getter of a fast compass (which takes no lock) races with `Record`. -/
theorem C88_fast_compass_get_refuted (fc : FastCompass) :
    Guarded.footprint.RacesWith FastCompassConc.guarded.machine { obj := fc } (fun _ => True) (rd .obj) :=
  ⟨[.spawn (.inl ⟨0, "a"⟩), .step 0 0], by simp, .wIn ⟨0, "a"⟩ [] (⟨0, "a"⟩, .check), wr .obj,
    List.mem_singleton.2 rfl, List.mem_singleton.2 rfl, rfl, Or.inr rfl, by simp [rd], by simp [rd]⟩

/-- **C88.** `HashKey` of a metric name can be called from any number of goroutines, as long as nobody assigns to the name's fields. -/
theorem C88_hash_key (key : GoStr) (tags : GoMap GoStr GoStr) :
    MetricName.footprint.RaceFree MetricName.conc { key := key, tags := tags } (fun a => a = .hashKey) := by
  rintro l ⟨es, hes, h⟩
  exact MetricName.no_race (MetricName.inv_all key tags es) (MetricName.built_run key tags es hes) l h

/-- **C88.** An assignment to `Key` or `Tags` races with `HashKey`. -/
theorem C88_hash_key_assign_refuted (key : GoStr) (tags : GoMap GoStr GoStr) :
    MetricName.footprint.Races MetricName.conc { key := key, tags := tags } (fun _ => True) .key ∧
    MetricName.footprint.Races MetricName.conc { key := key, tags := tags } (fun _ => True) .tags := by
  refine ⟨⟨[.spawn .hashKey, .step 0 [], .step 0 [], .step 0 [], .spawn (.setKey [])], by simp, 0, 1, .writeKey, .setKey [], rd .key, wr .key, by decide, rfl, rfl,
    by simp [MetricName.footprint], by simp [MetricName.footprint], rfl, rfl, Or.inr rfl, by simp [rd], by simp [rd]⟩,
    ⟨[.spawn .hashKey, .step 0 [], .step 0 [], .step 0 [], .step 0 [], .spawn (.setTags [])], by simp, 0, 1, .lenCheck, .setTags [], rd .tags, wr .tags, by decide,
    rfl, rfl, by simp [MetricName.footprint], by simp [MetricName.footprint], rfl, rfl, Or.inr rfl, by simp [rd], by simp [rd]⟩⟩

/-- **C88.** `Update` and `TickN` of a moving average can be called from any number of goroutines: no schedule has a race. (A compass calls only these two,
and `GetRate`.) -/
theorem C88_ewma (R : Rounding) (e : EWMA) : EWMA.footprint.RaceFree (EWMA.conc R) ⟨e, false⟩ (fun o => o ≠ .tick) := by
  rintro l ⟨es, hes, h⟩
  obtain ⟨-, hload⟩ := EWMA.race_uncounted R e es l h
  have := (EWMA.conc R).inv_runE (fun _ p => ∀ c ∈ p.calls, c ≠ EWMA.PC.load ∧ ∀ o, c ≠ .cas o) (fun ev => ∀ a, ev = .spawn a → a ≠ .tick)
    (fun _ _ h => h) ?_ ?_ (Machine.start ⟨e, false⟩) 0 (by simp [Machine.start]) es (fun ev hev a ha => hes a (ha ▸ hev))
  · exact (this _ hload).1 rfl
  · intro _ s cs a ha h c hc
    rcases List.mem_append.1 hc with hc | hc
    · exact h c hc
    · rw [List.mem_singleton.1 hc]
      cases a with
      | tick => exact absurd rfl (ha _ rfl)
      | update n => simp [EWMA.conc]
      | tickN n => simp [EWMA.conc]
  · intro _ s pre c post x i _ h d hd
    have hc := h c (by simp)
    rcases List.mem_append.1 hd with g | g
    · exact h d (by simp [g])
    · rcases List.mem_cons.1 g with rfl | g
      · cases c with
        | load => exact absurd rfl hc.1
        | cas o => exact absurd rfl (hc.2 o)
        | _ => simp only [EWMA.conc, EWMA.callStep] <;> (repeat' split) <;> simp
      · exact h d (by simp [g])

/-- **C88.** With `Tick` among the calls there are races, on the pending count and on nothing else. -/
theorem C88_ewma_tick_refuted (R : Rounding) (e : EWMA) (l : EWMA.Loc) :
    EWMA.footprint.Races (EWMA.conc R) ⟨e, false⟩ (fun _ => True) l ↔ l = .uncounted := by
  refine ⟨fun ⟨es, _, h⟩ => (EWMA.race_uncounted R e es l h).1, ?_⟩
  rintro rfl
  exact ⟨[.spawn .tick, .spawn (.update 1)], by simp, 0, 1, .load, .update 1, rd .uncounted, awr .uncounted, by decide, rfl, rfl,
    by simp [EWMA.footprint], by simp [EWMA.footprint], rfl, rfl, Or.inr rfl, by simp [rd], by simp [rd]⟩

/-- **C88.** `GetRate` races with `TickN`, so the rate getters of a compass race with its `Update`. -/
theorem C88_get_rate_refuted (R : Rounding) (e : EWMA) :
    EWMA.footprint.RacesWith (EWMA.conc R) ⟨e, false⟩ (fun o => o = .tickN 1) EWMA.getRateAccess :=
  ⟨[.spawn (.tickN 1), .step 0 (), .step 0 ()], by simp,
    .store false 1 e.initialized (EWMA.newRate R e.initialized e.alpha e.rate (e.instantRate R 1)), wr .rate,
    List.mem_singleton.2 rfl, List.mem_singleton.2 rfl, rfl, Or.inr rfl, by simp [wr], by simp [wr]⟩

/-- **C88.** `UpdateN` calls on a bucket counter race on nothing but the pointer to the latest bucket, the position of the queue and its slots. In
particular totals and buckets are counted without races. -/
theorem C88_bucket_counter (b : BucketCounter) (l : BucketCounter.Loc) (h : BucketCounter.footprint.Races BucketCounter.conc b (fun _ => True) l) :
    l = .latest ∨ l = .position ∨ ∃ k, l = .slot k := by
  obtain ⟨es, -, i, j, c, d, x, y, -, -, -, hx, hy, hl, hcon⟩ := h
  rw [← hl]
  exact BucketCounter.conflict_where hx hy hcon

/-- **C88.** On all three there are races: two goroutines calling `Update` while the clock moves on are enough. -/
theorem C88_bucket_counter_refuted :
    BucketCounter.footprint.Races BucketCounter.conc (.new 1000000000 2 0 true) (fun n => n = 1) .latest ∧
    BucketCounter.footprint.Races BucketCounter.conc (.new 1000000000 2 0 true) (fun n => n = 1) .position ∧
    BucketCounter.footprint.Races BucketCounter.conc (.new 1000000000 2 0 true) (fun n => n = 1) (.slot 1) := by
  refine ⟨⟨[.spawn 1, .spawn 1, .step 0 5000, .step 0 5000, .step 1 5000, .step 1 5000, .step 0 0], ?_,
      0, 1, ⟨1, .cas 5 0⟩, ⟨1, .load 5⟩, awr .latest, rd .latest, ?_, ?_, ?_, ?_, ?_, ?_, ?_⟩,
    ⟨[.spawn 1, .spawn 1, .step 0 5000, .step 0 5000, .step 0 0, .step 0 0, .step 1 6000, .step 1 6000, .step 1 0, .step 1 0, .step 0 0], ?_,
      0, 1, ⟨1, .q2 5 3 1⟩, ⟨1, .q1 6 4⟩, wr .position, rd .position, ?_, ?_, ?_, ?_, ?_, ?_, ?_⟩,
    ⟨[.spawn 1, .spawn 1, .step 0 5000, .step 0 5000, .step 0 0, .step 0 0, .step 1 6000, .step 1 6000, .step 1 0, .step 1 0, .step 0 0, .step 1 0,
      .step 0 0, .step 0 0, .step 1 0, .step 1 0], ?_,
      0, 1, ⟨1, .q4 5 3 1⟩, ⟨1, .q4 6 4 1⟩, wr (.slot 1), wr (.slot 1), ?_, ?_, ?_, ?_, ?_, ?_, ?_⟩⟩
  all_goals first | (intro a ha; simpa using ha) | decide +kernel | (simp [BucketCounter.footprint, BucketCounter.accesses]; done) | (simp [Access.Conflict, awr, rd, wr]; done)

/-- **C88.** `LastUpdateTime` and `GetCount` of a bucket counter race with `Update`. -/
theorem C88_bucket_getters_refuted :
    BucketCounter.footprint.RacesWith BucketCounter.conc (.new 1000000000 2 0 true) (fun n => n = 1) BucketCounter.lastUpdateTimeAccess ∧
    BucketCounter.footprint.RacesWith BucketCounter.conc (.new 1000000000 2 0 true) (fun n => n = 1) BucketCounter.getCountAccess := by
  refine ⟨⟨[.spawn 1, .step 0 5000, .step 0 5000, .step 0 5000], ?_, ⟨1, .cas 5 0⟩, awr .latest, ?_, ?_, ?_⟩,
    ⟨[.spawn 1], ?_, ⟨1, .start⟩, awr .total, ?_, ?_, ?_⟩⟩
  all_goals first | (intro a ha; simpa using ha) | decide +kernel | (simp [BucketCounter.footprint, BucketCounter.accesses]; done) |
    (simp [Access.Conflict, awr, rd, BucketCounter.lastUpdateTimeAccess, BucketCounter.getCountAccess]; done)

/-- **C88.** What `GetBucketCountsSince` does next depends only on what `readAccesses` says it loads. -/
theorem C88_query_honest (startTime : Int) (b b' : BucketCounter) (t : Int) (q : BucketCounter.ReadPC)
    (h : ∀ a ∈ BucketCounter.readAccesses b q, a.loc.val b = a.loc.val b') :
    BucketCounter.readStep startTime b t q = BucketCounter.readStep startTime b' t q :=
  BucketCounter.readStep_depends startTime b b' t q h

/-- **C88.** `GetBucketCountsSince` races with `Update` on nothing but the position of the queue, its slots and the counts of buckets. -/
theorem C88_query {b : BucketCounter} {q : BucketCounter.ReadPC} {c : BucketCounter.Call} {x y : Access BucketCounter.Loc}
    (hx : x ∈ BucketCounter.readAccesses b q) (hy : y ∈ BucketCounter.accesses b c) (h : x.Conflict y) :
    x.loc = .position ∨ (∃ k, x.loc = .slot k) ∨ ∃ p, x.loc = .count p := BucketCounter.query_conflict hx hy h

/-- **C88.** And on all three it does. -/
theorem C88_query_refuted : ∀ l ∈ [BucketCounter.Loc.position, .slot 1, .count 3],
    ∃ (es : List BucketCounter.WatchEv) (x y : Access BucketCounter.Loc) (c : BucketCounter.Call),
      x ∈ BucketCounter.readAccesses (BucketCounter.watch 1000000000 2 0 true 0 es).1.shared (BucketCounter.watch 1000000000 2 0 true 0 es).2 ∧
      c ∈ (BucketCounter.watch 1000000000 2 0 true 0 es).1.calls ∧
      y ∈ BucketCounter.accesses (BucketCounter.watch 1000000000 2 0 true 0 es).1.shared c ∧ x.loc = l ∧ x.Conflict y := by
  simp only [List.mem_cons, List.not_mem_nil, or_false, forall_eq_or_imp, forall_eq]
  refine ⟨⟨.inl (.spawn 1) :: List.replicate 5 (.inl (.step 0 5000)) ++ [.inr 5000], rd .position, wr .position, ⟨1, .q2 5 3 1⟩, ?_⟩,
    ⟨.inl (.spawn 1) :: List.replicate 7 (.inl (.step 0 5000)) ++ List.replicate 3 (.inr 5000), rd (.slot 1), wr (.slot 1), ⟨1, .q4 5 3 1⟩, ?_⟩,
    ⟨.inl (.spawn 1) :: List.replicate 8 (.inl (.step 0 5000)) ++ List.replicate 7 (.inr 5000), rd (.count 3), awr (.count 3), ⟨1, .add 5 3⟩, ?_⟩⟩
  all_goals exact ⟨by decide +kernel, by decide +kernel, by decide +kernel, rfl, by simp [Access.Conflict, rd, wr, awr]⟩

/-- **C88.** In `tickIfNecessary` and the counting of a compass the only race is on the time of the last tick, and it occurs whatever the interval. -/
theorem C88_tick (I t0 : Int) (l : CompassConc.TickLoc) :
    CompassConc.tickFootprint.Races (CompassConc.conc I) ⟨t0, 0, [], [], [], [], []⟩ (fun _ => True) l ↔ l = .lastTick := by
  constructor
  · rintro ⟨es, -, i, j, c, d, x, y, -, -, -, hx, hy, hl, hcon⟩
    rw [← hl]
    exact CompassConc.tick_conflict hx hy hcon
  · rintro rfl
    exact CompassConc.tick_race I t0

/-- **C88.** `UpdateWithError` calls on a compass race on nothing but the pointers to the latest bucket, the positions and the slots of bucket counters: no
schedule has a race on a label map. -/
theorem C88_labels (I : Int) (n : Nat) (maxErr maxAdd t1 t2 : Int) (l : CompassConc.MarkLoc)
    (h : CompassConc.markFootprint.Races CompassConc.marking (.new I n maxErr maxAdd t1 t2) (fun _ => True) l) :
    ∃ l' : BucketCounter.Loc, (l' = .latest ∨ l' = .position ∨ ∃ k, l' = .slot k) ∧
      (l = .total l' ∨ l = .success l' ∨ ∃ w k, l = .counter w k l') := by
  obtain ⟨es, -, i, j, c, d, x, y, hij, hc, hd, hx, hy, hl, hcon⟩ := h
  rw [← hl]
  exact CompassConc.mark_race I n maxErr maxAdd t1 t2 es hij hc hd hx hy hcon

/-- **C88.** In all of these there are races: the races of a single bucket counter occur in a compass. -/
theorem C88_labels_refuted :
    CompassConc.markFootprint.Races CompassConc.marking (.new 1000000000 2 10 10 0 0) (fun a => a = ⟨true, "e", "a"⟩) (.total .latest) ∧
    CompassConc.markFootprint.Races CompassConc.marking (.new 1000000000 2 10 10 0 0) (fun a => a = ⟨true, "e", "a"⟩) (.success .latest) ∧
    CompassConc.markFootprint.Races CompassConc.marking (.new 1000000000 2 10 10 0 0) (fun a => a = ⟨true, "e", "a"⟩) (.counter false "e" .latest) ∧
    CompassConc.markFootprint.Races CompassConc.marking (.new 1000000000 2 10 10 0 0) (fun a => a = ⟨true, "e", "a"⟩) (.counter true "a" .latest) :=
  CompassConc.mark_races

/-- **C88.** `GetErrorCodeCounts` and `GetAddonCounts` range over the label maps without the mutex and race with `UpdateWithError` (in Go this can even
crash the program: concurrent map iteration and map write). -/
theorem C88_get_labels_refuted (w : Bool) :
    CompassConc.markFootprint.RacesWith CompassConc.marking (.new 1000000000 2 10 10 0 0) (fun a => a = ⟨true, "e", "a"⟩) (CompassConc.getLabelsAccess w) :=
  CompassConc.getLabels_race w

/-- **C88.** `UpdateN`, `GetSnapshot` and `Size` of a decaying reservoir race on nothing but the time of the next rescaling, the landmark and the number of
samples: never on the samples. -/
theorem C88_decaying (A : EDR.Arith) (size : Int) (alpha : F64) (time tick : Int) (l : EDRConc.Loc)
    (h : EDRConc.footprint.Races (EDRConc.machine A) ⟨EDR.new size alpha time tick, []⟩ (fun _ => True) l) :
    l = .nextScaleTime ∨ l = .startTime ∨ l = .count := by
  obtain ⟨es, -, i, j, c, d, x, y, -, -, -, hx, hy, hl, hcon⟩ := h
  rw [← hl]
  exact EDRConc.conflict_where hx hy hcon

/-- **C88.** On all three there are races; the first two with `UpdateN` alone. -/
theorem C88_decaying_refuted (A : EDR.Arith) (size : Int) (alpha : F64) (time tick : Int) :
    EDRConc.footprint.Races (EDRConc.machine A) ⟨EDR.new size alpha time tick, []⟩ (fun a => ∃ v, a = .updateN v) .nextScaleTime ∧
    EDRConc.footprint.Races (EDRConc.machine A) ⟨EDR.new size alpha time tick, []⟩ (fun a => ∃ v, a = .updateN v) .startTime ∧
    EDRConc.footprint.Races (EDRConc.machine A) ⟨EDR.new size alpha time tick, []⟩ (fun _ => True) .count :=
  EDRConc.races A size alpha time tick

/-- **C88.** `UpdateN` calls alone do not race on the number of samples. -/
theorem C88_decaying_count (A : EDR.Arith) (size : Int) (alpha : F64) (time tick : Int) :
    ¬ EDRConc.footprint.Races (EDRConc.machine A) ⟨EDR.new size alpha time tick, []⟩ (fun a => a ≠ .size) .count :=
  EDRConc.no_count_race A size alpha time tick

/-- **C88.** Lookups in registries and in the manager, and `SetEnable`, race on nothing but `enable` and the metric counts of registries: never on a map. -/
theorem C88_registry (s : Registry.Mem) (l : Registry.Loc) (h : Registry.footprint.Races Registry.conc s (fun _ => True) l) :
    l = .enable ∨ ∃ r, l = .count r := by
  obtain ⟨es, -, i, j, c, d, x, y, -, -, -, hx, hy, hl, hcon⟩ := h
  rw [← hl]
  exact Registry.conflict_where hx hy hcon

/-- **C88.** Without `SetEnable`, `enable` is not raced on. -/
theorem C88_registry_enable (s : Registry.Mem) :
    ¬ Registry.footprint.Races Registry.conc s (fun a => ∀ b, a ≠ .setEnable b) .enable := Registry.no_enable_race s

/-- **C88.** `SetEnable` races with lookups through the manager, and two lookups of new metrics in one registry race on its metric count. -/
theorem C88_registry_refuted (limit : Int) :
    Registry.footprint.Races Registry.conc (Registry.initial [limit]) (fun _ => True) .enable ∧
    Registry.footprint.Races Registry.conc (Registry.initial [limit]) (fun a => ∀ b, a ≠ .setEnable b) (.count 0) := Registry.races limit

/-- **C88.** The changing methods of a counter can be called from any number of goroutines: no schedule has a race. -/
theorem C88_counter (c : Counter) : Counter.footprint.RaceFree Counter.usage c (fun u => u ≠ .get) := Counter.no_race c

/-- **C88.** `GetCount` races with them. -/
theorem C88_counter_get_refuted (c : Counter) : Counter.footprint.Races Counter.usage c (fun _ => True) () :=
  ⟨[.spawn (.op .inc), .spawn .get], by simp, 0, 1, .before (.op .inc), .before .get, awr (), rd (), by decide, rfl, rfl,
    by simp [Counter.footprint], by simp [Counter.footprint], rfl, rfl, Or.inl rfl, by simp [rd], by simp [rd]⟩

end GoMetrics
