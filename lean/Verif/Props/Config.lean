import Verif.Props.Registry
import Verif.Model.Nop
import Verif.Props.Buckets
/-! # C44-C47: no-op metrics, configuration, interval constants, created metrics -/
namespace GoMetrics
open Registry

/-! ## C44 -/

/-- **C44.** After any sequence of updates the no-op bucket counter reports zero and no buckets. -/
theorem C44_bucket_counter (ops : List Nop.BCOp) (startTime : Int) :
    let s := ops.foldl Nop.bcStep ()
    Nop.bcGetCount s = 0 ∧ Nop.bcLastUpdateTime s = 0 ∧ Nop.bcGetBucketInterval s = 0 ∧
      (∀ k, (Nop.bcGetBucketCounts s).get? k = none) ∧ ∀ k, (Nop.bcGetBucketCountsSince s startTime).get? k = none :=
  ⟨rfl, rfl, rfl, fun _ => rfl, fun _ => rfl⟩

/-- **C44.** After any sequence of updates the no-op compass reports zero everywhere and no codes, and its snapshot no error. -/
theorem C44_compass (ops : List Nop.CompassOp) (startTime : Int) (q : F64) :
    let v := Nop.compass (ops.foldl Nop.compassStep ()) startTime q
    v.lastUpdateTime = 0 ∧ v.count = 0 ∧ v.successCount = 0 ∧ v.bucketSuccess = 0 ∧ v.instantCountInterval = 0 ∧
      v.m1 = .fin 0 ∧ v.m5 = .fin 0 ∧ v.m15 = .fin 0 ∧ v.mean = .fin 0 ∧
      v.instantCount = [] ∧ v.instantCountSince = [] ∧ v.errorCodes = [] ∧ v.addons = [] ∧
      v.snapshot.value = (.fin 0, none) ∧ v.snapshot.values = ([], none) ∧ v.snapshot.size = (0, none) ∧
      v.snapshot.min = (0, none) ∧ v.snapshot.max = (0, none) ∧ v.snapshot.mean = (.fin 0, none) ∧ v.snapshot.stdDev = (.fin 0, none) ∧
      v.snapshot.median = (.fin 0, none) ∧ v.snapshot.p75 = (.fin 0, none) ∧ v.snapshot.p95 = (.fin 0, none) ∧
      v.snapshot.p98 = (.fin 0, none) ∧ v.snapshot.p99 = (.fin 0, none) ∧ v.snapshot.p999 = (.fin 0, none) := by
  simp [Nop.compass, Nop.snapshot, Nop.bcGetCount]

/-- **C44.** After any sequence of records the no-op fast compass reports no categories. -/
theorem C44_fast_compass (recs : List (Int × String)) (startTime : Int) :
    let v := Nop.fast (recs.foldl (fun s r => Nop.fastRecord s r.1 r.2) ()) startTime
    v.lastUpdateTime = 0 ∧ v.bucketInterval = 1000000000 ∧ v.methodCount = [] ∧ v.methodCountSince = [] ∧ v.methodRt = [] ∧
      v.methodRtSince = [] ∧ v.countAndRt = [] ∧ v.countAndRtSince = [] := by
  simp [Nop.fast, goSecond]

/-- **C44.** The no-op manager always returns no-ops and is never enabled. -/
theorem C44_manager (k : Kind) (g : GoStr) (n : Name) : NopManager.get k g n = .nop k ∧ NopManager.isEnable = false := ⟨rfl, rfl⟩

example : Nop.bcGetCount ([.inc, .incN 5, .updateN 7].foldl Nop.bcStep ()) = 0 := rfl

/-! ## C45 -/

/-- **C45.** Every count getter returns the configured value if positive, else a positive default; so it is always positive. -/
theorem C45_counts (mc : MetricConfig) :
    (mc.getBucketCount = if 0 < mc.bucketCount then mc.bucketCount else 10) ∧
    (mc.getMaxCompassAddonCount = if 0 < mc.maxCompassAddonCount then mc.maxCompassAddonCount else 20) ∧
    (mc.getMaxCompassErrorCodeCount = if 0 < mc.maxCompassErrorCodeCount then mc.maxCompassErrorCodeCount else 100) ∧
    (mc.getMaxMetricCountPerRegistry = if 0 < mc.maxMetricCountPerRegistry then mc.maxMetricCountPerRegistry else 5000) ∧
    (mc.getMaxSubCategoryCount = if 0 < mc.maxSubCategoryCount then mc.maxSubCategoryCount else 20) ∧
    0 < mc.getBucketCount ∧ 0 < mc.getMaxCompassAddonCount ∧ 0 < mc.getMaxCompassErrorCodeCount ∧
    0 < mc.getMaxMetricCountPerRegistry ∧ 0 < mc.getMaxSubCategoryCount := by
  simp only [MetricConfig.getBucketCount, MetricConfig.getMaxCompassAddonCount, MetricConfig.getMaxCompassErrorCodeCount,
    MetricConfig.getMaxMetricCountPerRegistry, MetricConfig.getMaxSubCategoryCount]
  refine ⟨?_, ?_, ?_, ?_, ?_, ?_, ?_, ?_, ?_, ?_⟩ <;> split <;> (try split) <;> omega

/-- **C45.** The global interval is the configured one if above one second, else 60 s; every interval is at least a second, and the interval of
a level is 1 s for the levels Trivial, Minor and Normal, 60 s for Major and Critical, the global one for any other. -/
theorem C45_intervals (mc : MetricConfig) (level : Int) :
    (mc.getGlobalInterval = if goSecond < mc.globalInterval then mc.globalInterval else 60 * goSecond) ∧
    goSecond ≤ mc.getGlobalInterval ∧ goSecond ≤ mc.getLevelInterval level ∧
    (mc.getLevelInterval level = if 0 ≤ level ∧ level ≤ 2 then goSecond else if level = 3 ∨ level = 4 then 60 * goSecond
      else mc.getGlobalInterval) := by
  have hg : mc.getGlobalInterval = if goSecond < mc.globalInterval then mc.globalInterval else 60 * goSecond := by
    unfold MetricConfig.getGlobalInterval goSecond
    split <;> split <;> omega
  have hg1 : goSecond ≤ mc.getGlobalInterval := by
    rw [hg]; unfold goSecond; split <;> omega
  have hl : mc.getLevelInterval level = if 0 ≤ level ∧ level ≤ 2 then goSecond else if level = 3 ∨ level = 4 then 60 * goSecond
      else mc.getGlobalInterval := by
    unfold MetricConfig.getLevelInterval MetricConfig.defaultLevelInterval
    simp only [GoMap.get?]
    by_cases h0 : level = 0
    · subst h0; simp [goSecond]
    by_cases h1 : level = 1
    · subst h1; simp [goSecond]
    by_cases h2 : level = 2
    · subst h2; simp [goSecond]
    by_cases h3 : level = 3
    · subst h3; simp [goSecond]
    by_cases h4 : level = 4
    · subst h4; simp [goSecond]
    have e : ¬ (0 ≤ level ∧ level ≤ 2) := by omega
    have e' : ¬ (level = 3 ∨ level = 4) := by omega
    simp [Ne.symm h0, Ne.symm h1, Ne.symm h2, Ne.symm h3, Ne.symm h4, e, e']
  refine ⟨hg, hg1, ?_, hl⟩
  rw [hl]
  split
  · exact le_refl _
  · split
    · unfold goSecond; omega
    · exact hg1

/-- Specification: the word "all" in any mixture of upper and lower case (bytes: `a` 97, `A` 65, `l` 108, `L` 76). -/
def SaysAll (v : GoStr) : Prop := ∃ a b c, v = [a, b, c] ∧ (a = 97 ∨ a = 65) ∧ (b = 108 ∨ b = 76) ∧ (c = 108 ∨ c = 76)

theorem MetricConfig.lower_iff (c d : UInt8) (hd : 97 ≤ d ∧ d ≤ 122) :
    (if 65 ≤ c ∧ c ≤ 90 then c + 32 else c) = d ↔ c = d ∨ c = d - 32 := by
  have e1 : (97 : UInt8).toNat = 97 := rfl
  have e2 : (122 : UInt8).toNat = 122 := rfl
  have e3 : (65 : UInt8).toNat = 65 := rfl
  have e4 : (90 : UInt8).toNat = 90 := rfl
  have e5 : (32 : UInt8).toNat = 32 := rfl
  have h1 := c.toNat_lt
  have h2 := d.toNat_lt
  have hs : (d - 32).toNat = d.toNat - 32 := by
    rw [UInt8.le_iff_toNat_le] at hd
    rw [UInt8.toNat_sub_of_le _ _ (by rw [UInt8.le_iff_toNat_le]; omega), e5]
  have hp : (c + 32).toNat = (c.toNat + 32) % 256 := by rw [UInt8.toNat_add, e5]
  simp only [UInt8.le_iff_toNat_le, ← UInt8.toNat_inj, e1, e2, e3, e4] at hd ⊢
  rw [hs]
  split
  · rw [hp]; omega
  · omega

theorem MetricConfig.equalFoldAll_iff (v : GoStr) : MetricConfig.equalFoldAll v = true ↔ SaysAll v := by
  unfold MetricConfig.equalFoldAll SaysAll
  rw [beq_iff_eq]
  have ha := fun c => MetricConfig.lower_iff c 97 (by decide)
  have hl := fun c => MetricConfig.lower_iff c 108 (by decide)
  constructor
  · intro h
    have hlen := congrArg List.length h
    simp only [List.length_map, List.length_cons, List.length_nil] at hlen
    obtain ⟨a, b, c, rfl⟩ := List.length_eq_three.1 hlen
    simp only [List.map_cons, List.map_nil, List.cons.injEq, and_true] at h
    exact ⟨a, b, c, rfl, (ha a).1 h.1, (hl b).1 h.2.1, (hl c).1 h.2.2⟩
  · rintro ⟨a, b, c, rfl, h1, h2, h3⟩
    simp only [List.map_cons, List.map_nil, List.cons.injEq, and_true]
    exact ⟨(ha a).2 h1, (hl b).2 h2, (hl c).2 h3⟩

/-- **C45.** `GetEnableMetrics` is empty, the configured list, or `["compass", "fastCompass"]`, exactly if the list is empty, without "all", or with
"all" in any case; `GetMetricManagerName` is the configured name, and never empty. -/
theorem C45_lists (mc : MetricConfig) :
    (mc.enables = [] → mc.getEnableMetrics = []) ∧
    ((∃ v ∈ mc.enables, SaysAll v) →
      mc.getEnableMetrics = ["compass".toUTF8.toList, "fastCompass".toUTF8.toList]) ∧
    ((∀ v ∈ mc.enables, ¬ SaysAll v) → mc.getEnableMetrics = mc.enables) ∧
    (mc.manager ≠ [] → mc.getMetricManagerName = mc.manager) ∧
    mc.getMetricManagerName ≠ [] := by
  refine ⟨fun h => by simp [MetricConfig.getEnableMetrics, h], fun ⟨v, hv, hv'⟩ => ?_, fun h => ?_, ?_, ?_⟩
  · have hl : ¬ mc.enables.length = 0 := by
      intro e; rw [List.length_eq_zero_iff.1 e] at hv; simp at hv
    rw [MetricConfig.getEnableMetrics, if_neg hl, if_pos]
    · decide +kernel
    · rw [List.any_eq_true]; exact ⟨v, hv, (MetricConfig.equalFoldAll_iff v).2 hv'⟩
  · unfold MetricConfig.getEnableMetrics
    by_cases he : mc.enables.length = 0
    · rw [if_pos he]; exact (List.length_eq_zero_iff.1 he).symm
    · rw [if_neg he, if_neg]
      rw [List.any_eq_true]
      rintro ⟨v, hv, hv'⟩
      exact h v hv ((MetricConfig.equalFoldAll_iff v).1 hv')
  · intro h
    unfold MetricConfig.getMetricManagerName
    rw [if_neg (by simpa using h)]
  · unfold MetricConfig.getMetricManagerName
    split
    · simp
    · rename_i h; intro e; exact h (by simp [e])

/-- **C45.** A configured level interval of 10 s is ignored. -/
theorem C45_level_interval_refuted :
    ({ levelInterval := some [(2, 10 * goSecond)] } : MetricConfig).getLevelInterval 2 = goSecond := by decide

/-- **C45.** The documented minimum of one second for the global interval is not accepted: it gives 60 s. -/
theorem C45_global_interval_refuted : ({ globalInterval := goSecond } : MetricConfig).getGlobalInterval = 60 * goSecond := by decide

/-- **C45.** The documented default reservoir type is exponentially decaying (2); a configuration that does not set it gives the bucket type (0),
and only a negative setting gives 2. Values above 2, which are no type, are returned unchanged. -/
theorem C45_reservoir_type_refuted :
    ({} : MetricConfig).getReservoirType = bucketReservoirType ∧ bucketReservoirType ≠ exponentiallyDecayingReservoirType ∧
    ({ reservoirType := 7 } : MetricConfig).getReservoirType = 7 := by decide

example : ({ bucketCount := -3 } : MetricConfig).getBucketCount = 10 ∧ ({ bucketCount := 3 } : MetricConfig).getBucketCount = 3 := by decide
example : ({ enables := [[65, 108, 76]] } : MetricConfig).getEnableMetrics = MetricConfig.allMetrics := by decide

/-! ## C46 -/

/-- **C46.** Which of the five constants are the number of seconds their name says: the first two, and no other. -/
theorem C46_constants : ∀ x ∈ intervalConstants, (x.2 = x.1 * goSecond ↔ x.1 = 1 ∨ x.1 = 5) := by decide

/-- **C46.** The claim fails for 10, 30 and 60. -/
theorem C46_constants_refuted : (10, 5 * goSecond) ∈ intervalConstants ∧ (30, 5 * goSecond) ∈ intervalConstants ∧
    (60, 5 * goSecond) ∈ intervalConstants := by decide

/-! ## C47 -/

/-- Bucket interval and bucket count a metric was created with. -/
def Registry.Params.buckets : Params → Int × Int
  | .compass _ n i _ _ => (i, n)
  | .fast i n _ => (i, n)

/-- Specification: the interval in ns of a metric of the given level: one second for levels 0 to 2 (Trivial, Minor, Normal), a minute for all
others. -/
def levelNanos (level : Int) : Int := if 0 ≤ level ∧ level ≤ 2 then 1000000000 else 60000000000

/-- Specification: what a registry's metrics are made with. A compass: bucket reservoir (type 0), 10 buckets, the interval of its level, at most
20 error codes and 20 addons. A fast compass: the interval, 10 buckets, at most 20 sub-categories. -/
def madeWith : Kind → Int → Params
  | .compass, level => .compass 0 10 (levelNanos level) 20 20
  | .fast, level => .fast (levelNanos level) 10 20

theorem creator_eq (k : Kind) (level : Int) (id : Nat) : creator k level id = .real id (madeWith k level) := by
  have h : MetricConfig.getMetricConfig.getLevelInterval level = levelNanos level := by
    have := (C45_intervals MetricConfig.getMetricConfig level).2.2.2
    rw [this]
    unfold levelNanos
    by_cases h1 : 0 ≤ level ∧ level ≤ 2
    · rw [if_pos h1, if_pos h1]; rfl
    · rw [if_neg h1, if_neg h1]
      split <;> rfl
  cases k
  · unfold creator madeWith; dsimp only; rw [h]; rfl
  · unfold creator madeWith; dsimp only; rw [h]; rfl

theorem Registry.Inv.wellformed {n0 : Nat} {s : Mem} {cs : List PC} (hi : Inv n0 s cs) (q : Req) (r : Option Nat)
    (id : Nat) (p : Params) (h : .done q r (.real id p) ∈ cs) :
    goSecond ≤ p.buckets.1 ∧ 1 ≤ p.buckets.2 ∧
    ∃ c ∈ cs, ∃ q', c.req? = some q' ∧ q'.target = q.target ∧ q'.name.hash = q.name.hash ∧
      p = madeWith q.kind q'.name.level := by
  have hkind := (hi.i2.doneKind _ h q r _ rfl).1
  cases r with
  | none => have := (hi.i2.doneKind _ h q none _ rfl).2 rfl; simp at this
  | some r =>
    obtain ⟨e, he, hem⟩ := hi.i2.got _ h q r _ rfl
    obtain ⟨c, hc, q', h1, h2, h3, -⟩ := hi.i2.origin r _ e he
    rw [hem] at h3
    have hk := h3.kind_eq
    rcases h3 with h3 | ⟨i, h3⟩
    · simp at h3
    · have hq : q'.kind = q.kind := hk.symm.trans hkind
      have hid : i = id := by
        unfold creator at h3
        cases hqk : q'.kind <;> simp only [hqk, Metric.real.injEq] at h3 <;> exact h3.1.symm
      subst hid
      rw [hq] at h3
      refine ⟨?_, ?_, c, hc, q', ?_, ?_, h2, by rw [creator_eq] at h3; exact (Metric.real.inj h3).2⟩
      · have := (C45_intervals {} q'.name.level).2.2.1
        unfold creator at h3
        cases hqk : q.kind <;> simp only [hqk, Metric.real.injEq] at h3 <;> rw [h3.2] <;> exact this
      · have := (C45_counts {}).2.2.2.2.2.1
        unfold creator at h3
        cases hqk : q.kind <;> simp only [hqk, Metric.real.injEq] at h3 <;> rw [h3.2] <;> exact this
      · cases c with
        | done q' r' m' => cases r' <;> simp_all [PC.at?, PC.req?]
        | _ => simp_all [PC.at?, PC.req?]
      · have g1 := hi.i1.loc _ hc q' r h1
        have g2 := hi.i1.loc _ h q r rfl
        unfold RightReg at g1 g2
        cases hq' : q'.target with
        | direct d =>
          cases hqq : q.target with
          | direct d' => rw [hq'] at g1; rw [hqq] at g2; simp only at g1 g2; rw [← g1.1, ← g2.1]
          | group g' =>
            rw [hq'] at g1; rw [hqq] at g2
            have := (hi.i1.groupRange _ _ g2).1
            simp only at g1
            omega
        | group g =>
          cases hqq : q.target with
          | direct d' =>
            rw [hq'] at g1; rw [hqq] at g2
            have := (hi.i1.groupRange _ _ g1).1
            simp only at g2
            omega
          | group g' =>
            rw [hq'] at g1; rw [hqq] at g2
            rw [hi.i1.groupInj _ _ _ g1 g2]

/-- **C47.** Every real metric returned by any lookup in any interleaving was created with an interval of at least a second and at least one
bucket, and with the parameters of the kind and level that were first asked for. -/
theorem C47_wellformed (limits : List Int) (es : List (Ev Call Unit)) (hes : SchedOk limits.length es) (q : Req) (r : Option Nat)
    (id : Nat) (p : Params) (h : .done q r (.real id p) ∈ (regRun limits es).calls) :
    goSecond ≤ p.buckets.1 ∧ 1 ≤ p.buckets.2 ∧
    ∃ c ∈ (regRun limits es).calls, ∃ q', c.req? = some q' ∧ q'.target = q.target ∧ q'.name.hash = q.name.hash ∧
      p = madeWith q.kind q'.name.level :=
  (inv_all limits es hes).wellformed q r id p h

/-- **C47.** Hence no bucket counter inside such a metric ever panics: creating one with those parameters succeeds, and after any history of
updates, the next update and the next query do not panic. -/
theorem C47_no_panic (limits : List Int) (es : List (Ev Call Unit)) (hes : SchedOk limits.length es) (q : Req) (r : Option Nat)
    (id : Nat) (p : Params) (h : .done q r (.real id p) ∈ (regRun limits es).calls) (t0 : Int) (u : Bool) :
    ∃ b, BucketCounter.newImpl p.buckets.1 p.buckets.2 t0 u = some b ∧
      ∀ (hist : List (Int × BucketCounter.Op)) (t n s : Int),
        ((BucketCounter.run b hist).updateN t n).panicked = false ∧ ((BucketCounter.run b hist).getBucketCountsSince t s).isSome = true := by
  obtain ⟨h1, h2, -⟩ := C47_wellformed limits es hes q r id p h
  refine ⟨BucketCounter.new p.buckets.1 p.buckets.2.toNat t0 u, ?_, fun hist t n s => ?_⟩
  · unfold BucketCounter.newImpl
    rw [if_neg (by omega)]
  · have := C08_no_panic (BucketCounter.run (BucketCounter.new p.buckets.1 p.buckets.2.toNat t0 u) hist)
      (Or.inl (by rw [BucketCounter.run_interval]; exact h1)) t n s .update
    exact ⟨this.1, this.2.2⟩

/-- **C47.** The error-code limit of a created compass is not the configured (default 100) but the addon limit (default 20). -/
theorem C47_error_limit_refuted (level : Int) (id : Nat) :
    ∃ ty n i, creator .compass level id = .real id (.compass ty n i 20 20) ∧ MetricConfig.getMetricConfig.getMaxCompassErrorCodeCount = 100 :=
  ⟨_, _, _, rfl, by decide⟩

/-- **C47.** Every compass a registry creates uses the bucket reservoir. -/
theorem C47_reservoir (level : Int) (id : Nat) :
    ∃ n i a b, creator .compass level id = .real id (.compass bucketReservoirType n i a b) := ⟨_, _, _, _, rfl⟩

/-- A compass of level Critical. -/
example : (exec (initial [1]) (.lookup ⟨.direct 0, .compass, { hash := [97], level := 4 }⟩)).2 =
    .done ⟨.direct 0, .compass, { hash := [97], level := 4 }⟩ (some 0) (.real 0 (.compass 0 10 60000000000 20 20)) := by decide

end GoMetrics
