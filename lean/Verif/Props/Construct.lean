import Verif.Model.Construct
/-! # Property C112: which arguments the constructors accept -/
namespace GoMetrics

theorem Deque.fill_ok (k : Nat) : ∀ (done : Nat) (slots : List Nat) (heap : BHeap), slots.length = done + k → heap = List.replicate done newBucket →
    slots.take done = List.range done →
    Deque.fill slots heap done k = some (List.range (done + k), List.replicate (done + k) newBucket) := by
  induction k with
  | zero =>
    intro done slots heap h1 h2 h3
    have : slots.take done = slots := List.take_of_length_le (by omega)
    rw [this] at h3
    simp [Deque.fill, h2, h3]
  | succ k ih =>
    intro done slots heap h1 h2 h3
    unfold Deque.fill
    rw [if_pos (by omega), ih (done + 1)]
    · rw [show done + 1 + k = done + (k + 1) by omega]
    · rw [List.length_set]; omega
    · rw [h2, List.replicate_succ']
    · rw [List.take_succ, List.take_set_of_le (by omega), h3, h2, List.length_replicate, List.getElem?_set_self (by omega), List.range_succ]
      rfl

theorem Deque.newFor_eq (n : Int) (h : InI64 n) :
    Deque.newFor n = if n < -1 ∨ n = 9223372036854775807 then none else some (⟨List.range (n + 1).toNat, 0⟩, List.replicate (n + 1).toNat newBucket) := by
  unfold Deque.newFor makeSlice
  by_cases h1 : n = 9223372036854775807
  · subst h1
    have : i64 (9223372036854775807 + 1) = -9223372036854775808 := by decide +kernel
    rw [this]
    rfl
  · have hi : i64 (n + 1) = n + 1 := i64_of_in (x := n + 1) (by unfold InI64 at *; omega)
    rw [hi]
    by_cases h2 : n < -1
    · rw [if_pos (by omega : n + 1 < 0), if_pos (Or.inl h2)]; rfl
    · rw [if_neg (by omega : ¬ n + 1 < 0), if_neg (by omega)]
      have := Deque.fill_ok (n + 1).toNat 0 (List.replicate (n + 1).toNat 0) [] (by simp) rfl rfl
      simp only [Option.bind_some, this, Option.map_some, Nat.zero_add]

/-- The number of buckets is an `int` whose successor is one. -/
def BucketNumber (n : Int) : Prop := 0 ≤ n ∧ n < 2 ^ 63 - 1

theorem BucketCounter.newFor_eq (interval n t0 : Int) (u : Bool) (h : InI64 n) :
    (BucketNumber n → BucketCounter.newFor interval n t0 u = some (BucketCounter.new interval n.toNat t0 u)) ∧
    (¬ BucketNumber n → BucketCounter.newFor interval n t0 u = none) := by
  have e := Deque.newFor_eq n h
  have c : BucketNumber n ↔ 0 ≤ n ∧ n < 9223372036854775807 := by unfold BucketNumber; norm_num
  rw [c]
  constructor
  · rintro ⟨h1, h2⟩
    rw [if_neg (by omega)] at e
    unfold BucketCounter.newFor
    rw [e, show (n + 1).toNat = n.toNat + 1 by omega]
    have hp : (⟨List.range (n.toNat + 1), 0⟩ : Deque).peekFor = some 0 := by
      show (List.range (n.toNat + 1))[0]? = some 0
      simp
    have hq : (Deque.new n.toNat).peek = 0 := by
      show ((List.range (n.toNat + 1))[0]?).getD 0 = 0
      simp
    simp only [Option.bind_some, hp, Option.map_some, BucketCounter.new, hq]
    rfl
  · intro h1
    unfold BucketCounter.newFor
    by_cases h2 : n = -1
    · subst h2; rw [e]; rfl
    · rw [e, if_pos (by unfold InI64 at h; omega)]; rfl

/-- **C112.** A bucket counter can be created exactly for numbers of buckets from 0 on (and below the largest `int`), with any interval and any clock reading; it is then the one of the other
properties. -/
theorem C112_bucket_counter (interval n t0 : Int) (u : Bool) (h : InI64 n) :
    ((BucketCounter.newFor interval n t0 u = none) ↔ ¬ (0 ≤ n ∧ n < 2 ^ 63 - 1)) ∧
      ∀ b, BucketCounter.newFor interval n t0 u = some b → b = BucketCounter.new interval n.toNat t0 u := by
  obtain ⟨h1, h2⟩ := BucketCounter.newFor_eq interval n t0 u h
  by_cases hn : BucketNumber n
  · rw [h1 hn]
    exact ⟨⟨(fun k => nomatch k), fun k => absurd hn k⟩, fun b hb => (Option.some.inj hb).symm⟩
  · rw [h2 hn]
    exact ⟨⟨fun _ => hn, fun _ => rfl⟩, fun b hb => nomatch hb⟩

/-- **C112.** `NewUniformReservoir` panics exactly for negative sizes. -/
theorem C112_uniform (size : Int) : (UniformReservoir.newFor size = none ↔ size < 0) ∧
    ∀ r, UniformReservoir.newFor size = some r → r = UniformReservoir.new size.toNat := by
  unfold UniformReservoir.newFor makeSlice
  by_cases h : size < 0
  · rw [if_pos h]; exact ⟨⟨fun _ => h, fun _ => rfl⟩, fun r hr => nomatch hr⟩
  · rw [if_neg h]; exact ⟨⟨(fun k => nomatch k), fun k => absurd k h⟩, fun r hr => (Option.some.inj hr).symm⟩

/-- **C112.** `NewBucketReservoir` panics exactly for the numbers of buckets for which a bucket counter cannot be created. -/
theorem C112_bucket_reservoir (interval n t0 : Int) (h : InI64 n) :
    (BucketReservoir.newFor interval n t0 = none ↔ ¬ (0 ≤ n ∧ n < 2 ^ 63 - 1)) ∧
      ∀ r, BucketReservoir.newFor interval n t0 = some r → r = BucketReservoir.new interval n.toNat t0 := by
  obtain ⟨h1, h2⟩ := BucketCounter.newFor_eq interval n t0 true h
  unfold BucketReservoir.newFor
  by_cases hn : BucketNumber n
  · rw [h1 hn]
    exact ⟨⟨(fun k => nomatch k), fun k => absurd hn k⟩, fun b hb => (Option.some.inj hb).symm⟩
  · rw [h2 hn]
    exact ⟨⟨fun _ => hn, fun _ => rfl⟩, fun b hb => nomatch hb⟩

/-- **C112.** `NewCompass` panics exactly for these numbers of buckets, whatever the reservoir, the interval and the limits (which may be negative); otherwise the compass is the one of the other
properties. -/
theorem C112_compass {σ : Type} (reservoir : σ) (n interval maxErr maxAdd : Int) (env : Compass.NewEnv) (h : InI64 n) :
    (Compass.newFor reservoir n interval maxErr maxAdd env = none ↔ ¬ (0 ≤ n ∧ n < 2 ^ 63 - 1)) ∧
      ∀ c, Compass.newFor reservoir n interval maxErr maxAdd env = some c → c = Compass.new reservoir n.toNat interval maxErr maxAdd env := by
  obtain ⟨h1, h2⟩ := BucketCounter.newFor_eq interval n env.tTotal true h
  obtain ⟨h3, -⟩ := BucketCounter.newFor_eq interval n env.tSuccess true h
  unfold Compass.newFor
  by_cases hn : BucketNumber n
  · rw [h1 hn, h3 hn]
    exact ⟨⟨(fun k => nomatch k), fun k => absurd hn k⟩, fun b hb => (Option.some.inj hb).symm⟩
  · rw [h2 hn]
    exact ⟨⟨fun _ => hn, fun _ => rfl⟩, fun b hb => nomatch hb⟩

theorem Compass.reservoirForInt_eq (A : EDR.Arith) (rtype n interval : Int) (renv : Compass.ResEnv) (h : InI64 n) (hn : BucketNumber n) :
    Compass.reservoirForInt A rtype n interval renv = some (Compass.reservoirFor A rtype n.toNat interval renv) := by
  obtain ⟨h1, -⟩ := BucketCounter.newFor_eq interval n renv.tValue true h
  unfold Compass.reservoirForInt Compass.reservoirFor
  by_cases g1 : rtype = exponentiallyDecayingReservoirType
  · rw [if_pos g1, if_pos g1]
  · rw [if_neg g1, if_neg g1]
    by_cases g2 : rtype = bucketReservoirType
    · rw [if_pos g2, if_pos g2]; unfold BucketReservoir.newFor; rw [h1 hn]; rfl
    · rw [if_neg g2, if_neg g2]
      by_cases g3 : rtype = uniformReservoirType
      · rw [if_pos g3, if_pos g3]; rfl
      · rw [if_neg g3, if_neg g3]

/-- **C112.** So does `NewCompassWithType`, for every number given as a reservoir type. -/
theorem C112_compass_with_type (A : EDR.Arith) (rtype n interval maxErr maxAdd : Int) (env : Compass.NewEnv) (renv : Compass.ResEnv) (h : InI64 n) :
    (Compass.newWithTypeFor A rtype n interval maxErr maxAdd env renv = none ↔ ¬ (0 ≤ n ∧ n < 2 ^ 63 - 1)) ∧
      ∀ c, Compass.newWithTypeFor A rtype n interval maxErr maxAdd env renv = some c → c = Compass.newWithType A rtype n.toNat interval maxErr maxAdd env renv := by
  obtain ⟨h1, h2⟩ := BucketCounter.newFor_eq interval n env.tTotal true h
  obtain ⟨h3, -⟩ := BucketCounter.newFor_eq interval n env.tSuccess true h
  unfold Compass.newWithTypeFor
  by_cases hn : BucketNumber n
  · rw [h1 hn, h3 hn, Compass.reservoirForInt_eq A rtype n interval renv h hn]
    exact ⟨⟨(fun k => nomatch k), fun k => absurd hn k⟩, fun b hb => (Option.some.inj hb).symm⟩
  · rw [h2 hn]
    exact ⟨⟨fun _ => hn, fun _ => rfl⟩, fun b hb => nomatch hb⟩

/-- 0 buckets are accepted, -1 is not. -/
example : (BucketCounter.newFor 1000000000 0 0 true).isSome = true ∧ BucketCounter.newFor 1000000000 (-1) 0 true = none ∧ BucketCounter.newFor 1000000000 (-2) 0 true = none := by
  decide +kernel

/-- **C112.** A fast compass with a negative number of buckets can be created. It never has a category: a `Record` either panics or does nothing, and leaves the compass as it was, whatever is
recorded (the lock is released by `defer`). It panics exactly if the duration is not negative, the category not empty and the limit not 0 or below. -/
theorem C112_fast_compass (interval n maxSub : Int) (hn : n < 0) (h : List FastCompass.Rec) (r : FastCompass.Rec) :
    let fc := (FastCompass.new interval n maxSub).run h
    fc.subCategories = [] ∧ (fc.record r).state = fc ∧ ((fc.record r).panicked = true ↔ 0 ≤ r.duration ∧ r.subCategory ≠ "" ∧ 0 < maxSub) := by
  have step : ∀ r, ((FastCompass.new interval n maxSub).record r).state = FastCompass.new interval n maxSub ∧
      (((FastCompass.new interval n maxSub).record r).panicked = true ↔ 0 ≤ r.duration ∧ r.subCategory ≠ "" ∧ 0 < maxSub) := by
    intro r
    have hz : r.subCategory.length = 0 ↔ r.subCategory = "" := by rw [String.length_eq_zero_iff]
    have hnew : BucketCounter.newImpl (FastCompass.new interval n maxSub).bucketInterval (FastCompass.new interval n maxSub).numberOfBuckets r.t0 false = none := by
      unfold BucketCounter.newImpl; exact if_pos hn
    unfold FastCompass.record
    by_cases h1 : r.duration < 0 ∨ r.subCategory.length = 0
    · rw [if_pos h1]
      refine ⟨rfl, (fun k => nomatch k), fun k => ?_⟩
      rcases h1 with h1 | h1
      · omega
      · exact absurd (hz.1 h1) k.2.1
    · rw [if_neg h1]
      have hg : (FastCompass.new interval n maxSub).subCategories.get? r.subCategory = none := rfl
      rw [hg]
      have hl : ((FastCompass.new interval n maxSub).subCategories.length : Int) = 0 := rfl
      have hm : (FastCompass.new interval n maxSub).maxSubCategoryCount = maxSub := rfl
      dsimp only
      rw [hl, hm]
      by_cases h2 : (0 : Int) ≥ maxSub
      · rw [if_pos h2]
        exact ⟨rfl, (fun k => nomatch k), fun k => by omega⟩
      · rw [if_neg h2, hnew]
        push Not at h1
        exact ⟨rfl, fun _ => ⟨h1.1, fun k => h1.2 (hz.2 k), by omega⟩, fun _ => rfl⟩
  have key : (FastCompass.new interval n maxSub).run h = FastCompass.new interval n maxSub := by
    induction h with
    | nil => rfl
    | cons a h ih =>
      show FastCompass.run ((FastCompass.new interval n maxSub).record a).state h = _
      rw [(step a).1]
      exact ih
  intro fc
  have e : fc = FastCompass.new interval n maxSub := key
  rw [e]
  exact ⟨rfl, step r⟩

/-- With a category that would be admitted. -/
example : ((FastCompass.new 1000000000 (-1) 20).record ⟨0, 0, 5, "success"⟩).panicked = true :=
  (C112_fast_compass 1000000000 (-1) 20 (by norm_num) [] ⟨0, 0, 5, "success"⟩).2.2.2 ⟨by norm_num, by decide, by norm_num⟩

end GoMetrics
