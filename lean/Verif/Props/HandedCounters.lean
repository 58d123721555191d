import Verif.Model.Handed
import Verif.Proofs.Compass
/-! # C102 — what callers change by writing to what they were given: the counters of a compass -/
namespace GoMetrics
namespace Handed
open Compass
variable {σ X : Type}

/-! ## Specification -/

/-- The calls on the compass itself. -/
def callOf : Use X → List (Env X × Op)
  | .call env op => [(env, op)]
  | _ => []

/-- The calls on the compass itself in a history. -/
def callsOf (g : List (Use X)) : List (Env X × Op) := g.flatMap callOf

/-- What was added through handed-out counters: the sum of the amounts that `amount` selects, of those uses where the counter existed (`present`, of the calls before). -/
def addedFrom (amount : Use X → Option Int) (present : List (Env X × Op) → Prop) [DecidablePred present] (before : List (Env X × Op)) :
    List (Use X) → Int
  | [] => 0
  | e :: g => (if present before then (amount e).getD 0 else 0) + addedFrom amount present (before ++ callOf e) g

/-- Through `GetBucketSuccessCount()`. -/
def toSuccess : Use X → Option Int
  | .success _ n => some n
  | _ => none
/-- Through `GetErrorCodeCounts()[code]`. -/
def toErrorCode (code : String) : Use X → Option Int
  | .errorCode c _ n => if c = code then some n else none
  | _ => none
/-- Through `GetAddonCounts()[addon]`. -/
def toAddon (addon : String) : Use X → Option Int
  | .addon a _ n => if a = addon then some n else none
  | _ => none

/-! ## Proofs -/

theorem addedFrom_snoc (amount : Use X → Option Int) (present : List (Env X × Op) → Prop) [DecidablePred present]
    (before : List (Env X × Op)) (g : List (Use X)) (e : Use X) :
    addedFrom amount present before (g ++ [e]) = addedFrom amount present before g +
      (if present (before ++ callsOf g) then (amount e).getD 0 else 0) := by
  induction g generalizing before with
  | nil => simp [addedFrom, callsOf]
  | cons a g ih =>
    simp only [List.cons_append, addedFrom, ih]
    rw [show before ++ callOf a ++ callsOf g = before ++ callsOf (a :: g) by simp [callsOf]]
    ring

/-- Two counters that differ by `d`. -/
structure Off (d : Int) (b' b : BucketCounter) : Prop where
  interval : b'.interval = b.interval
  on' : b'.updateTotalCount = true
  on : b.updateTotalCount = true
  count : b'.getCount = i64 (b.getCount + d)

theorem updateN_frame (b : BucketCounter) (t n : Int) (h : b.updateTotalCount = true) :
    (b.updateN t n).state.interval = b.interval ∧ (b.updateN t n).state.updateTotalCount = true ∧
      (b.updateN t n).state.getCount = i64 (b.getCount + n) ∧ (b.updateN t n).panicked = decide (wholeSeconds b.interval = 0) := by
  unfold BucketCounter.updateN BucketCounter.bumpTotal
  rw [if_pos h]
  simp only
  unfold BucketCounter.alignTimestamp
  by_cases hs : wholeSeconds b.interval = 0
  · rw [if_pos hs]; exact ⟨rfl, h, rfl, by simp [hs]⟩
  · rw [if_neg hs]
    simp only [Res.state_ok, Res.panicked_ok]
    unfold BucketCounter.credit
    simp only
    split <;> exact ⟨rfl, h, rfl, by simp [hs]⟩

theorem off_add {d : Int} {b' b : BucketCounter} (h : Off d b' b) (t n : Int) : Off (d + n) (b'.updateN t n).state b := by
  obtain ⟨f1, f2, f3, -⟩ := updateN_frame b' t n h.on'
  refine ⟨by rw [f1, h.interval], f2, h.on, ?_⟩
  rw [f3, h.count, i64_add_left, add_assoc]

theorem off_update {d : Int} {b' b : BucketCounter} (h : Off d b' b) (t n : Int) :
    Off d (b'.updateN t n).state (b.updateN t n).state ∧ (b'.updateN t n).panicked = (b.updateN t n).panicked := by
  obtain ⟨f1, f2, f3, f4⟩ := updateN_frame b' t n h.on'
  obtain ⟨g1, g2, g3, g4⟩ := updateN_frame b t n h.on
  refine ⟨⟨by rw [f1, g1, h.interval], f2, g2, ?_⟩, by rw [f4, g4, h.interval]⟩
  rw [f3, g3, h.count, i64_add_left, i64_add_left]
  congr 1; ring

/-- Two maps of counters that differ by `d`. -/
structure OffMap (d : String → Int) (m' m : GoMap String BucketCounter) : Prop where
  keys : m'.keys = m.keys
  off : ∀ k b' b, m'.get? k = some b' → m.get? k = some b → Off (d k) b' b
  zero : ∀ k, k ∉ m.keys → d k = 0

theorem keys_set_mem {m : GoMap String BucketCounter} {k : String} (b : BucketCounter) (h : k ∈ m.keys) : (m.set k b).keys = m.keys := by
  induction m with
  | nil => simp [GoMap.keys] at h
  | cons e m ih =>
    obtain ⟨a, v⟩ := e
    unfold GoMap.set
    by_cases hk : a = k
    · simp [hk, GoMap.keys]
    · rw [if_neg hk]
      simp only [GoMap.keys, List.map_cons, List.mem_cons] at h ih ⊢
      rw [ih (h.resolve_left (fun e => hk e.symm))]

theorem keys_set_new {m : GoMap String BucketCounter} {k : String} (b : BucketCounter) (h : k ∉ m.keys) : (m.set k b).keys = m.keys ++ [k] := by
  induction m with
  | nil => rfl
  | cons e m ih =>
    obtain ⟨a, v⟩ := e
    simp only [GoMap.keys, List.map_cons, List.mem_cons, not_or] at h
    unfold GoMap.set
    rw [if_neg (fun e => h.1 e.symm)]
    simp only [GoMap.keys, List.map_cons, List.cons_append] at ih ⊢
    rw [ih h.2]

theorem OffMap.some {d : String → Int} {m' m : GoMap String BucketCounter} (h : OffMap d m' m) {k : String} {b' : BucketCounter}
    (hb : m'.get? k = some b') : ∃ b, m.get? k = some b ∧ Off (d k) b' b := by
  have : k ∈ m.keys := by rw [← h.keys]; exact (GoMap.mem_keys_iff _ _).2 ⟨b', hb⟩
  obtain ⟨b, hb2⟩ := (GoMap.mem_keys_iff _ _).1 this
  exact ⟨b, hb2, h.off k b' b hb hb2⟩

theorem OffMap.none {d : String → Int} {m' m : GoMap String BucketCounter} (h : OffMap d m' m) {k : String} (hb : m'.get? k = none) :
    m.get? k = none := by
  rw [GoMap.get?_eq_none_iff, ← h.keys]; exact (GoMap.get?_eq_none_iff _ _).1 hb

theorem offMap_set {d : String → Int} {m' m : GoMap String BucketCounter} (h : OffMap d m' m) {k : String} (hk : k ∈ m.keys)
    {b' b : BucketCounter} (hb : Off (d k) b' b) : OffMap d (m'.set k b') (m.set k b) := by
  refine ⟨by rw [keys_set_mem _ (by rw [h.keys]; exact hk), keys_set_mem _ hk, h.keys], ?_, ?_⟩
  · intro k2 b2' b2 h1 h2
    rw [GoMap.get?_set] at h1 h2
    by_cases he : k = k2
    · subst he; rw [if_pos rfl] at h1 h2; cases h1; cases h2; exact hb
    · rw [if_neg he] at h1 h2; exact h.off _ _ _ h1 h2
  · intro k2 h2; rw [keys_set_mem _ hk] at h2; exact h.zero _ h2

theorem offMap_new {d : String → Int} {m' m : GoMap String BucketCounter} (h : OffMap d m' m) {k : String} (hk : k ∉ m.keys)
    {b : BucketCounter} (hb : b.updateTotalCount = true) (hr : InI64 b.getCount) : OffMap d (m'.set k b) (m.set k b) := by
  refine ⟨by rw [keys_set_new _ (by rw [h.keys]; exact hk), keys_set_new _ hk, h.keys], ?_, ?_⟩
  · intro k2 b2' b2 h1 h2
    rw [GoMap.get?_set] at h1 h2
    by_cases he : k = k2
    · subst he; rw [if_pos rfl] at h1 h2; cases h1; cases h2
      exact ⟨rfl, hb, hb, by rw [h.zero k hk, add_zero, i64_of_in hr]⟩
    · rw [if_neg he] at h1 h2; exact h.off _ _ _ h1 h2
  · intro k2 h2
    apply h.zero
    rw [GoMap.mem_keys_set] at h2
    exact fun hh => h2 (Or.inr hh)

/-- Two results that panic together and leave states in the relation `P`. -/
def Both {α : Type} (P : α → α → Prop) (r' r : Res α) : Prop := r'.panicked = r.panicked ∧ P r'.state r.state

theorem both_andThen {α : Type} {P : α → α → Prop} {r' r : Res α} {f : α → Res α} (h : Both P r' r) (hf : ∀ a' a, P a' a → Both P (f a') (f a)) :
    Both P (r'.andThen f) (r.andThen f) := by
  obtain ⟨h1, h2⟩ := h
  cases r' <;> cases r <;> simp at h1
  · exact hf _ _ h2
  · exact ⟨rfl, h2⟩

theorem bump_both {d : String → Int} {m' m : GoMap String BucketCounter} (h : OffMap d m' m) (I : Int) (n : Nat) (mx : Int) (key : String) (t0 t : Int) :
    Both (OffMap d) (bump I n mx m' key t0 t) (bump I n mx m key t0 t) := by
  unfold bump
  cases hg : m'.get? key with
  | some b' =>
    obtain ⟨b, hb, ho⟩ := h.some hg
    rw [hb]
    simp only
    obtain ⟨h1, h2⟩ := off_update ho t 1
    refine ⟨by simpa [BucketCounter.update] using h2, ?_⟩
    simp only [Res.lift_state]
    exact offMap_set h ((GoMap.mem_keys_iff _ _).2 ⟨b, hb⟩) h1
  | none =>
    have hn := h.none hg
    rw [hn]
    have hlen : m'.length = m.length := by
      have := congrArg List.length h.keys
      simpa [GoMap.keys] using this
    simp only [hlen]
    split
    · refine ⟨by simp only [Res.lift_panicked], ?_⟩
      simp only [Res.lift_state]
      obtain ⟨-, f2, f3, -⟩ := updateN_frame (BucketCounter.new I n t0 true) t 1 rfl
      refine offMap_new h ((GoMap.get?_eq_none_iff _ _).1 hn) f2 ?_
      show InI64 ((BucketCounter.new I n t0 true).updateN t 1).state.getCount
      rw [f3]; exact i64_in _
    · exact ⟨rfl, h⟩

/-- Two compasses that differ only by what was added to their counters. -/
structure Rel (ds : Int) (de da : String → Int) (c' c : Compass σ) : Prop where
  rest : c' = { c with successCount := c'.successCount, errorCodes := c'.errorCodes, addons := c'.addons }
  success : Off ds c'.successCount c.successCount
  errs : OffMap de c'.errorCodes c.errorCodes
  adds : OffMap da c'.addons c.addons

theorem tickOnce_graft (R : Rounding) (c : Compass σ) (s : BucketCounter) (e a : GoMap String BucketCounter) (n : Nat) :
    (tickOnce R)^[n] { c with successCount := s, errorCodes := e, addons := a } =
      { (tickOnce R)^[n] c with successCount := s, errorCodes := e, addons := a } := by
  induction n generalizing c with
  | zero => rfl
  | succ n ih => rw [Function.iterate_succ_apply, Function.iterate_succ_apply, ← ih]; rfl

theorem tickOnce_keeps (R : Rounding) (c : Compass σ) (n : Nat) : ((tickOnce R)^[n] c).successCount = c.successCount ∧
    ((tickOnce R)^[n] c).errorCodes = c.errorCodes ∧ ((tickOnce R)^[n] c).addons = c.addons := by
  induction n generalizing c with
  | zero => exact ⟨rfl, rfl, rfl⟩
  | succ n ih => rw [Function.iterate_succ_apply]; exact ih (tickOnce R c)

theorem rel_mk {ds : Int} {de da : String → Int} {c' c d' d : Compass σ} (h : Rel ds de da c' c)
    (h1 : d' = { d with successCount := c'.successCount, errorCodes := c'.errorCodes, addons := c'.addons })
    (h2 : d.successCount = c.successCount) (h3 : d.errorCodes = c.errorCodes) (h4 : d.addons = c.addons) : Rel ds de da d' d := by
  subst h1
  exact ⟨rfl, by rw [h2]; exact h.success, by rw [h3]; exact h.errs, by rw [h4]; exact h.adds⟩

theorem tick_both {ds : Int} {de da : String → Int} {c' c : Compass σ} (h : Rel ds de da c' c) (R : Rounding) (t : Int) :
    Both (Rel ds de da) (c'.tickIfNecessary R t) (c.tickIfNecessary R t) := by
  have hr := h.rest
  generalize hs : c'.successCount = s at hr
  generalize he : c'.errorCodes = e at hr
  generalize ha : c'.addons = a at hr
  subst hr
  unfold tickIfNecessary
  show Both _ (if c.age t > tickInterval then _ else _) _
  by_cases h1 : c.age t > tickInterval
  · rw [if_pos h1, if_pos h1]
    show Both _ (if c.bucketInterval = 0 then _ else _) _
    by_cases h2 : c.bucketInterval = 0
    · rw [if_pos h2, if_pos h2]; exact ⟨rfl, h⟩
    · rw [if_neg h2, if_neg h2]
      refine ⟨rfl, ?_⟩
      simp only [Res.state_ok]
      obtain ⟨k1, k2, k3⟩ := tickOnce_keeps R { c with lastTick := i64 (t - (c.age t).tmod c.bucketInterval) } (c.ticksDue t)
      exact rel_mk h (tickOnce_graft R { c with lastTick := i64 (t - (c.age t).tmod c.bucketInterval) } s e a (c.ticksDue t)) k1 k2 k3
  · rw [if_neg h1, if_neg h1]; exact ⟨rfl, h⟩

theorem update_both {ds : Int} {de da : String → Int} {c' c : Compass σ} (h : Rel ds de da c' c) (R : Rounding) (S : ReservoirImpl σ X)
    (env : Env X) (d : Int) : Both (Rel ds de da) (c'.update R S env d) (c.update R S env d) := by
  unfold update
  refine both_andThen (tick_both h R env.tick) fun c' c h => ?_
  refine both_andThen (P := Rel ds de da) ?_ fun c' c h => ?_
  · have hr := h.rest
    generalize hs : c'.successCount = s at hr
    generalize he : c'.errorCodes = e at hr
    generalize ha : c'.addons = a at hr
    subst hr
    refine ⟨by simp only [Res.lift_panicked]; rfl, ?_⟩
    simp only [Res.lift_state]
    exact rel_mk h rfl rfl rfl rfl
  · have hr := h.rest
    generalize hs : c'.successCount = s at hr
    generalize he : c'.errorCodes = e at hr
    generalize ha : c'.addons = a at hr
    subst hr
    refine ⟨by simp only [Res.lift_panicked], ?_⟩
    simp only [Res.lift_state]
    exact rel_mk h rfl rfl rfl rfl

theorem step_both {ds : Int} {de da : String → Int} {c' c : Compass σ} (h : Rel ds de da c' c) (R : Rounding) (S : ReservoirImpl σ X)
    (env : Env X) (op : Op) : Both (Rel ds de da) (step R S c' env op) (step R S c env op) := by
  cases op with
  | update d => exact update_both h R S env d
  | readRate => exact tick_both h R env.tick
  | updateWithError d s code addon =>
    simp only [step]
    unfold updateWithError
    refine both_andThen (update_both h R S env d) fun c' c h => ?_
    refine both_andThen (P := Rel ds de da) ?_ fun c' c h => ?_
    · unfold successStep
      cases s with
      | false => exact ⟨rfl, h⟩
      | true =>
        obtain ⟨h1, h2⟩ := off_update h.success env.tSuccess 1
        refine ⟨by simp only [if_true, Res.lift_panicked]; exact h2, ?_⟩
        simp only [if_true, Res.lift_state]
        have hr := h.rest
        generalize hs : c'.successCount = s at hr h1
        generalize he : c'.errorCodes = e at hr
        generalize ha : c'.addons = a at hr
        subst hr
        exact ⟨rfl, h1, h.errs, h.adds⟩
    · refine both_andThen (P := Rel ds de da) ?_ fun c' c h => ?_
      · unfold errorStep
        by_cases hc : code.length > 0
        · rw [if_pos hc, if_pos hc]
          have hr := h.rest
          have f : c'.bucketInterval = c.bucketInterval ∧ c'.numberOfBucket = c.numberOfBucket ∧ c'.maxErrorCodeCount = c.maxErrorCodeCount := by
            rw [hr]; exact ⟨rfl, rfl, rfl⟩
          rw [f.1, f.2.1, f.2.2]
          obtain ⟨h1, h2⟩ := bump_both h.errs c.bucketInterval c.numberOfBucket c.maxErrorCodeCount code env.tErrNew env.tErr
          refine ⟨by simp only [Res.lift_panicked]; exact h1, ?_⟩
          simp only [Res.lift_state]
          refine ⟨?_, h.success, h2, h.adds⟩
          conv_lhs => rw [hr]
        · rw [if_neg hc, if_neg hc]; exact ⟨rfl, h⟩
      · unfold addonStep
        by_cases hc : addon.length > 0
        · rw [if_pos hc, if_pos hc]
          have hr := h.rest
          have f : c'.bucketInterval = c.bucketInterval ∧ c'.numberOfBucket = c.numberOfBucket ∧ c'.maxAddonCount = c.maxAddonCount := by
            rw [hr]; exact ⟨rfl, rfl, rfl⟩
          rw [f.1, f.2.1, f.2.2]
          obtain ⟨h1, h2⟩ := bump_both h.adds c.bucketInterval c.numberOfBucket c.maxAddonCount addon env.tAddonNew env.tAddon
          refine ⟨by simp only [Res.lift_panicked]; exact h1, ?_⟩
          simp only [Res.lift_state]
          refine ⟨?_, h.success, h.errs, h2⟩
          conv_lhs => rw [hr]
        · rw [if_neg hc, if_neg hc]; exact ⟨rfl, h⟩

theorem bumpAt_off {d : String → Int} {m' m : GoMap String BucketCounter} (h : OffMap d m' m) (key : String) (t n : Int) :
    OffMap (fun k => d k + if k ∈ m.keys then (if key = k then n else 0) else 0) (bumpAt m' key t n) m := by
  have hz : ∀ k, k ∉ m.keys → d k + (if k ∈ m.keys then (if key = k then n else 0) else 0) = 0 := by
    intro k hk; rw [if_neg hk, h.zero k hk]; rfl
  unfold bumpAt
  cases hg : m'.get? key with
  | none =>
    refine ⟨h.keys, fun k b' b h1 h2 => ?_, hz⟩
    have hk : key ≠ k := by rintro rfl; rw [hg] at h1; cases h1
    have : d k + (if k ∈ m.keys then (if key = k then n else 0) else 0) = d k := by rw [if_neg hk]; simp
    rw [this]; exact h.off _ _ _ h1 h2
  | some b0 =>
    obtain ⟨b1, hb1, ho⟩ := h.some hg
    have hmem : key ∈ m.keys := (GoMap.mem_keys_iff _ _).2 ⟨b1, hb1⟩
    refine ⟨by simp only; rw [keys_set_mem _ (by rw [h.keys]; exact hmem), h.keys], fun k b' b h1 h2 => ?_, hz⟩
    simp only [GoMap.get?_set] at h1
    by_cases hk : key = k
    · subst hk
      rw [if_pos rfl] at h1; cases h1
      rw [hb1] at h2; cases h2
      rw [if_pos hmem, if_pos rfl]
      exact off_add ho t n
    · rw [if_neg hk] at h1
      have : d k + (if k ∈ m.keys then (if key = k then n else 0) else 0) = d k := by rw [if_neg hk]; simp
      rw [this]; exact h.off _ _ _ h1 h2

theorem rel_use {ds : Int} {de da : String → Int} {c' c : Compass σ} (h : Rel ds de da c' c) (R : Rounding) (S : ReservoirImpl σ X) (e : Use X) :
    Rel (ds + if True then (toSuccess e).getD 0 else 0)
      (fun code => de code + if code ∈ c.getErrorCodeCounts.keys then (toErrorCode code e).getD 0 else 0)
      (fun addon => da addon + if addon ∈ c.getAddonCounts.keys then (toAddon addon e).getD 0 else 0)
      (use R S c' e) (Compass.run R S c (callOf e)) := by
  have z1 : ∀ (f : String → Int) (P : String → Prop) [DecidablePred P], (fun k => f k + if P k then (none : Option Int).getD 0 else 0) = f := by
    intro f P _; funext k; simp
  cases e with
  | call env op =>
    simp only [toSuccess, toErrorCode, toAddon, Option.getD_none, ite_self, add_zero]
    exact (step_both h R S env op).2
  | success t n =>
    simp only [toErrorCode, toAddon, z1]
    have hr := h.rest
    refine ⟨?_, ?_, h.errs, h.adds⟩
    · simp only [use]
      conv_lhs => rw [hr]
      rfl
    · simp only [toSuccess, if_true, Option.getD_some]
      exact off_add h.success t n
  | errorCode code t n =>
    simp only [toSuccess, toAddon, Option.getD_none, ite_self, add_zero]
    have hr := h.rest
    refine ⟨?_, h.success, ?_, h.adds⟩
    · simp only [use]
      conv_lhs => rw [hr]
      rfl
    · have := bumpAt_off h.errs code t n
      convert this using 4 with k
      · exact Iff.rfl
      · simp only [toErrorCode]; split <;> rfl
      · rfl
      · rfl
  | addon a t n =>
    simp only [toSuccess, toErrorCode, Option.getD_none, ite_self, add_zero]
    have hr := h.rest
    refine ⟨?_, h.success, h.errs, ?_⟩
    · simp only [use]
      conv_lhs => rw [hr]
      rfl
    · have := bumpAt_off h.adds a t n
      convert this using 4 with k
      · exact Iff.rfl
      · simp only [toAddon]; split <;> rfl
      · rfl
      · rfl

end Handed

open Handed Compass
variable {σ X : Type}

/-- **C102.** `GetBucketSuccessCount()`, `GetErrorCodeCounts()` and `GetAddonCounts()` hand out the compass's own counters. For every history of calls on the compass and
updates of counters obtained from it: everything else - counts, rates, reservoir, which codes and addons there are - is as if nobody had touched the counters, and each counter is off by
exactly what was added through it. -/
theorem C102_counters_are_shared (R : Rounding) (S : ReservoirImpl σ X) (r0 : σ) (n : Nat) (I maxErr maxAdd : Int) (ne : NewEnv) (g : List (Use X)) :
    let c' := uses R S (new r0 n I maxErr maxAdd ne) g
    let alone (h : List (Env X × Op)) := Compass.run R S (new r0 n I maxErr maxAdd ne) h
    let c := alone (callsOf g)
    c' = { c with successCount := c'.successCount, errorCodes := c'.errorCodes, addons := c'.addons } ∧
    c'.getSuccessCount = i64 (c.getSuccessCount + addedFrom toSuccess (fun _ => True) [] g) ∧
    c'.getErrorCodeCounts.keys = c.getErrorCodeCounts.keys ∧
    (∀ code b' b, c'.getErrorCodeCounts.get? code = some b' → c.getErrorCodeCounts.get? code = some b →
      b'.getCount = i64 (b.getCount + addedFrom (toErrorCode code) (fun h => code ∈ (alone h).getErrorCodeCounts.keys) [] g)) ∧
    c'.getAddonCounts.keys = c.getAddonCounts.keys ∧
    (∀ addon b' b, c'.getAddonCounts.get? addon = some b' → c.getAddonCounts.get? addon = some b →
      b'.getCount = i64 (b.getCount + addedFrom (toAddon addon) (fun h => addon ∈ (alone h).getAddonCounts.keys) [] g)) := by
  intro c' alone c
  have key : Rel (addedFrom toSuccess (fun _ => True) [] g)
      (fun code => addedFrom (toErrorCode code) (fun h => code ∈ (alone h).getErrorCodeCounts.keys) [] g)
      (fun addon => addedFrom (toAddon addon) (fun h => addon ∈ (alone h).getAddonCounts.keys) [] g) c' c := by
    show Rel _ _ _ (uses R S (new r0 n I maxErr maxAdd ne) g) (alone (callsOf g))
    clear c c'
    induction g using List.reverseRecOn with
    | nil =>
      exact ⟨rfl, ⟨rfl, rfl, rfl, rfl⟩, ⟨rfl, (fun _ _ _ h => nomatch h), fun _ _ => rfl⟩, ⟨rfl, (fun _ _ _ h => nomatch h), fun _ _ => rfl⟩⟩
    | append_singleton g e ih =>
      have e1 : uses R S (new r0 n I maxErr maxAdd ne) (g ++ [e]) = use R S (uses R S (new r0 n I maxErr maxAdd ne) g) e := by
        unfold uses; rw [List.foldl_append]; rfl
      have e2 : callsOf (g ++ [e]) = callsOf g ++ callOf e := by simp [callsOf]
      have e3 : alone (callsOf g ++ callOf e) = Compass.run R S (alone (callsOf g)) (callOf e) := by
        show Compass.run R S _ _ = Compass.run R S (Compass.run R S _ _) _
        unfold Compass.run; rw [List.foldl_append]
      simp only [addedFrom_snoc, List.nil_append]
      rw [e1, e2, e3]
      exact rel_use ih R S e
  exact ⟨key.rest, key.success.count, key.errs.keys, fun code b' b h1 h2 => (key.errs.off code b' b h1 h2).count, key.adds.keys,
    fun addon b' b h1 h2 => (key.adds.off addon b' b h1 h2).count⟩

/-- A failure with code "e", then 5 added through the counter of "e" - and 7 through that of "f", before there is one -, 3 through the counter of successes, and one more failure. -/
def handedDemo : List (Use Unit) :=
  let env (t : Int) : Env Unit := ⟨0, t, (), t, t, t, t, t⟩
  [.call (env 1000) (.updateWithError 10 false "e" ""), .errorCode "e" 1500 5, .errorCode "f" 1500 7, .success 1600 3,
    .call (env 2000) (.updateWithError 10 false "e" "")]

/-- The code has 2 + 5, 3 successes were never reported, and the compass counted two calls. -/
example : let c := uses .exact (⟨fun r _ _ => .ok r⟩ : ReservoirImpl Unit Unit) (new () 2 1000000000 10 10 ⟨0, 0, 0⟩) handedDemo
    c.getCount = 2 ∧ c.getSuccessCount = 3 ∧ c.getErrorCodeCounts.map (fun e => (e.1, e.2.getCount)) = [("e", 7)] := by decide +kernel

/-- **C102.** So a compass can report more successes than calls. -/
theorem C102_success_at_most_refuted : ¬ ∀ (R : Rounding) (S : ReservoirImpl Unit Unit) (n : Nat) (I maxErr maxAdd : Int) (ne : NewEnv) (g : List (Use Unit)),
    (uses R S (new () n I maxErr maxAdd ne) g).getSuccessCount ≤ (uses R S (new () n I maxErr maxAdd ne) g).getCount := by
  intro H
  have := H .exact ⟨fun r _ _ => .ok r⟩ 2 1000000000 10 10 ⟨0, 0, 0⟩ handedDemo
  revert this
  decide +kernel

end GoMetrics
