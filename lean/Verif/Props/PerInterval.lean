import Verif.Props.CompassRates
import Verif.Spec.PerInterval
/-! # C95: successes, error codes and addons per interval -/
namespace GoMetrics
open Spec Compass

variable {σ X : Type}

theorem perInterval_counter (I : Int) (n : Nat) (t0 : Int) (u : Bool) (hI : 1000000000 ≤ I) (times : List Int) (t s : Int) (hs : 0 ≤ s) (ht : 0 ≤ t)
    (hpos : ∀ x ∈ times, 0 ≤ x) (hmono : times.Pairwise (· ≤ ·)) :
    ∃ m, (BucketCounter.run (BucketCounter.new I n t0 u) (times.map fun x => (x, .update))).getBucketCountsSince t s = some m ∧
      PerInterval (I / 1000000000) n s t times m := by
  obtain ⟨m, hm, hwf, hq⟩ := C03_query_monotone_clock I n t0 u hI (times.map fun x => (x, BucketCounter.Op.update)) t s hs ht
    (by intro c hc; obtain ⟨e, he, rfl⟩ := List.mem_map.1 hc; exact hpos e he) (by rw [List.pairwise_map]; exact hmono)
  refine ⟨m, hm, hwf, fun k v => (hq k v).trans ?_⟩
  apply exists_congr; intro j
  have e1 : (((times.map fun x => (x, BucketCounter.Op.update)).filter
      (fun c => intervalIndex (I / 1000000000) c.1 = j)).map (fun c => c.2.amount)).sum =
      ((times.countP fun x => intervalIndex (I / 1000000000) x = j : Nat) : Int) := by
    rw [List.filter_map, List.map_map, List.countP_eq_length_filter]
    have : ∀ l : List Int, (l.map ((fun c : Int × BucketCounter.Op => c.2.amount) ∘ fun x => (x, BucketCounter.Op.update))).sum = (l.length : Int) := by
      intro l
      induction l with
      | nil => rfl
      | cons a l ih =>
        rw [List.map_cons, List.sum_cons, ih, List.length_cons]
        simp only [Function.comp, BucketCounter.Op.amount]
        push_cast; ring
    rw [this]
    rfl
  rw [e1]
  simp only [List.mem_map, exists_exists_and_eq_and, List.map_map, Function.comp_def, intervalIndex]
  constructor
  all_goals
    rintro ⟨a, b, c, d, e, f⟩
    exact ⟨a, b, by convert c, d, e, by convert f; exact decide_eq_decide.2 Iff.rfl⟩

/-- **C95.** The counter of `GetBucketSuccessCount` tells for each interval how many calls with `isSuccess` fell into it. -/
theorem C95_success (R : Rounding) (S : ReservoirImpl σ X) (hS : Quiet S) (r0 : σ) (n : Nat) (I maxErr maxAdd : Int) (ne : NewEnv) (hI : 1000000000 ≤ I)
    (h : List (Env X × Op)) (times : List Int)
    (htimes : times = h.filterMap fun e => match e.2 with
      | .updateWithError _ success _ _ => if success then some e.1.tSuccess else none
      | _ => none)
    (hpos : ∀ x ∈ times, 0 ≤ x) (hmono : times.Pairwise (· ≤ ·)) (t s : Int) (hs : 0 ≤ s) (ht : 0 ≤ t) :
    ∃ m, (run R S (new r0 n I maxErr maxAdd ne) h).getBucketSuccessCount.getBucketCountsSince t s = some m ∧
      PerInterval (I / 1000000000) n s t times m := by
  rw [getBucketSuccessCount, (full_run R S hS r0 n I maxErr maxAdd ne hI h).1.success]
  have e : successOps h = times.map fun x => (x, BucketCounter.Op.update) := by
    rw [htimes]
    clear htimes hpos hmono
    induction h with
    | nil => rfl
    | cons e h ih =>
      obtain ⟨env, op⟩ := e
      cases op with
      | update d => simpa [successOps] using ih
      | readRate => simpa [successOps] using ih
      | updateWithError d s code addon => cases s <;> simpa [successOps] using ih
  rw [e]
  exact perInterval_counter I n _ true hI times t s hs ht hpos hmono

/-- **C95.** The counter of an error code tells for each interval how many calls with this code fell into it. -/
theorem C95_error_codes (R : Rounding) (S : ReservoirImpl σ X) (hS : Quiet S) (r0 : σ) (n : Nat) (I maxErr maxAdd : Int) (ne : NewEnv) (hI : 1000000000 ≤ I)
    (h : List (Env X × Op)) (code : String) (counter : BucketCounter) (hc : (run R S (new r0 n I maxErr maxAdd ne) h).getErrorCodeCounts.get? code = some counter)
    (times : List Int)
    (htimes : times = h.filterMap fun e => match e.2 with
      | .updateWithError _ _ c _ => if c = code then some e.1.tErr else none
      | _ => none)
    (hpos : ∀ x ∈ times, 0 ≤ x) (hmono : times.Pairwise (· ≤ ·)) (t s : Int) (hs : 0 ≤ s) (ht : 0 ≤ t) :
    ∃ m, counter.getBucketCountsSince t s = some m ∧ PerInterval (I / 1000000000) n s t times m := by
  obtain ⟨-, t0, e⟩ := (C24_error_codes R S hS r0 n I maxErr maxAdd ne hI h).2.2 code counter hc
  subst htimes
  rw [e]
  exact perInterval_counter I n t0 true hI _ t s hs ht hpos hmono

/-- **C95.** The counter of an addon tells for each interval how many calls with this addon fell into it (leaving out the calls that panicked for their error
code). -/
theorem C95_addons (R : Rounding) (S : ReservoirImpl σ X) (hS : Quiet S) (r0 : σ) (n : Nat) (I maxErr maxAdd : Int) (ne : NewEnv) (hI : 1000000000 ≤ I)
    (h : List (Env X × Op)) (addon : String) (counter : BucketCounter) (hc : (run R S (new r0 n I maxErr maxAdd ne) h).getAddonCounts.get? addon = some counter)
    (times : List Int)
    (htimes : times = h.filterMap fun e => match e.2 with
      | .updateWithError _ _ c a => if (c = "" ∨ c ∈ admittedCodes maxErr h) ∧ a = addon then some e.1.tAddon else none
      | _ => none)
    (hpos : ∀ x ∈ times, 0 ≤ x) (hmono : times.Pairwise (· ≤ ·)) (t s : Int) (hs : 0 ≤ s) (ht : 0 ≤ t) :
    ∃ m, counter.getBucketCountsSince t s = some m ∧ PerInterval (I / 1000000000) n s t times m := by
  obtain ⟨-, t0, e⟩ := (C24_addons R S hS r0 n I maxErr maxAdd ne hI h).2.2 addon counter hc
  subst htimes
  rw [e]
  exact perInterval_counter I n t0 true hI _ t s hs ht hpos hmono

/-- Four calls in two intervals of a second: a success in the first, two in the second; code "a" once in each. -/
def perIntervalCase : List (Env Unit × Op) :=
  [(envAt 100, .updateWithError 5 true "a" ""), (envAt 900, .updateWithError 1 false "" "x"), (envAt 1500, .updateWithError 1 true "a" ""),
    (envAt 1600, .updateWithError 1 true "" "x")]

example : (run .exact quietReservoir (new () 2 1000000000 1 1 ⟨0, 0, 0⟩) perIntervalCase).getBucketSuccessCount.getBucketCountsSince 1700 0 =
    some [(1000, 2), (0, 1)] := by decide

example : ∃ m, (run .exact quietReservoir (new () 2 1000000000 1 1 ⟨0, 0, 0⟩) perIntervalCase).getBucketSuccessCount.getBucketCountsSince 1700 0 = some m ∧
    PerInterval 1 2 0 1700 [100, 1500, 1600] m :=
  C95_success .exact quietReservoir (fun _ _ _ => rfl) () 2 1000000000 1 1 ⟨0, 0, 0⟩ (by norm_num) perIntervalCase [100, 1500, 1600] rfl (by decide) (by decide)
    1700 0 (by norm_num) (by norm_num)

end GoMetrics
