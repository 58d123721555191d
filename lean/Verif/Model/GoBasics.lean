import Mathlib.Tactic.Linarith
/-!
# Go basics

Machine integers, panics and maps of the Go language, as used by all model files.
These are not modelled from a file of the repository but from the Go specification.
-/
namespace GoMetrics

/-- Two's complement reduction to a signed 64-bit integer: the value Go's `int64`
arithmetic (`+`, `-`, `*`, `atomic.AddInt64`) leaves when the exact result is `x`
(Go spec, "Integer overflow"). -/
def i64 (x : Int) : Int := (x + 9223372036854775808) % 18446744073709551616 - 9223372036854775808

/-- Same for `int32` (used by `metricsCount`, impl/default_registry.go:34). -/
def i32 (x : Int) : Int := (x + 2147483648) % 4294967296 - 2147483648

/-- `x` is a value of Go type `int64`. -/
def InI64 (x : Int) : Prop := -9223372036854775808 ≤ x ∧ x < 9223372036854775808

instance (x : Int) : Decidable (InI64 x) := by unfold InI64; infer_instance

/-- `uint64(x)` for an `int64` value `x` (Go spec, "Conversions between numeric types"). -/
def u64 (x : Int) : Int := x % 18446744073709551616

/-- Result of a Go call that may panic: in both cases `s` is the state it leaves behind
(state changes made before a panic persist). -/
inductive Res (σ : Type) where
  | ok (s : σ)
  | panic (s : σ)
  deriving DecidableEq, Repr

namespace Res
variable {σ τ : Type}

/-- The state left behind by the call, whether or not it panicked. -/
def state : Res σ → σ
  | ok s => s
  | panic s => s

/-- Did the call panic? -/
def panicked : Res σ → Bool
  | ok _ => false
  | panic _ => true

/-- Continue with `f` unless the call panicked. -/
def andThen (r : Res σ) (f : σ → Res σ) : Res σ :=
  match r with
  | ok s => f s
  | panic s => panic s

/-- Embed the result of a call on a component into the enclosing object. -/
def lift (r : Res σ) (f : σ → τ) : Res τ :=
  match r with
  | ok s => ok (f s)
  | panic s => panic (f s)

@[simp] theorem state_ok (s : σ) : (ok s).state = s := rfl
@[simp] theorem state_panic (s : σ) : (panic s).state = s := rfl
@[simp] theorem panicked_ok (s : σ) : (ok s).panicked = false := rfl
@[simp] theorem panicked_panic (s : σ) : (panic s).panicked = true := rfl
@[simp] theorem lift_state (r : Res σ) (f : σ → τ) : (r.lift f).state = f r.state := by cases r <;> rfl
@[simp] theorem lift_panicked (r : Res σ) (f : σ → τ) : (r.lift f).panicked = r.panicked := by
  cases r <;> rfl
end Res

/-- A Go map: an association list whose keys are pairwise different (`GoMap.WF`).
The list order stands for *one* iteration order; theorems about code that iterates quantify over
permutations of the list. -/
abbrev GoMap (κ ν : Type) := List (κ × ν)

namespace GoMap
variable {κ ν : Type} [DecidableEq κ]

/-- `m[k]` with the comma-ok form (Go spec, "Index expressions"). -/
def get? : GoMap κ ν → κ → Option ν
  | [], _ => none
  | (k', v) :: t, k => if k' = k then some v else get? t k

/-- `m[k] = v` (Go spec, "Assignments"): overwrites or adds. -/
def set : GoMap κ ν → κ → ν → GoMap κ ν
  | [], k, v => [(k, v)]
  | (k', v') :: t, k, v => if k' = k then (k, v) :: t else (k', v') :: set t k v

/-- The keys in iteration order. -/
def keys (m : GoMap κ ν) : List κ := m.map Prod.fst

/-- Well-formedness: keys are pairwise different. -/
def WF (m : GoMap κ ν) : Prop := (keys m).Nodup

@[simp] theorem get?_nil (k : κ) : get? ([] : GoMap κ ν) k = none := rfl

theorem get?_set (m : GoMap κ ν) (k : κ) (v : ν) (k' : κ) :
    get? (set m k v) k' = if k = k' then some v else get? m k' := by
  induction m with
  | nil => simp [set, get?]
  | cons p t ih =>
    obtain ⟨a, b⟩ := p
    unfold set
    by_cases h : a = k
    · subst h
      by_cases h2 : a = k' <;> simp [get?, h2]
    · simp only [h, if_false, get?, ih]
      by_cases h2 : a = k'
      · subst h2
        have : ¬ k = a := fun e => h e.symm
        simp [this]
      · simp [h2]

@[simp] theorem get?_set_self (m : GoMap κ ν) (k : κ) (v : ν) : get? (set m k v) k = some v := by
  simp [get?_set]

theorem get?_set_ne (m : GoMap κ ν) {k k' : κ} (v : ν) (h : k ≠ k') :
    get? (set m k v) k' = get? m k' := by simp [get?_set, h]

theorem mem_keys_iff (m : GoMap κ ν) (k : κ) : k ∈ keys m ↔ ∃ v, get? m k = some v := by
  induction m with
  | nil => simp [keys]
  | cons p t ih =>
    obtain ⟨a, b⟩ := p
    by_cases h : a = k
    · simp [keys, get?, h]
    · have h' : ¬ k = a := fun e => h e.symm
      simp only [keys, List.map_cons, List.mem_cons, h', false_or, get?, h, if_false]
      exact ih

theorem get?_eq_none_iff (m : GoMap κ ν) (k : κ) : get? m k = none ↔ k ∉ keys m := by
  rw [mem_keys_iff]
  cases get? m k <;> simp

theorem mem_of_get? {m : GoMap κ ν} {k : κ} {v : ν} (h : get? m k = some v) : (k, v) ∈ m := by
  induction m with
  | nil => simp at h
  | cons p t ih =>
    obtain ⟨a, b⟩ := p
    unfold get? at h
    by_cases hk : a = k
    · simp [hk] at h; simp [hk, h]
    · simp [hk] at h; exact List.mem_cons_of_mem _ (ih h)

theorem get?_of_mem {m : GoMap κ ν} (hw : WF m) {k : κ} {v : ν} (h : (k, v) ∈ m) :
    get? m k = some v := by
  induction m with
  | nil => simp at h
  | cons p t ih =>
    obtain ⟨a, b⟩ := p
    simp only [WF, keys, List.map_cons, List.nodup_cons] at hw
    rcases List.mem_cons.1 h with h | h
    · cases h; simp [get?]
    · have : a ≠ k := by
        rintro rfl
        exact hw.1 (List.mem_map.2 ⟨_, h, rfl⟩)
      simp [get?, this, ih hw.2 h]

theorem mem_iff_get? {m : GoMap κ ν} (hw : WF m) {k : κ} {v : ν} :
    (k, v) ∈ m ↔ get? m k = some v := ⟨get?_of_mem hw, mem_of_get?⟩

theorem mem_keys_set (m : GoMap κ ν) (k : κ) (v : ν) (k' : κ) :
    k' ∈ keys (set m k v) ↔ k' = k ∨ k' ∈ keys m := by
  simp only [mem_keys_iff, get?_set]
  by_cases h : k = k'
  · simp [h]
  · have : ¬ k' = k := fun e => h e.symm
    simp [h, this]

theorem wf_nil : WF ([] : GoMap κ ν) := by simp [WF, keys]

theorem wf_set {m : GoMap κ ν} (hw : WF m) (k : κ) (v : ν) : WF (set m k v) := by
  induction m with
  | nil => simp [set, WF, keys]
  | cons p t ih =>
    obtain ⟨a, b⟩ := p
    have hw' := hw
    simp only [WF, keys, List.map_cons, List.nodup_cons] at hw
    unfold set
    by_cases h : a = k
    · subst h; simpa [WF, keys] using hw'
    · simp only [h, if_false]
      simp only [WF, keys, List.map_cons, List.nodup_cons]
      refine ⟨?_, ih hw.2⟩
      have := mem_keys_set t k v a
      simp only [keys] at this
      rw [this]
      push Not
      exact ⟨h, hw.1⟩

theorem length_set (m : GoMap κ ν) (k : κ) (v : ν) :
    (set m k v).length = if k ∈ keys m then m.length else m.length + 1 := by
  induction m with
  | nil => simp [set, keys]
  | cons p t ih =>
    obtain ⟨a, b⟩ := p
    unfold set
    by_cases h : a = k
    · simp [h, keys]
    · have h' : ¬ k = a := fun e => h e.symm
      simp only [h, if_false, List.length_cons, ih, keys, List.map_cons, List.mem_cons, h', false_or]
      by_cases hm : k ∈ List.map Prod.fst t <;> simp [hm]

end GoMap

section I64

theorem i64_in (x : Int) : InI64 (i64 x) := by unfold InI64 i64; omega
theorem i64_of_in {x : Int} (h : InI64 x) : i64 x = x := by unfold InI64 at h; unfold i64; omega
@[simp] theorem i64_i64 (x : Int) : i64 (i64 x) = i64 x := i64_of_in (i64_in x)
theorem i64_add_left (a b : Int) : i64 (i64 a + b) = i64 (a + b) := by unfold i64; omega
theorem i64_add_right (a b : Int) : i64 (a + i64 b) = i64 (a + b) := by unfold i64; omega
theorem i64_sub_left (a b : Int) : i64 (i64 a - b) = i64 (a - b) := by unfold i64; omega
theorem i64_neg (a : Int) : i64 (-(i64 a)) = i64 (-a) := by unfold i64; omega
@[simp] theorem i64_zero : i64 0 = 0 := by decide
@[simp] theorem i64_one : i64 1 = 1 := by decide
theorem i32_of_range {x : Int} (h : -2147483648 ≤ x) (h' : x < 2147483648) : i32 x = x := by
  unfold i32; omega

end I64

end GoMetrics
