import Verif.Model.UniformConc
import Verif.Proofs.RWLock
import Verif.Props.UniformReservoir
import Verif.Props.UniformSnapshot
/-! # C79 — a uniform reservoir used by many goroutines

Every theorem quantifies over every schedule `es` of any number of `UpdateN`, `Size` and `GetSnapshot` calls, interleaved at the granularity of
single loads, stores and random words. -/
namespace GoMetrics
open UniformConc


namespace UniformConc

/-- A critical section of `UpdateN` that nobody interrupts does what the sequential `UpdateN` does, with some of the words as random words. -/
theorem alone_eq {u u' : UniformReservoir} {v : Int} {ins : List Int} {r : Bool} (h : guarded.Alone u (.inc v) ins u' r) :
    ∃ words, (∀ w ∈ words, w ∈ ins) ∧ (u.updateN words v = if r then .panic u' else .ok u') ∧
      ((u.values.length : Int) < i64 (u.count + 1) → UniformReservoir.nextRandomPos (i64 (u.count + 1)) words ≠ none) := by
  have hdraw : ∀ (s : UniformReservoir) (n : Int) (ins : List Int) (s' : UniformReservoir) (r : Bool),
      guarded.Alone s (.draw v n) ins s' r → ∃ words index, (∀ w ∈ words, w ∈ ins) ∧
        UniformReservoir.nextRandomPos n words = some index ∧ ∃ ins', guarded.Alone s (.store v index) ins' s' r := by
    intro s n ins
    induction ins with
    | nil => intro s' r h; cases h
    | cons x xs ih =>
      intro s' r h
      cases h with
      | last h => simp [guarded, wstep] at h
      | more h1 h2 =>
        simp only [guarded, wstep, Prod.mk.injEq, Sum.inl.injEq] at h1
        obtain ⟨rfl, rfl⟩ := h1
        by_cases ha : UniformReservoir.accepts n x = true
        · rw [if_pos ha] at h2
          exact ⟨[x], x.tmod n, by simp, by simp [UniformReservoir.nextRandomPos, ha], xs, h2⟩
        · rw [if_neg ha] at h2
          obtain ⟨words, index, g1, g2, g3⟩ := ih _ _ h2
          refine ⟨x :: words, index, ?_, by simp [UniformReservoir.nextRandomPos, ha, g2], g3⟩
          intro w hw
          rcases List.mem_cons.1 hw with rfl | hw
          · simp
          · exact List.mem_cons_of_mem _ (g1 w hw)
  have hstore : ∀ (s : UniformReservoir) (index : Int) (ins : List Int) (s' : UniformReservoir) (r : Bool),
      guarded.Alone s (.store v index) ins s' r →
      (if index < (s.values.length : Int) then
        (if index < 0 then Res.panic s else .ok { s with values := s.values.set index.toNat v }) else .ok s) =
        if r then .panic s' else .ok s' := by
    intro s index ins s' r h
    cases h with
    | last h =>
      simp only [guarded, wstep] at h
      by_cases h1 : index < (s.values.length : Int)
      · rw [if_pos h1] at h ⊢
        by_cases h2 : index < 0
        · rw [if_pos h2] at h ⊢
          simp only [Prod.mk.injEq, Sum.inr.injEq] at h
          obtain ⟨rfl, rfl⟩ := h; simp
        · rw [if_neg h2] at h ⊢
          simp only [Prod.mk.injEq, Sum.inr.injEq] at h
          obtain ⟨rfl, rfl⟩ := h; simp
      · rw [if_neg h1] at h ⊢
        simp only [Prod.mk.injEq, Sum.inr.injEq] at h
        obtain ⟨rfl, rfl⟩ := h; simp
    | more h _ =>
      simp only [guarded, wstep] at h
      split at h
      · split at h <;> simp at h
      · simp at h
  cases h with
  | last h => simp [guarded, wstep] at h
  | more h1 h2 =>
    simp only [guarded, wstep, Prod.mk.injEq, Sum.inl.injEq] at h1
    obtain ⟨rfl, rfl⟩ := h1
    cases h2 with
    | last h => simp [guarded, wstep] at h
    | more h1 h2 =>
      simp only [guarded, wstep, Prod.mk.injEq, Sum.inl.injEq] at h1
      obtain ⟨rfl, rfl⟩ := h1
      unfold UniformReservoir.updateN
      dsimp only
      by_cases hc : i64 (u.count + 1) ≤ (u.values.length : Int)
      · rw [if_pos hc] at h2
        refine ⟨[], by simp, ?_, fun hh => by omega⟩
        rw [if_pos hc]
        cases h2 with
        | last h =>
          simp only [guarded, wstep] at h
          split at h
          · rename_i hb
            simp only [Prod.mk.injEq, Sum.inr.injEq] at h
            obtain ⟨rfl, rfl⟩ := h
            rw [if_pos hb]; simp
          · rename_i hb
            simp only [Prod.mk.injEq, Sum.inr.injEq] at h
            obtain ⟨rfl, rfl⟩ := h
            rw [if_neg hb]; simp
        | more h _ =>
          simp only [guarded, wstep] at h
          split at h <;> simp at h
      · rw [if_neg hc] at h2
        obtain ⟨words, index, g1, g2, ins', g3⟩ := hdraw _ _ _ _ _ h2
        refine ⟨words, fun w hw => by simp [g1 w hw], ?_, fun _ => by rw [g2]; simp⟩
        rw [if_neg hc, g2]
        exact hstore _ _ _ _ _ g3

/-- A sequential history of the object is a history of the sequential model. -/
theorem sequential_eq {u u' : UniformReservoir} {log : List (Int × List Int × Bool)} (h : guarded.Sequential u log u') :
    ∃ hist : List (Int × List Int), hist.map Prod.fst = log.map Prod.fst ∧ u' = u.run hist ∧
      ∀ (P : Int → Prop), (∀ e ∈ log, ∀ x ∈ e.2.1, P x) → ∀ e ∈ hist, ∀ x ∈ e.2, P x := by
  induction h with
  | nil => exact ⟨[], rfl, rfl, fun _ _ => by simp⟩
  | snoc _ ha ih =>
    rename_i h s1 a ins r s2 _
    obtain ⟨hist, g1, g2, g3⟩ := ih
    obtain ⟨words, w1, w2, w3⟩ := alone_eq ha
    refine ⟨hist ++ [(a, words)], by simp [g1], ?_, ?_⟩
    · unfold UniformReservoir.run at g2 ⊢
      rw [List.foldl_append, ← g2]
      simp only [List.foldl_cons, List.foldl_nil, w2]
      cases r <;> rfl
    · intro P hP e he
      rcases List.mem_append.1 he with he | he
      · exact g3 P (fun e he => hP e (List.mem_append_left _ he)) e he
      · rw [List.mem_singleton.1 he]
        intro x hx
        exact hP (a, ins, r) (by simp) x (w1 x hx)

/-- What the reading methods see of an object that stands still is what the sequential model says. -/
theorem sees_size {u : UniformReservoir} {v : Answer} (h : guarded.Sees u (guarded.look .size) v) : v = .size u.size := by
  unfold UniformReservoir.size
  cases h with
  | last h =>
    simp only [guarded, rstep] at h
    split at h
    · rename_i hc; rw [if_pos hc]; simpa using h.symm
    · simp at h
  | more h h2 =>
    simp only [guarded, rstep] at h
    split at h
    · simp at h
    · rename_i hc
      simp only [Sum.inl.injEq] at h
      subst h
      rw [if_neg hc]
      cases h2 with
      | last h => simpa [guarded, rstep] using h.symm
      | more h => simp [guarded, rstep] at h

theorem sees_snapshot {u : UniformReservoir} {v : Answer} (h : guarded.Sees u (guarded.look .snapshot) v) : v = .snapshot u.getSnapshot := by
  have key : ∀ k v, guarded.Sees u k v → ∀ done, k = .copy done → done <+: u.values → v = .snapshot u.getSnapshot := by
    intro k v h
    induction h with
    | last h =>
      intro done hk hp
      subst hk
      simp only [guarded, rstep] at h
      split at h
      · simp at h
      · rename_i hn
        simp only [Sum.inr.injEq] at h
        have hlen : u.values.length ≤ done.length := List.getElem?_eq_none_iff.1 hn
        have : done = u.values := hp.eq_of_length (le_antisymm hp.length_le hlen)
        rw [← h, this]; rfl
    | more h _ ih =>
      intro done hk hp
      subst hk
      simp only [guarded, rstep] at h
      split at h
      · rename_i x hx
        simp only [Sum.inl.injEq] at h
        refine ih _ h.symm ?_
        obtain ⟨t, ht⟩ := hp
        rw [← ht] at hx ⊢
        rw [List.getElem?_append_right (le_refl _), Nat.sub_self] at hx
        cases t with
        | nil => simp at hx
        | cons y t =>
          simp at hx; subst hx
          exact ⟨t, by simp⟩
      · simp at h
  exact key _ _ h [] rfl (List.nil_prefix)

/-- The state after schedule `es` on a fresh reservoir. -/
def after (capacity : Nat) (es : List (Ev (Int ⊕ Query) Int)) :=
  guarded.machine.run (Guarded.init (UniformReservoir.new capacity)) es

/-- The effect of one `UpdateN`. -/
theorem alone_state (u : UniformReservoir) (v : Int) (ins : List Int) (u' : UniformReservoir) (r : Bool)
    (h : guarded.Alone u (guarded.enter v) ins u' r) :
    ∃ words : List Int, (∀ w ∈ words, w ∈ ins) ∧ u' = (u.updateN words v).state := by
  obtain ⟨words, h1, h2, -⟩ := alone_eq h
  refine ⟨words, h1, ?_⟩
  rw [h2]; cases r <;> rfl

/-- The values of the `UpdateN` calls that are through (have at most the unlocking left to do). -/
abbrev recorded (p : Pool (Guard UniformReservoir Int Int Bool) (GuardPC Int WPC Int Bool Query RPC Answer)) : List Int :=
  Guarded.written p

/-- The answer of a reading method on a reservoir that stands still. -/
def answer (u : UniformReservoir) : Query → Answer
  | .size => .size u.size
  | .snapshot => .snapshot u.getSnapshot

end UniformConc

/-- **C79.** In every interleaving `es` there is one order `hist` of the `UpdateN` calls that are through (with random words among those delivered)
such that: whenever no `UpdateN` is at work the reservoir is what they leave behind one after the other; whatever was through after a part `es1` of
the schedule comes first; and each `Size` and `GetSnapshot` call answers as after some first part of `hist` that contains at least everything that
was through when the call began. -/
theorem C79_linearizable (capacity : Nat) (es : List (Ev (Int ⊕ Query) Int)) :
    ∃ hist : List (Int × List Int), (hist.map Prod.fst).Perm (recorded (after capacity es)) ∧
      (∀ e ∈ hist, ∀ x ∈ e.2, ∃ i, Ev.step i x ∈ es) ∧
      ((after capacity es).shared.writer = false → (after capacity es).shared.obj = (UniformReservoir.new capacity).run hist) ∧
      (∀ es1 es2, es = es1 ++ es2 →
        ((hist.take (recorded (after capacity es1)).length).map Prod.fst).Perm (recorded (after capacity es1))) ∧
      (∀ es1 q es2 a, es = es1 ++ .spawn (.inr q) :: es2 →
        (after capacity es).calls[(after capacity es1).calls.length]? = some (.rDone q a) →
        ∃ k, (recorded (after capacity es1)).length ≤ k ∧ k ≤ hist.length ∧
          a = answer ((UniformReservoir.new capacity).run (hist.take k)) q) := by
  obtain ⟨hist, h1, h2, h3, h4, h5⟩ := Guarded.linearization (G := guarded) (fun u v words => (u.updateN words v).state)
    (fun ins words => ∀ w ∈ words, w ∈ ins) alone_state (UniformReservoir.new capacity) es
  refine ⟨hist, h1, ?_, h3, h4, ?_⟩
  · intro e he x hx
    obtain ⟨ins, i1, i2⟩ := h2 e he
    exact i1 x (i2 x hx)
  · intro es1 q es2 a he hc
    obtain ⟨k, k1, k2, k3⟩ := h5 es1 q es2 a he (Or.inr hc)
    refine ⟨k, k1, k2, ?_⟩
    cases q with
    | size => exact sees_size k3
    | snapshot => exact sees_snapshot k3

/-- **C79.** So a `Size` that overlaps updates still returns min(updates, capacity) for a number of updates between those through when it began and
those through now. -/
theorem C79_size (capacity : Nat) (es1 es2 : List (Ev (Int ⊕ Query) Int)) (a : Answer)
    (hl : (after capacity (es1 ++ .spawn (.inr .size) :: es2)).calls.length < 2 ^ 63)
    (h : (after capacity (es1 ++ .spawn (.inr .size) :: es2)).calls[(after capacity es1).calls.length]? = some (.rDone .size a)) :
    ∃ k : Nat, (recorded (after capacity es1)).length ≤ k ∧ k ≤ (recorded (after capacity (es1 ++ .spawn (.inr .size) :: es2))).length ∧
      a = .size (min k capacity) := by
  obtain ⟨hist, h1, -, -, -, h5⟩ := C79_linearizable capacity (es1 ++ .spawn (.inr .size) :: es2)
  obtain ⟨k, k1, k2, k3⟩ := h5 es1 .size es2 a rfl h
  have hlen : hist.length = (recorded (after capacity (es1 ++ .spawn (.inr .size) :: es2))).length := by
    have := h1.length_eq; simpa using this
  have hle : (recorded (after capacity (es1 ++ .spawn (.inr .size) :: es2))).length ≤
      (after capacity (es1 ++ .spawn (.inr .size) :: es2)).calls.length := List.length_filterMap_le _ _
  refine ⟨k, k1, by omega, ?_⟩
  rw [k3]
  have htl : (hist.take k).length = k := by rw [List.length_take]; omega
  simp only [answer]
  rw [C48_size capacity (hist.take k) (by rw [htl]; omega), htl]
  push_cast; rfl

/-- **C79.** No interleaving makes an `UpdateN` panic (with fewer than 2^63 calls and random words as `Int63` returns them). -/
theorem C79_no_panic (capacity : Nat) (es : List (Ev (Int ⊕ Query) Int)) (hw : ∀ i x, Ev.step i x ∈ es → 0 ≤ x)
    (hl : (after capacity es).calls.length < 2 ^ 63) (v : Int) (r : Bool)
    (h : GuardPC.wOut v r ∈ (after capacity es).calls ∨ GuardPC.wDone v r ∈ (after capacity es).calls) : r = false := by
  obtain ⟨sq, h1, h2, -⟩ := Guarded.linearizable (G := guarded) (UniformReservoir.new capacity) es
  have hin := Guarded.log_inputs (G := guarded) (fun x : Int => 0 ≤ x) (UniformReservoir.new capacity) es hw
  have hmem : (v, r) ∈ (after capacity es).calls.filterMap Guarded.wEntry := by
    rw [List.mem_filterMap]
    rcases h with h | h
    · exact ⟨_, h, rfl⟩
    · exact ⟨_, h, rfl⟩
  have hmem := h2.mem_iff.2 hmem
  have hlen : (after capacity es).shared.log.length < 9223372036854775808 := by
    have : (after capacity es).shared.log.length = ((after capacity es).calls.filterMap Guarded.wEntry).length := by
      have := h2.length_eq; rw [List.length_map] at this; exact this
    have := List.length_filterMap_le Guarded.wEntry (after capacity es).calls
    norm_num at hl; omega
  unfold after at *
  generalize guarded.machine.run (Guarded.init (UniformReservoir.new capacity)) es = p at *
  generalize p.shared.log = log at *
  clear h2
  -- every entry of a sequential history is a call that did not panic
  have key : ∀ log sq, guarded.Sequential (UniformReservoir.new capacity) log sq → (∀ e ∈ log, ∀ x ∈ e.2.1, 0 ≤ x) →
      log.length < 9223372036854775808 → ∀ e ∈ log, e.2.2 = false := by
    intro log sq h
    induction h with
    | nil => simp
    | snoc hs ha ih =>
      rename_i hh s1 a ins r s2
      intro hx hlen e he
      rcases List.mem_append.1 he with he | he
      · exact ih (fun e he => hx e (List.mem_append_left _ he)) (by simp at hlen; omega) e he
      · rw [List.mem_singleton.1 he]
        obtain ⟨hist, g1, g2, g3⟩ := sequential_eq hs
        have hhl : hist.length = hh.length := by have := congrArg List.length g1; simpa using this
        obtain ⟨words, w1, w2, w3⟩ := alone_eq ha
        have hwords : ∀ x ∈ words, 0 ≤ x := fun x hx' => hx (a, ins, r) (by simp) x (w1 x hx')
        cases r with
        | false => rfl
        | true =>
          exfalso
          have hp : (s1.updateN words a).panicked = true := by rw [w2]; rfl
          rw [g2] at hp
          have hlt : hist.length + 1 < 2 ^ 63 := by simp at hlen; norm_num; omega
          obtain ⟨c1, c2⟩ := (C48_no_panic capacity hist a words hlt hwords).1 hp
          have hl' : hist.length + 1 < 9223372036854775808 := by norm_num at hlt; exact hlt
          have hcount := UniformReservoir.count_run capacity hist (by omega)
          have hvals : ((UniformReservoir.new capacity).run hist).values.length = capacity := by
            rw [UniformReservoir.length_run]; simp [UniformReservoir.new]
          rw [g2, hcount, hvals, i64_of_in (by unfold InI64; omega)] at w3
          exact w3 (by omega) c2
  obtain ⟨e, he, hee⟩ := List.mem_map.1 hmem
  have := key log sq h1 hin hlen e he
  simp only [Prod.mk.injEq] at hee
  rw [← hee.2]; exact this

namespace UniformConc
/-- Two updates and a snapshot on a reservoir of one slot; the second update is inside when the snapshot begins. -/
def demo : List (Ev (Int ⊕ Query) Int) :=
  [.spawn (.inl 5), .step 0 0, .step 0 0, .step 0 0, .step 0 0, .step 0 0,
   .spawn (.inl 7), .step 1 0, .step 1 0,
   .spawn (.inr .snapshot), .spawn (.inr .size), .step 2 0, .step 3 0,
   .step 1 0, .step 1 4, .step 1 0, .step 1 0, .step 2 0, .step 2 0, .step 2 0, .step 2 0, .step 3 0, .step 3 0, .step 3 0, .step 3 0]
end UniformConc

/-- The hypotheses are met by real schedules: here the snapshot waits for the writer and sees its value; `Size()` is 1. -/
example : (after 1 demo).calls[2]? = some (.rDone .snapshot (.snapshot ⟨[7]⟩)) ∧ (after 1 demo).calls[3]? = some (.rDone .size (.size 1)) ∧
    recorded (after 1 demo) = [5, 7] ∧ (after 1 demo).shared.writer = false := by decide +kernel

end GoMetrics
