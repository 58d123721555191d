import Verif.Model.BucketCounterConc
import Verif.Proofs.BucketHistory
/-! # Invariants of concurrent `UpdateN` -/
namespace GoMetrics

theorem BHeap.at_append_lt (h : BHeap) (x : Bucket) (p : Nat) (hp : p < h.length) :
    BHeap.at (h ++ [x]) p = h.at p := by
  simp [BHeap.at, List.getElem?_append_left hp]

theorem BHeap.at_append_len (h : BHeap) (x : Bucket) : BHeap.at (h ++ [x]) h.length = x := by
  simp [BHeap.at]

theorem BHeap.at_ge (h : BHeap) (p : Nat) (hp : h.length ≤ p) : h.at p = newBucket := by
  simp [BHeap.at, List.getElem?_eq_none hp]

namespace BucketCounter

theorem at_addAt (h : BHeap) (p : Nat) (n : Int) (q : Nat) (hp : p < h.length) :
    (addAt h p n).at q = if p = q then ⟨(h.at q).timestamp, i64 ((h.at q).count + n)⟩ else h.at q := by
  unfold addAt BHeap.at
  rw [List.getElem?_modify]
  by_cases hpq : p = q
  · subst hpq
    simp [List.getElem?_eq_getElem hp]
  · simp [hpq]

theorem length_addAt (h : BHeap) (p : Nat) (n : Int) : (addAt h p n).length = h.length := by
  simp [addAt]

/-- Timestamp behind a pointer. -/
def tsOf (b : BucketCounter) (p : Nat) : Int := (b.heap.at p).timestamp

/-- What a call has added to bucket `p`. -/
def Call.amt (p : Nat) (c : Call) : Int :=
  match c.pc with
  | .done _ q => if q = p then c.n else 0
  | _ => 0

/-- The call has updated the total. -/
def Call.totalled (c : Call) : Int :=
  match c.pc with
  | .start => 0
  | _ => c.n

/-- Local consistency of a call. -/
def CallOk (b : BucketCounter) (c : Call) : Prop :=
  match c.pc with
  | .cas ts old => old < b.heap.length ∧ b.tsOf old < ts
  | .reload ts => True
  | .q1 ts p => p < b.heap.length ∧ b.tsOf p = ts
  | .q2 ts p k => p < b.heap.length ∧ b.tsOf p = ts ∧ k < b.buckets.queue.length
  | .q3 ts p => p < b.heap.length ∧ b.tsOf p = ts
  | .q4 ts p k => p < b.heap.length ∧ b.tsOf p = ts ∧ k < b.buckets.queue.length
  | .add _ p => p < b.heap.length
  | .done _ p => p < b.heap.length
  | _ => True

/-- The shared state of a counter for `N` buckets. -/
structure SharedOk (N : Nat) (b : BucketCounter) : Prop where
  len : N + 1 ≤ b.heap.length
  latest : b.latestBucket = if b.heap.length = N + 1 then 0 else b.heap.length - 1
  placeholder : ∀ p, p ≤ N → b.tsOf p = -1
  real : ∀ p, N < p → p < b.heap.length → 0 ≤ b.tsOf p
  inc : ∀ p q, N < p → p < q → q < b.heap.length → b.tsOf p < b.tsOf q
  qlen : b.buckets.queue.length = N + 1
  cur : b.buckets.current < N + 1
  slots : ∀ p ∈ b.buckets.queue, p < b.heap.length

/-- `b'` extends `b`: more buckets, same timestamps. -/
structure Ext (b b' : BucketCounter) : Prop where
  len : b.heap.length ≤ b'.heap.length
  ts : ∀ p, p < b.heap.length → b'.tsOf p = b.tsOf p
  qlen : b'.buckets.queue.length = b.buckets.queue.length

theorem Ext.refl (b : BucketCounter) : Ext b b := ⟨le_rfl, fun _ _ => rfl, rfl⟩

theorem CallOk.ext {b b' : BucketCounter} (e : Ext b b') {c : Call} (h : CallOk b c) : CallOk b' c := by
  unfold CallOk at *
  have h1 := e.len
  have h2 := e.ts
  have h3 := e.qlen
  cases hc : c.pc <;> simp only [hc] at h ⊢ <;> try trivial
  all_goals first
    | exact ⟨by omega, by rw [h2 _ h.1]; exact h.2⟩
    | exact ⟨by omega, by rw [h2 _ h.1]; exact h.2.1, by omega⟩
    | omega

/-- Everything that holds in every reachable state. -/
structure CInv (N : Nat) (p : Pool BucketCounter Call) : Prop where
  shared : SharedOk N p.shared
  calls : ∀ c ∈ p.calls, CallOk p.shared c

theorem SharedOk.latest_lt {N b} (h : SharedOk N b) : b.latestBucket < b.heap.length := by
  have := h.latest; have := h.len
  split at * <;> omega

theorem SharedOk.le_latest {N b} (h : SharedOk N b) (p : Nat) (hp : p < b.heap.length) :
    b.tsOf p ≤ b.tsOf b.latestBucket := by
  have h1 := h.len
  rw [h.latest]
  split
  · rw [h.placeholder 0 (by omega), h.placeholder p (by omega)]
  · by_cases hpN : p ≤ N
    · rw [h.placeholder p hpN]
      have := h.real (b.heap.length - 1) (by omega) (by omega)
      omega
    · by_cases hpe : p = b.heap.length - 1
      · rw [hpe]
      · exact le_of_lt (h.inc p _ (by omega) (by omega) (by omega))

theorem SharedOk.latest_ge {N b} (h : SharedOk N b) : -1 ≤ b.tsOf b.latestBucket := by
  have := h.le_latest 0 (by have := h.len; omega)
  rw [h.placeholder 0 (by omega)] at this
  exact this

/-- One step keeps the shared state well-formed, extends it, and leaves a well-formed call. -/
theorem callStep_ok {N b t c} (h : SharedOk N b) (hc : CallOk b c) :
    SharedOk N (callStep b t c).1 ∧ Ext b (callStep b t c).1 ∧
      CallOk (callStep b t c).1 (callStep b t c).2 := by
  have hlt := h.latest_lt
  unfold callStep
  cases hpc : c.pc with
  | start =>
    refine ⟨?_, ?_, trivial⟩
    · have e1 := bumpTotal_heap b c.n; have e2 := bumpTotal_latest b c.n; have e3 := bumpTotal_buckets b c.n
      constructor <;> simp only [e1, e2, e3, tsOf] <;> first
        | exact h.len | exact h.latest | exact h.placeholder | exact h.real | exact h.inc | exact h.qlen
        | exact h.cur | exact h.slots
    · exact ⟨by simp, by simp [tsOf], by simp⟩
  | clock =>
    simp only
    split <;> exact ⟨h, Ext.refl b, trivial⟩
  | load ts =>
    simp only
    split
    · rename_i hg
      exact ⟨h, Ext.refl b, ⟨hlt, hg⟩⟩
    · exact ⟨h, Ext.refl b, hlt⟩
  | cas ts old =>
    simp only [CallOk, hpc] at hc
    simp only
    split
    · rename_i hl
      have hts : ∀ p, p < b.heap.length → (BHeap.at (b.heap ++ [⟨ts, 0⟩]) p).timestamp = b.tsOf p := by
        intro p hp; rw [BHeap.at_append_lt _ _ _ hp]; rfl
      have htn : (BHeap.at (b.heap ++ [⟨ts, 0⟩]) b.heap.length).timestamp = ts := by
        rw [BHeap.at_append_len]
      have hlen := h.len
      rw [← hl] at hc
      have hge := h.latest_ge
      refine ⟨?_, ?_, ?_⟩
      · constructor
        · simp; omega
        · simp; omega
        · intro p hp
          simp only [tsOf]
          rw [hts p (by omega)]; exact h.placeholder p hp
        · intro p hp hp'
          simp only [List.length_append, List.length_singleton] at hp'
          simp only [tsOf]
          by_cases hpe : p = b.heap.length
          · subst hpe; rw [htn]; omega
          · rw [hts p (by omega)]; exact h.real p hp (by omega)
        · intro p q hp hpq hq
          simp only [List.length_append, List.length_singleton] at hq
          simp only [tsOf]
          rw [hts p (by omega)]
          by_cases hqe : q = b.heap.length
          · subst hqe; rw [htn]
            have := h.le_latest p (by omega)
            omega
          · rw [hts q (by omega)]; exact h.inc p q hp hpq (by omega)
        · exact h.qlen
        · exact h.cur
        · intro p hp
          have := h.slots p hp
          simp; omega
      · exact ⟨by simp, fun p hp => by simp only [tsOf]; rw [hts p hp]; rfl, rfl⟩
      · refine ⟨by simp, ?_⟩
        simp only [tsOf]; exact htn
    · exact ⟨h, Ext.refl b, trivial⟩
  | reload ts => exact ⟨h, Ext.refl b, hlt⟩
  | q1 ts p =>
    simp only [CallOk, hpc] at hc
    refine ⟨h, Ext.refl b, ⟨hc.1, hc.2, Nat.mod_lt _ ?_⟩⟩
    rw [h.qlen]; omega
  | q2 ts p k =>
    simp only [CallOk, hpc] at hc
    refine ⟨⟨h.len, h.latest, h.placeholder, h.real, h.inc, h.qlen, ?_, h.slots⟩,
      ⟨le_rfl, fun _ _ => rfl, rfl⟩, ⟨hc.1, hc.2.1⟩⟩
    have := h.qlen
    have := hc.2.2
    simp only; omega
  | q3 ts p =>
    simp only [CallOk, hpc] at hc
    refine ⟨h, Ext.refl b, ⟨hc.1, hc.2, ?_⟩⟩
    show b.buckets.current < b.buckets.queue.length
    rw [h.qlen]; exact h.cur
  | q4 ts p k =>
    simp only [CallOk, hpc] at hc
    refine ⟨⟨h.len, h.latest, h.placeholder, h.real, h.inc, by simp [h.qlen], h.cur, ?_⟩,
      ⟨le_rfl, fun _ _ => rfl, by simp⟩, hc.1⟩
    intro q hq
    rcases List.mem_or_eq_of_mem_set hq with hq | rfl
    · exact h.slots q hq
    · exact hc.1
  | add ts p =>
    simp only [CallOk, hpc] at hc
    have hts : ∀ q, ((addAt b.heap p c.n).at q).timestamp = b.tsOf q := by
      intro q; rw [at_addAt _ _ _ _ hc]; split <;> rfl
    refine ⟨?_, ?_, ?_⟩
    · constructor <;> simp only [tsOf, hts, length_addAt] <;> first
        | exact h.len | exact h.latest | exact h.placeholder | exact h.real | exact h.inc | exact h.qlen
        | exact h.cur | exact h.slots
    · exact ⟨by simp [length_addAt], fun q _ => hts q, rfl⟩
    · simpa [CallOk, length_addAt] using hc
  | done ts p =>
    exact ⟨h, Ext.refl b, hc⟩
  | panicked => exact ⟨h, Ext.refl b, hc⟩

theorem sharedOk_new (interval : Int) (N : Nat) (t0 : Int) (u : Bool) : SharedOk N (new interval N t0 u) where
  len := by simp [new, Deque.newHeap]
  latest := by simp [new, Deque.newHeap, Deque.new, Deque.peek, Deque.slot]
  placeholder := by
    intro p hp
    simp only [tsOf, new, Deque.newHeap, BHeap.at]
    rw [List.getElem?_replicate]
    split <;> rfl
  real := by intro p hp hp'; simp [new, Deque.newHeap] at hp'; omega
  inc := by intro p q hp hq hp'; simp [new, Deque.newHeap] at hp'; omega
  qlen := by simp [new, Deque.new]
  cur := by simp [new, Deque.new]
  slots := by simp [new, Deque.new, Deque.newHeap]

theorem cinv_spawn {N : Nat} {s : BucketCounter} {cs : List Call} (a : Int) (h : CInv N ⟨s, cs⟩) : CInv N ⟨s, cs ++ [⟨a, .start⟩]⟩ := by
  refine ⟨h.shared, ?_⟩
  intro c hc
  rcases List.mem_append.1 hc with hc | hc
  · exact h.calls c hc
  · obtain rfl := List.mem_singleton.1 hc; trivial

theorem cinv_step {N : Nat} {s : BucketCounter} {pre post : List Call} {c : Call} (x : Int) (h : CInv N ⟨s, pre ++ c :: post⟩) :
    CInv N ⟨(callStep s x c).1, pre ++ (callStep s x c).2 :: post⟩ := by
  obtain ⟨h1, h2, h3⟩ := callStep_ok (t := x) h.shared (h.calls c (by simp))
  refine ⟨h1, ?_⟩
  intro d hd
  rcases List.mem_append.1 hd with hd | hd
  · exact (h.calls d (by simp [hd])).ext h2
  · rcases List.mem_cons.1 hd with rfl | hd
    · exact h3
    · exact (h.calls d (by simp [hd])).ext h2

theorem cinv_run (N : Nat) (b : BucketCounter) (hb : SharedOk N b) (es : List (Ev Int Int)) :
    CInv N (conc.run (Machine.start b) es) :=
  conc.inv_run (CInv N) (fun _ _ a h => cinv_spawn a h) (fun _ _ _ _ x h => cinv_step x h) _ ⟨hb, by simp [Machine.start]⟩ es

/-- Bucket contents and total are the sums of what the calls did. -/
structure SumInv (p : Pool BucketCounter Call) : Prop where
  bucket : ∀ q, (p.shared.heap.at q).count = i64 (p.calls.map (Call.amt q)).sum
  total : p.shared.getCount = if p.shared.updateTotalCount then i64 (p.calls.map Call.totalled).sum else 0

theorem callStep_const (b : BucketCounter) (t : Int) (c : Call) :
    (callStep b t c).1.updateTotalCount = b.updateTotalCount ∧
    (callStep b t c).1.interval = b.interval ∧
    (callStep b t c).1.initTimestamp = b.initTimestamp ∧
    (callStep b t c).2.n = c.n := by
  unfold callStep
  cases hpc : c.pc <;> simp only
  case start => simp
  all_goals (repeat' split) <;> refine ⟨?_, ?_, ?_, ?_⟩ <;> first | trivial | rfl

theorem callStep_count (b : BucketCounter) (t : Int) (c : Call) (hin : InI64 b.getCount) :
    (callStep b t c).1.getCount =
      if b.updateTotalCount then i64 (b.getCount + ((callStep b t c).2.totalled - c.totalled))
      else b.getCount := by
  unfold callStep Call.totalled
  cases hpc : c.pc <;> simp only
  case start =>
    unfold bumpTotal
    split <;> simp [getCount, Counter.getCount, Counter.incN]
  all_goals (repeat' split) <;>
    simp_all [getCount, i64_of_in]

theorem callStep_bucket (b : BucketCounter) (t : Int) (c : Call) (hc : CallOk b c) (q : Nat)
    (hin : InI64 (b.heap.at q).count) :
    ((callStep b t c).1.heap.at q).count =
      i64 ((b.heap.at q).count + ((callStep b t c).2.amt q - c.amt q)) := by
  have h0 := i64_of_in hin
  unfold callStep
  cases hpc : c.pc with
  | start => simp [Call.amt, hpc, h0]
  | clock => simp only; split <;> simp [Call.amt, hpc, h0]
  | load ts => simp only; split <;> simp [Call.amt, hpc, h0]
  | cas ts old =>
    simp only; split
    · simp only [Call.amt, hpc, sub_self, add_zero, h0]
      by_cases hq : q < b.heap.length
      · rw [BHeap.at_append_lt _ _ _ hq]
      · rw [BHeap.at_ge b.heap q (by omega)]
        by_cases hq' : q = b.heap.length
        · rw [hq', BHeap.at_append_len]; rfl
        · rw [BHeap.at_ge _ q (by simp; omega)]
    · simp [Call.amt, hpc, h0]
  | reload ts => simp [Call.amt, hpc, h0]
  | q1 ts p => simp [Call.amt, hpc, h0]
  | q2 ts p k => simp [Call.amt, hpc, h0]
  | q3 ts p => simp [Call.amt, hpc, h0]
  | q4 ts p k => simp [Call.amt, hpc, h0]
  | add ts p =>
    simp only [CallOk, hpc] at hc
    simp only [Call.amt, hpc, sub_zero]
    rw [at_addAt _ _ _ _ hc]
    by_cases hpq : p = q
    · simp [hpq]
    · simp [hpq, h0]
  | done ts p => simp [h0]
  | panicked => simp [h0]

theorem sumInv_spawn {s : BucketCounter} {cs : List Call} (a : Int) (h2 : SumInv ⟨s, cs⟩) : SumInv ⟨s, cs ++ [⟨a, .start⟩]⟩ := by
  refine ⟨?_, ?_⟩
  · intro q
    have := h2.bucket q
    simpa [Call.amt] using this
  · have := h2.total
    simpa [Call.totalled] using this

theorem sumInv_step {N : Nat} {s : BucketCounter} {pre post : List Call} {c : Call} (x : Int) (h1 : CInv N ⟨s, pre ++ c :: post⟩)
    (h2 : SumInv ⟨s, pre ++ c :: post⟩) : SumInv ⟨(callStep s x c).1, pre ++ (callStep s x c).2 :: post⟩ := by
  have hc := h1.calls c (by simp)
  refine ⟨?_, ?_⟩
  · intro q
    have hb := h2.bucket q
    simp only at hb
    show ((callStep s x c).1.heap.at q).count = _
    rw [callStep_bucket s x c hc q (by rw [hb]; exact i64_in _), hb, i64_add_left,
      ← sum_map_replace _ pre post c (callStep s x c).2]
  · have ht := h2.total
    simp only at ht
    show (callStep s x c).1.getCount = _
    have hin : InI64 s.getCount := by
      rw [ht]; split
      · exact i64_in _
      · decide
    obtain ⟨k1, -⟩ := callStep_const s x c
    rw [callStep_count s x c hin]
    show _ = if (callStep s x c).1.updateTotalCount = true then _ else _
    rw [k1, ht]
    split
    · rw [i64_add_left, ← sum_map_replace _ pre post c (callStep s x c).2]
    · rfl

theorem sumInv_start (N : Nat) (interval t0 : Int) (u : Bool) : SumInv ⟨new interval N t0 u, []⟩ := by
  refine ⟨?_, ?_⟩
  · intro q
    simp only [new, Deque.newHeap, BHeap.at, List.getElem?_replicate]
    split <;> rfl
  · simp [new, getCount, Counter.new, Counter.getCount]

theorem sumInv_run (N : Nat) (interval t0 : Int) (u : Bool) (es : List (Ev Int Int)) :
    SumInv (conc.run (Machine.start (new interval N t0 u)) es) :=
  (conc.inv_run (fun p => CInv N p ∧ SumInv p) (fun _ _ a h => ⟨cinv_spawn a h.1, sumInv_spawn a h.2⟩)
    (fun _ _ _ _ x h => ⟨cinv_step x h.1, sumInv_step x h.1 h.2⟩) _
    ⟨⟨sharedOk_new interval N t0 u, by simp [Machine.start]⟩, sumInv_start N interval t0 u⟩ es).2

/-- The call has returned. -/
def Call.returned (c : Call) : Prop := ∃ ts p, c.pc = .done ts p

/-- The call is executing `addLast`. -/
def Call.inAddLast (c : Call) : Bool :=
  match c.pc with
  | .q1 _ _ => true
  | .q2 _ _ _ => true
  | .q3 _ _ => true
  | .q4 _ _ _ => true
  | _ => false

/-- The bucket a call holds a pointer to, to add to it. -/
def Call.ptr (c : Call) : Option Nat :=
  match c.pc with
  | .q1 _ p => some p
  | .q2 _ p _ => some p
  | .q3 _ p => some p
  | .q4 _ p _ => some p
  | .add _ p => some p
  | .done _ p => some p
  | _ => none

/-- Every real bucket is held by some call; calls add to slot 0's placeholder or to real buckets only. -/
structure PtrInv (N : Nat) (p : Pool BucketCounter Call) : Prop where
  created : ∀ q, N < q → q < p.shared.heap.length → ∃ c ∈ p.calls, c.ptr = some q
  target : ∀ c ∈ p.calls, ∀ q, c.ptr = some q → q = 0 ∨ N < q

theorem SharedOk.latest_target {N b} (h : SharedOk N b) : b.latestBucket = 0 ∨ N < b.latestBucket := by
  have := h.latest; have := h.len
  split at * <;> omega

theorem callStep_ptr {N b t c} (h : SharedOk N b) :
    (∀ q, c.ptr = some q → (callStep b t c).2.ptr = some q) ∧
    (∀ q, (callStep b t c).2.ptr = some q → c.ptr = some q ∨ q = 0 ∨ N < q) ∧
    ((callStep b t c).1.heap.length = b.heap.length ∨
      (callStep b t c).1.heap.length = b.heap.length + 1 ∧ (callStep b t c).2.ptr = some b.heap.length) := by
  have hl := h.latest_target
  have hlen := h.len
  unfold callStep Call.ptr
  cases hpc : c.pc <;> simp only
  case cas ts old =>
    by_cases hx : b.latestBucket = old
    · simp only [if_pos hx]
      refine ⟨by simp, ?_, Or.inr ⟨by simp, trivial⟩⟩
      intro q hq
      simp only [Option.some.injEq] at hq
      right; right; omega
    · simp only [if_neg hx]
      exact ⟨by simp, by simp, Or.inl trivial⟩
  case load ts =>
    by_cases hx : ts > (b.heap.at b.latestBucket).timestamp
    · simp only [if_pos hx]
      exact ⟨by simp, by simp, Or.inl trivial⟩
    · simp only [if_neg hx]
      refine ⟨by simp, ?_, Or.inl trivial⟩
      intro q hq
      simp only [Option.some.injEq] at hq
      subst hq; exact Or.inr hl
  case reload ts =>
    refine ⟨by simp, ?_, Or.inl trivial⟩
    intro q hq
    simp only [Option.some.injEq] at hq
    subst hq; exact Or.inr hl
  case clock =>
    cases alignTimestamp b.interval t with
    | none => exact ⟨by simp, by simp, Or.inl rfl⟩
    | some a => exact ⟨by simp, by simp, Or.inl rfl⟩
  all_goals
    refine ⟨?_, ?_, Or.inl ?_⟩ <;> simp [length_addAt, hpc] <;> intros <;> simp_all

theorem inv_run_start {Inv : Pool BucketCounter Call → Prop} (N : Nat) (b : BucketCounter) (hb : SharedOk N b)
    (h0 : Inv ⟨b, []⟩)
    (hspawn : ∀ s cs a, CInv N ⟨s, cs⟩ → Inv ⟨s, cs⟩ → Inv ⟨s, cs ++ [⟨a, .start⟩]⟩)
    (hstep : ∀ s pre c post x, CInv N ⟨s, pre ++ c :: post⟩ → Inv ⟨s, pre ++ c :: post⟩ →
      Inv ⟨(callStep s x c).1, pre ++ (callStep s x c).2 :: post⟩)
    (es : List (Ev Int Int)) : Inv (conc.run (Machine.start b) es) := by
  induction es using List.reverseRecOn with
  | nil => exact h0
  | append_singleton es e ih =>
    have hc := cinv_run N b hb es
    rw [Machine.run_snoc]
    generalize conc.run (Machine.start b) es = p at *
    cases e with
    | spawn a => exact hspawn _ _ _ hc ih
    | step i x =>
      cases h : p.calls[i]? with
      | none => simpa [Machine.apply, h] using ih
      | some c =>
        obtain ⟨pre, post, h1, _, h2⟩ := conc.apply_step_eq (x := x) h
        rw [h2]
        obtain ⟨s, cs⟩ := p
        simp only at h1
        subst h1
        exact hstep s pre c post x hc ih

theorem ptrInv_run (N : Nat) (interval t0 : Int) (u : Bool) (es : List (Ev Int Int)) :
    PtrInv N (conc.run (Machine.start (new interval N t0 u)) es) := by
  apply inv_run_start N _ (sharedOk_new interval N t0 u)
  · refine ⟨?_, by simp⟩
    intro q h1 h2
    simp [new, Deque.newHeap] at h2; omega
  · intro s cs a hc h
    refine ⟨?_, ?_⟩
    · intro q h1 h2
      obtain ⟨c, hc, hq⟩ := h.created q h1 h2
      exact ⟨c, by simp [hc], hq⟩
    · intro c hc q hq
      rcases List.mem_append.1 hc with hc | hc
      · exact h.target c hc q hq
      · obtain rfl := List.mem_singleton.1 hc; simp [Call.ptr] at hq
  · intro s pre c post x hc h
    obtain ⟨k1, k2, k3⟩ := callStep_ptr (b := s) (t := x) (c := c) hc.shared
    refine ⟨?_, ?_⟩
    · intro q h1 h2
      simp only at h2
      by_cases hq : q < s.heap.length
      · obtain ⟨d, hd, hdq⟩ := h.created q h1 hq
        rcases List.mem_append.1 hd with hd | hd
        · exact ⟨d, by simp [hd], hdq⟩
        · rcases List.mem_cons.1 hd with rfl | hd
          · exact ⟨_, by simp, k1 q hdq⟩
          · exact ⟨d, by simp [hd], hdq⟩
      · rcases k3 with k3 | ⟨k3, k4⟩
        · omega
        · exact ⟨(callStep s x c).2, by simp, by rw [k4]; congr 1; omega⟩
    · intro d hd q hdq
      have key : ∀ d ∈ pre ++ c :: post, d.ptr = some q → q = 0 ∨ N < q := fun d hd => h.target d hd q
      rcases List.mem_append.1 hd with hd | hd
      · exact key d (by simp [hd]) hdq
      · rcases List.mem_cons.1 hd with rfl | hd
        · rcases k2 q hdq with k | k
          · exact key c (by simp) k
          · exact k
        · exact key d (by simp [hd]) hdq

/-- Number of calls inside `addLast`. -/
def busy (p : Pool BucketCounter Call) : Nat := (p.calls.filter Call.inAddLast).length

/-- What the call at `pc` has already done of `addLast`, starting from the ring `q0`. -/
def Progress (q0 : Deque) (b : BucketCounter) (c : Call) : Prop :=
  b.buckets.queue = q0.queue ∧
  match c.pc with
  | .q1 _ p => p + 1 = b.heap.length ∧ b.buckets.current = q0.current
  | .q2 _ p k => p + 1 = b.heap.length ∧ b.buckets.current = q0.current ∧
      k = (q0.current + 1) % q0.queue.length
  | .q3 _ p => p + 1 = b.heap.length ∧ b.buckets.current = (q0.current + 1) % q0.queue.length
  | .q4 _ p k => p + 1 = b.heap.length ∧ b.buckets.current = (q0.current + 1) % q0.queue.length ∧
      k = (q0.current + 1) % q0.queue.length
  | _ => False

/-- The ring holds the newest buckets, up to what the one call inside `addLast` still has to do. -/
structure RingInv (N : Nat) (p : Pool BucketCounter Call) : Prop where
  idle : busy p = 0 → p.shared.buckets.ringList = (ptrs N (p.shared.heap.length - (N + 1))).take (N + 1)
  one : busy p ≤ 1 → ∀ c ∈ p.calls, c.inAddLast = true →
    N + 1 < p.shared.heap.length ∧
    ∃ q0 : Deque, q0.queue.length = N + 1 ∧ q0.WF ∧
      q0.ringList = (ptrs N (p.shared.heap.length - (N + 1) - 1)).take (N + 1) ∧ Progress q0 p.shared c

/-- A step outside `addLast` that does not enter it changes neither ring nor heap length. -/
theorem callStep_outside {b t c} (h : c.inAddLast = false) :
    (callStep b t c).1.buckets = b.buckets ∧
    ((callStep b t c).2.inAddLast = false ∧ (callStep b t c).1.heap.length = b.heap.length ∨
     (∃ ts, (callStep b t c).2.pc = .q1 ts b.heap.length) ∧
      (callStep b t c).1.heap.length = b.heap.length + 1) := by
  unfold Call.inAddLast at h
  unfold callStep
  cases hpc : c.pc <;> simp only [hpc] at h ⊢ <;> (try contradiction)
  case cas ts old =>
    split
    · exact ⟨rfl, Or.inr ⟨⟨_, rfl⟩, by simp⟩⟩
    · exact ⟨rfl, Or.inl ⟨rfl, rfl⟩⟩
  case start => exact ⟨by simp, Or.inl ⟨rfl, by simp⟩⟩
  case clock => split <;> exact ⟨rfl, Or.inl ⟨rfl, rfl⟩⟩
  case load => split <;> exact ⟨rfl, Or.inl ⟨rfl, rfl⟩⟩
  case reload => exact ⟨trivial, Or.inl ⟨rfl, trivial⟩⟩
  case add => exact ⟨trivial, Or.inl ⟨rfl, by simp [length_addAt]⟩⟩
  case done => exact ⟨trivial, Or.inl ⟨by simp [Call.inAddLast, hpc], trivial⟩⟩
  case panicked => exact ⟨trivial, Or.inl ⟨by simp [Call.inAddLast, hpc], trivial⟩⟩

theorem busy_split (s : BucketCounter) (pre post : List Call) (c : Call) :
    busy ⟨s, pre ++ c :: post⟩ =
      (if c.inAddLast then 1 else 0) + ((pre ++ post).filter Call.inAddLast).length := by
  unfold busy
  simp only [List.filter_append, List.filter_cons, List.length_append]
  split <;> (simp; try omega)

theorem filter_nil_of_busy {l : List Call} (h : (l.filter Call.inAddLast).length = 0) :
    ∀ d ∈ l, d.inAddLast = false := by
  intro d hd
  by_contra hne
  have : d ∈ l.filter Call.inAddLast := List.mem_filter.2 ⟨hd, by simpa using hne⟩
  rw [List.length_eq_zero_iff.1 h] at this
  exact absurd this (by simp)

theorem Progress.congr {q0 : Deque} {b b' : BucketCounter} {c : Call} (h : Progress q0 b c)
    (h1 : b'.buckets = b.buckets) (h2 : b'.heap.length = b.heap.length) : Progress q0 b' c := by
  unfold Progress at *
  rw [h1, h2]; exact h

theorem ringInv_step {N : Nat} {s : BucketCounter} {pre post : List Call} {c : Call} {x : Int}
    (hc : CInv N ⟨s, pre ++ c :: post⟩) (h : RingInv N ⟨s, pre ++ c :: post⟩)
    (hbefore : busy ⟨s, pre ++ c :: post⟩ ≤ 1)
    (hafter : busy ⟨(callStep s x c).1, pre ++ (callStep s x c).2 :: post⟩ ≤ 1) :
    RingInv N ⟨(callStep s x c).1, pre ++ (callStep s x c).2 :: post⟩ := by
  have hsh := hc.shared
  simp only at hsh
  have hlen := hsh.len
  rw [busy_split] at hbefore hafter
  by_cases hin : c.inAddLast = true
  · -- the only call inside addLast steps
    rw [if_pos hin] at hbefore
    have hrest : ((pre ++ post).filter Call.inAddLast).length = 0 := by omega
    have hothers := filter_nil_of_busy hrest
    obtain ⟨hN, q0, hq0len, hq0wf, hq0ring, hprog⟩ := h.one (by rw [busy_split, if_pos hin]; omega) c
      (by simp) hin
    simp only at hN hq0ring hprog
    have hmk : ∀ (b' : BucketCounter) (c' : Call), b'.heap.length = s.heap.length →
        c'.inAddLast = true → Progress q0 b' c' →
        RingInv N ⟨b', pre ++ c' :: post⟩ := by
      intro b' c' hl hin' hp
      refine ⟨?_, ?_⟩
      · intro h0; rw [busy_split, if_pos hin'] at h0; omega
      · intro _ d hd hdin
        have : d = c' := by
          rcases List.mem_append.1 hd with hd | hd
          · rw [hothers d (by simp [hd])] at hdin; cases hdin
          · rcases List.mem_cons.1 hd with rfl | hd
            · rfl
            · rw [hothers d (by simp [hd])] at hdin; cases hdin
        subst this
        refine ⟨?_, q0, hq0len, hq0wf, ?_, hp⟩
        · simp only [hl]; exact hN
        · simp only [hl]; exact hq0ring
    unfold Progress at hprog
    unfold callStep
    obtain ⟨hqueue, hprog⟩ := hprog
    cases hpc : c.pc <;> simp only [hpc] at hprog
    case q1 ts p =>
      simp only
      refine hmk _ _ rfl rfl ?_
      refine ⟨hqueue, hprog.1, hprog.2, ?_⟩
      simp only [hprog.2, hqueue]
    case q2 ts p k =>
      simp only
      refine hmk _ _ rfl rfl ?_
      exact ⟨hqueue, hprog.1, hprog.2.2⟩
    case q3 ts p =>
      simp only
      refine hmk _ _ rfl rfl ?_
      exact ⟨hqueue, hprog.1, hprog.2, hprog.2⟩
    case q4 ts p k =>
      simp only
      have hbk : ({ queue := s.buckets.queue.set k p, current := s.buckets.current } : Deque) =
          q0.addLast p := by
        unfold Deque.addLast
        simp only [hqueue, hprog.2.1, hprog.2.2]
      refine ⟨?_, ?_⟩
      · intro _
        simp only
        rw [hbk, Deque.ringList_addLast _ _ hq0wf, hq0ring]
        obtain ⟨m, hm⟩ : ∃ m, s.heap.length = N + 1 + (m + 1) := ⟨s.heap.length - (N + 1) - 1, by omega⟩
        have e1 : s.heap.length - (N + 1) = m + 1 := by omega
        have e2 : p = N + 1 + m := by omega
        rw [e1, ptrs_succ, e2, List.take_succ_cons, Nat.add_sub_cancel]
        congr 1
        rw [List.dropLast_eq_take, List.take_take, List.length_take, length_ptrs]
        congr 1; omega
      · intro _ d hd hdin
        exfalso
        rcases List.mem_append.1 hd with hd | hd
        · rw [hothers d (by simp [hd])] at hdin; cases hdin
        · rcases List.mem_cons.1 hd with rfl | hd
          · cases hdin
          · rw [hothers d (by simp [hd])] at hdin; cases hdin
  · have hin : c.inAddLast = false := by simpa using hin
    obtain ⟨hbk, hcase⟩ := callStep_outside (b := s) (t := x) hin
    rcases hcase with ⟨hout, hl⟩ | ⟨⟨ts, hpc⟩, hl⟩
    · refine ⟨?_, ?_⟩
      · intro h0
        rw [busy_split, hout] at h0
        simp only
        rw [hbk, hl]
        exact h.idle (by rw [busy_split, hin]; exact h0)
      · intro hb1 d hd hdin
        have hd' : d ∈ pre ++ c :: post := by
          rcases List.mem_append.1 hd with hd | hd
          · simp [hd]
          · rcases List.mem_cons.1 hd with rfl | hd
            · rw [hout] at hdin; cases hdin
            · simp [hd]
        obtain ⟨k1, q0, k2, k3, k4, k5⟩ := h.one (by rw [busy_split]; exact hbefore) d hd' hdin
        simp only at k1 k4 k5 ⊢
        exact ⟨by rw [hl]; exact k1, q0, k2, k3, by rw [hl]; exact k4, k5.congr hbk hl⟩
    · have hin' : (callStep s x c).2.inAddLast = true := by simp [Call.inAddLast, hpc]
      rw [if_pos hin'] at hafter
      have hrest : ((pre ++ post).filter Call.inAddLast).length = 0 := by omega
      have hothers := filter_nil_of_busy hrest
      have hidle := h.idle (by rw [busy_split, hin, hrest]; rfl)
      simp only at hidle
      refine ⟨?_, ?_⟩
      · intro h0; rw [busy_split, if_pos hin'] at h0; omega
      · intro _ d hd hdin
        have : d = (callStep s x c).2 := by
          rcases List.mem_append.1 hd with hd | hd
          · rw [hothers d (by simp [hd])] at hdin; cases hdin
          · rcases List.mem_cons.1 hd with rfl | hd
            · rfl
            · rw [hothers d (by simp [hd])] at hdin; cases hdin
        subst this
        simp only
        refine ⟨by omega, s.buckets, hsh.qlen, ?_, ?_, ?_⟩
        · unfold Deque.WF; rw [hsh.qlen]; exact hsh.cur
        · rw [hidle]; congr 2; omega
        · unfold Progress
          rw [hpc, hbk]
          exact ⟨rfl, by rw [hl], rfl⟩

theorem ringInv_run (N : Nat) (interval t0 : Int) (u : Bool) (es : List (Ev Int Int))
    (hserial : ∀ k, busy (conc.run (Machine.start (new interval N t0 u)) (es.take k)) ≤ 1) :
    RingInv N (conc.run (Machine.start (new interval N t0 u)) es) := by
  induction es using List.reverseRecOn with
  | nil =>
    refine ⟨?_, by intro _ c hc; simp [Machine.run_nil, Machine.start] at hc⟩
    intro _
    have := (rep_new interval N t0 u).ring
    simpa [Machine.run_nil, Machine.start, new, Deque.newHeap] using this
  | append_singleton es e ih =>
    have hb1 : busy (conc.run (Machine.start (new interval N t0 u)) es) ≤ 1 := by
      have := hserial es.length
      rwa [List.take_append_of_le_length le_rfl, List.take_length] at this
    have hb2 : busy (conc.run (Machine.start (new interval N t0 u)) (es ++ [e])) ≤ 1 := by
      have := hserial (es.length + 1)
      rwa [List.take_of_length_le (by simp)] at this
    have ih := ih (by
      intro k
      by_cases hk : k ≤ es.length
      · have := hserial k
        rwa [List.take_append_of_le_length hk] at this
      · rw [List.take_of_length_le (by omega)]; exact hb1)
    have hc := cinv_run N _ (sharedOk_new interval N t0 u) es
    rw [Machine.run_snoc] at hb2 ⊢
    generalize conc.run (Machine.start (new interval N t0 u)) es = p at *
    cases e with
    | spawn a =>
      have e1 : busy (conc.apply p (.spawn a)) = busy p := by
        simp [busy, Machine.apply, conc, Call.inAddLast]
      refine ⟨?_, ?_⟩
      · rw [e1]; exact ih.idle
      · rw [e1]
        intro h1 c hc hcin
        have : c ∈ p.calls := by
          rcases List.mem_append.1 hc with hc | hc
          · exact hc
          · obtain rfl := List.mem_singleton.1 hc; cases hcin
        exact ih.one h1 c this hcin
    | step i x =>
      cases h : p.calls[i]? with
      | none => simpa [Machine.apply, h] using ih
      | some c =>
        obtain ⟨pre, post, h1, _, h2⟩ := conc.apply_step_eq (x := x) h
        rw [h2] at hb2 ⊢
        obtain ⟨s, cs⟩ := p
        simp only at h1
        subst h1
        exact ringInv_step hc ih hb1 hb2

end BucketCounter
end GoMetrics
