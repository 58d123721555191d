import Verif.Spec.Memory
import Verif.Props.WholeBucket
import Verif.Props.FastCompassConc
import Verif.Props.Registry
import Verif.Proofs.BucketCounter
/-! # C98 — how much memory the metrics keep -/
namespace GoMetrics
open BucketCounter (Call callStep conc after SharedOk CInv reachable running)

namespace BucketCounter

theorem mem_reachable {p : Pool BucketCounter Call} {q : Nat} :
    q ∈ reachable p ↔ q ∈ p.shared.pointed ∨ ∃ c ∈ p.calls, q ∈ c.pointed := by
  obtain ⟨s, cs⟩ := p
  unfold reachable
  induction cs with
  | nil => simp
  | cons c cs ih =>
    simp only [List.foldr_cons, Finset.mem_union] at ih ⊢
    rw [ih]
    simp only [List.mem_cons, exists_eq_or_imp]
    tauto

theorem mem_pointed {b : BucketCounter} {q : Nat} : q ∈ b.pointed ↔ q = b.latestBucket ∨ q ∈ b.buckets.queue := by simp [pointed]

theorem pointed_card (b : BucketCounter) : b.pointed.card ≤ b.buckets.queue.length + 1 :=
  (Finset.card_insert_le _ _).trans (Nat.add_le_add_right b.buckets.queue.toFinset_card_le 1)

theorem callStep_qlen (b : BucketCounter) (t : Int) (c : Call) : (callStep b t c).1.buckets.queue.length = b.buckets.queue.length := by
  unfold callStep
  cases c.pc <;> simp only
  · simp
  · cases alignTimestamp b.interval t <;> rfl
  · split <;> rfl
  · split <;> rfl
  · simp

/-- One step makes no bucket reachable that was not, except the one it allocates. -/
theorem callStep_reach (b : BucketCounter) (t : Int) (c : Call) {q : Nat}
    (h : q ∈ (callStep b t c).1.pointed ∨ q ∈ (callStep b t c).2.pointed) : q ∈ b.pointed ∨ q ∈ c.pointed ∨ (q = b.heap.length ∧
      (callStep b t c).1.heap.length = b.heap.length + 1) := by
  unfold callStep at h ⊢
  simp only [mem_pointed, Call.pointed] at h ⊢
  cases hpc : c.pc <;> simp only [hpc] at h ⊢
  · simpa using h
  · cases ha : alignTimestamp b.interval t <;> rw [ha] at h <;> simpa using h
  · split at h <;> simp at h <;> tauto
  · split at h
    · rename_i h'
      simp at h ⊢
      rw [if_pos h']
      simp; tauto
    · simp at h; tauto
  · simp at h; tauto
  · simp at h ⊢; tauto
  · simp at h ⊢; tauto
  · simp at h ⊢; tauto
  · simp at h ⊢
    rcases h with (h | h) | h
    · tauto
    · rcases List.mem_or_eq_of_mem_set h with h | h <;> tauto
    · tauto
  · simp at h ⊢; tauto
  · simp at h ⊢; tauto
  · simp at h ⊢; tauto

end BucketCounter
open BucketCounter (mem_reachable mem_pointed pointed_card callStep_qlen callStep_reach)

/-- **C98.** A bucket that nothing points to is garbage for ever: an event makes no bucket reachable that was not, except one that it has just allocated. -/
theorem C98_garbage (interval : Int) (N : Nat) (t0 : Int) (u : Bool) (es : List (Ev Int Int)) (e : Ev Int Int) (q : Nat)
    (h : q ∈ reachable (after interval N t0 u (es ++ [e]))) :
    q ∈ reachable (after interval N t0 u es) ∨ (q = (after interval N t0 u es).shared.heap.length ∧
      (after interval N t0 u (es ++ [e])).shared.heap.length = (after interval N t0 u es).shared.heap.length + 1) := by
  unfold after at h ⊢
  rw [Machine.run_snoc] at h ⊢
  generalize conc.run (Machine.start (BucketCounter.new interval N t0 u)) es = p at h ⊢
  rw [mem_reachable] at h ⊢
  cases e with
  | spawn a =>
    left
    rcases h with h | ⟨c, hc, h⟩
    · exact .inl h
    · rcases List.mem_append.1 hc with hc | hc
      · exact .inr ⟨c, hc, h⟩
      · simp only [List.mem_singleton] at hc
        subst hc
        cases h
  | step i x =>
    cases hc : p.calls[i]? with
    | none => left; simpa only [Machine.apply, hc] using h
    | some c =>
      have hmem : c ∈ p.calls := List.mem_of_getElem? hc
      simp only [Machine.apply, hc] at h ⊢
      have key := callStep_reach p.shared x c (q := q)
      rcases h with h | ⟨d, hd, h⟩
      · rcases key (.inl h) with g | g | g
        · exact .inl (.inl g)
        · exact .inl (.inr ⟨c, hmem, g⟩)
        · exact .inr g
      · rcases List.mem_or_eq_of_mem_set hd with hd | rfl
        · exact .inl (.inr ⟨d, hd, h⟩)
        · rcases key (.inr h) with g | g | g
          · exact .inl (.inl g)
          · exact .inl (.inr ⟨c, hmem, g⟩)
          · exact .inr g

/-- **C98.** Whatever was recorded, for however long and by however many goroutines, a bucket counter made for `N` buckets keeps at most `N + 2`, and the calls
under way keep at most one more each. -/
theorem C98_counter (interval : Int) (N : Nat) (t0 : Int) (u : Bool) (es : List (Ev Int Int)) :
    (after interval N t0 u es).shared.pointed.card ≤ N + 2 ∧
    (reachable (after interval N t0 u es)).card ≤ N + 2 + running (after interval N t0 u es) := by
  have hq : (after interval N t0 u es).shared.buckets.queue.length = N + 1 :=
    (BucketCounter.cinv_run _ _ (BucketCounter.sharedOk_new interval N t0 u) es).shared.qlen
  generalize after interval N t0 u es = p at hq
  obtain ⟨s, cs⟩ := p
  have h1 : s.pointed.card ≤ N + 2 := (pointed_card s).trans (by simp only at hq; omega)
  refine ⟨h1, ?_⟩
  clear hq
  unfold reachable running
  simp only
  induction cs with
  | nil => simpa using h1
  | cons c cs ih =>
    rw [List.foldr_cons, List.countP_cons]
    refine (Finset.card_union_le _ _).trans ?_
    rw [Nat.add_comm, ← Nat.add_assoc]
    refine Nat.add_le_add ih ?_
    unfold BucketCounter.Call.pointed
    cases c.pc <;> simp

/-- **C98.** Used by one goroutine at a time, it keeps at most `N + 1`. -/
theorem C98_sequential (interval : Int) (N : Nat) (t0 : Int) (u : Bool) (h : List (Int × BucketCounter.Op)) :
    ((BucketCounter.new interval N t0 u).run h).pointed.card ≤ N + 1 := by
  have key : ∀ (h : List (Int × BucketCounter.Op)) (b : BucketCounter), b.buckets.queue.length = N + 1 ∧ b.latestBucket ∈ b.buckets.queue →
      (b.run h).buckets.queue.length = N + 1 ∧ (b.run h).latestBucket ∈ (b.run h).buckets.queue := by
    intro h
    induction h with
    | nil => exact fun b hb => hb
    | cons c h ih =>
      intro b hb
      refine ih _ ?_
      have hu : ∀ n, (b.updateN c.1 n).state.buckets.queue.length = N + 1 ∧ (b.updateN c.1 n).state.latestBucket ∈ (b.updateN c.1 n).state.buckets.queue := by
        intro n
        unfold BucketCounter.updateN
        simp only
        cases BucketCounter.alignTimestamp (b.bumpTotal n).interval c.1 with
        | none => simpa [Res.state] using hb
        | some ts =>
          simp only [Res.state]
          unfold BucketCounter.credit
          simp only
          split
          · simp only [Deque.addLast, List.length_set, BucketCounter.bumpTotal_buckets]
            refine ⟨hb.1, List.mem_set (Nat.mod_lt _ ?_) _⟩
            rw [hb.1]; omega
          · simpa using hb
      obtain ⟨t, o⟩ := c
      cases o <;> exact hu _
  obtain ⟨h1, h2⟩ := key h (BucketCounter.new interval N t0 u) ⟨by simp [BucketCounter.new, Deque.new],
    by simp [BucketCounter.new, Deque.new, Deque.peek, Deque.slot]⟩
  unfold BucketCounter.pointed
  rw [Finset.insert_eq_of_mem (List.mem_toFinset.2 h2)]
  exact (List.toFinset_card_le _).trans h1.le

namespace BucketCounter
/-- Two goroutines make the buckets of the intervals 10 and 20, and then link them into the same slot, the later bucket first. -/
def crossed : List (Ev Int Int) :=
  .spawn 1 :: List.replicate 4 (.step 0 19000) ++ .spawn 1 :: List.replicate 4 (.step 1 29000) ++
    [.step 0 0, .step 1 0, .step 0 0, .step 1 0, .step 0 0, .step 1 0, .step 1 0, .step 0 0, .step 0 0, .step 1 0]
end BucketCounter

/-- **C98.** `N + 2` is attained, and can be for good: both calls have returned, and the latest bucket is in no slot. -/
theorem C98_tight : running (after 10000000000 5 0 true BucketCounter.crossed) = 0 ∧ (after 10000000000 5 0 true BucketCounter.crossed).calls.length = 2 ∧
    (after 10000000000 5 0 true BucketCounter.crossed).shared.pointed.card = 5 + 2 := by
  decide +kernel

namespace CompassConc
theorem kept_le {m : GoMap String BucketCounter} {K : Nat} (h : ∀ e ∈ m, e.2.pointed.card ≤ K) : bucketsKept m ≤ m.length * K := by
  unfold bucketsKept
  induction m with
  | nil => simp
  | cons e m ih =>
    have h1 := h e (by simp)
    have h2 := ih (fun e he => h e (by simp [he]))
    simp only [List.map_cons, List.sum_cons, List.length_cons]
    rw [Nat.add_mul]
    omega

theorem get?_of_mem {ν : Type} {m : GoMap String ν} (hw : m.WF) {e : String × ν} (he : e ∈ m) : m.get? e.1 = some e.2 := by
  induction m with
  | nil => simp at he
  | cons d m ih =>
    obtain ⟨k, v⟩ := d
    unfold GoMap.WF GoMap.keys at hw ih
    simp only [List.map_cons, List.nodup_cons] at hw
    unfold GoMap.get?
    rcases List.mem_cons.1 he with rfl | he
    · simp
    · rw [if_neg, ih hw.2 he]
      intro e'
      exact hw.1 (List.mem_map.2 ⟨e, he, e'.symm⟩)

/-- The counters of the marks of a compass. -/
theorem marks_kept (I : Int) (n : Nat) (maxErr maxAdd t1 t2 : Int) (es : List (Ev MarkArg Int)) :
    ((marked I n maxErr maxAdd t1 t2 es).shared.kept : Int) ≤ (2 + max maxErr 0 + max maxAdd 0) * (n + 2) := by
  obtain ⟨⟨es1, h1, -⟩, ⟨es2, h2, -⟩, h3⟩ := C83_bucket_counters I n maxErr maxAdd t1 t2 es
  obtain ⟨⟨l1, w1, -⟩, ⟨l2, w2, -⟩⟩ := C83_limit I n maxErr maxAdd t1 t2 es
  have hT := (C98_counter I n t1 true es1).1
  have hS := (C98_counter I n t2 true es2).1
  rw [← h1] at hT
  rw [← h2] at hS
  have hlab : ∀ w, (((marked I n maxErr maxAdd t1 t2 es).shared.lab w).counters).keys.Nodup →
      bucketsKept ((marked I n maxErr maxAdd t1 t2 es).shared.lab w).counters ≤ ((marked I n maxErr maxAdd t1 t2 es).shared.lab w).counters.length * (n + 2) := by
    intro w hw
    refine kept_le fun e he => ?_
    obtain ⟨t0, es', hb⟩ := h3 w e.1 e.2 (get?_of_mem hw he)
    rw [hb]
    exact (C98_counter I n t0 true es').1
  have hE := hlab false w1
  have hA := hlab true w2
  unfold Marks.kept
  generalize marked I n maxErr maxAdd t1 t2 es = p at *
  have hE' : (bucketsKept (p.shared.lab false).counters : Int) ≤ max maxErr 0 * (n + 2) := by
    have hE'' : (bucketsKept (p.shared.lab false).counters : Int) ≤ ((p.shared.lab false).counters.length : Int) * (n + 2) := by exact_mod_cast hE
    exact hE''.trans (mul_le_mul_of_nonneg_right l1 (by positivity))
  have hA' : (bucketsKept (p.shared.lab true).counters : Int) ≤ max maxAdd 0 * (n + 2) := by
    have hA'' : (bucketsKept (p.shared.lab true).counters : Int) ≤ ((p.shared.lab true).counters.length : Int) * (n + 2) := by exact_mod_cast hA
    exact hA''.trans (mul_le_mul_of_nonneg_right l2 (by positivity))
  push_cast
  have hT' : ((p.shared.total.pointed.card : Nat) : Int) ≤ n + 2 := by exact_mod_cast hT
  have hS' : ((p.shared.success.pointed.card : Nat) : Int) ≤ n + 2 := by exact_mod_cast hS
  nlinarith [hE', hA', hT', hS']
end CompassConc

/-- **C98.** The counters of a compass keep at most `n + 2` buckets for the total, for the successes, and for each error code and addon it is allowed to
distinguish, whatever was recorded with whatever labels, by however many goroutines. -/
theorem C98_compass {S C A I : Type} (R : Rounding) (T : Whole.Stepped S C A I) (arg : C → Option Int) (hT : T.Ok arg) (s0 : S) (bi : Int) (n : Nat)
    (maxErr maxAdd now t1 t2 : Int) (es : List (Ev Whole.Use (Whole.In I))) :
    ((Whole.used R T s0 bi n maxErr maxAdd now t1 t2 es).shared.marks.shared.kept : Int) ≤ (2 + max maxErr 0 + max maxAdd 0) * (n + 2) := by
  have h := Whole.inv_all (Qt := fun _ => True) (Qr := fun _ => True) (R := R) (bi := bi) hT s0 n maxErr maxAdd now t1 t2 es (fun _ _ _ => ⟨trivial, trivial⟩)
  obtain ⟨es1, he1, -⟩ := h.marks
  have hm : (Whole.used R T s0 bi n maxErr maxAdd now t1 t2 es).shared.marks = CompassConc.marked bi n maxErr maxAdd t1 t2 es1 := he1
  rw [hm]
  exact CompassConc.marks_kept bi n maxErr maxAdd t1 t2 es1

/-- **C98.** The same for a compass with a bucket reservoir, whose own counter keeps `n + 2` more. -/
theorem C98_compass_bucket (R : Rounding) (bi : Int) (n : Nat) (maxErr maxAdd now t1 t2 tv : Int) (es : List (Ev Whole.Use (Whole.In (Int × Nat)))) :
    let p := (Whole.bucketUsed R bi n maxErr maxAdd now t1 t2 tv es).shared
    (p.marks.shared.kept + p.res.shared.pointed.card : Int) ≤ (3 + max maxErr 0 + max maxAdd 0) * (n + 2) := by
  intro p
  obtain ⟨es', -, he, h⟩ := Whole.bucket_inv R bi n maxErr maxAdd now t1 t2 tv es
  obtain ⟨es1, h1, -⟩ := Whole.bucket_reservoir h
  have hV : p.res.shared.pointed.card ≤ n + 2 := by
    rw [show p.res.shared = _ from h1]
    exact (C98_counter bi n tv true es1).1
  have hM : (p.marks.shared.kept : Int) ≤ (2 + max maxErr 0 + max maxAdd 0) * (n + 2) := by
    change ((Whole.bucketUsed R bi n maxErr maxAdd now t1 t2 tv es).shared.marks.shared.kept : Int) ≤ _
    rw [he]
    exact C98_compass R _ _ (Whole.bucket_ok bi) _ bi n maxErr maxAdd now t1 t2 es'
  have hV' : (p.res.shared.pointed.card : Int) ≤ n + 2 := by exact_mod_cast hV
  nlinarith [hM, hV']

namespace FastCompassConc
/-- All counters, those in the map and one about to be inserted, have rings of `N + 1` slots. -/
def Rings (N : Nat) (p : Pool (Guard FastCompass Arg Int Bool) (GuardPC Arg (Arg × RecPC) Int Bool Empty Empty Empty)) : Prop :=
  p.shared.obj.numberOfBuckets = N ∧ (∀ e ∈ p.shared.obj.subCategories, e.2.buckets.queue.length = N + 1) ∧
    ∀ c ∈ p.calls, ∀ a ins a' b, c = .wIn a ins (a', .insert b) → b.buckets.queue.length = N + 1

theorem mem_set {ν : Type} {m : GoMap String ν} {k : String} {v : ν} {e : String × ν} (h : e ∈ m.set k v) : e ∈ m ∨ e.2 = v := by
  induction m with
  | nil => simp only [GoMap.set, List.mem_singleton] at h; subst h; exact .inr rfl
  | cons d m ih =>
    obtain ⟨k', v'⟩ := d
    unfold GoMap.set at h
    split at h
    · rcases List.mem_cons.1 h with rfl | h
      · exact .inr rfl
      · exact .inl (by simp [h])
    · rcases List.mem_cons.1 h with rfl | h
      · exact .inl (by simp)
      · rcases ih h with h | h
        · exact .inl (by simp [h])
        · exact .inr h

theorem mem_of_get {ν : Type} {m : GoMap String ν} {k : String} {v : ν} (h : m.get? k = some v) : ∃ e ∈ m, e.2 = v := by
  induction m with
  | nil => cases h
  | cons d m ih =>
    obtain ⟨k', v'⟩ := d
    unfold GoMap.get? at h
    split at h
    · cases h; exact ⟨_, List.mem_cons_self .., rfl⟩
    · obtain ⟨e, he, hv⟩ := ih h; exact ⟨e, by simp [he], hv⟩

theorem wstep_rings {N : Nat} (fc : FastCompass) (t : Int) (l : Arg × RecPC) (h0 : fc.numberOfBuckets = N)
    (h1 : ∀ e ∈ fc.subCategories, e.2.buckets.queue.length = N + 1) (h2 : ∀ a b, l = (a, .insert b) → b.buckets.queue.length = N + 1) :
    (wstep fc t l).1.numberOfBuckets = N ∧ (∀ e ∈ (wstep fc t l).1.subCategories, e.2.buckets.queue.length = N + 1) ∧
    ∀ a b, (wstep fc t l).2 = .inl (a, .insert b) → b.buckets.queue.length = N + 1 := by
  obtain ⟨a, pc⟩ := l
  cases pc with
  | check => simp only [wstep]; split <;> exact ⟨h0, h1, by simp⟩
  | lookup => simp only [wstep]; split <;> exact ⟨h0, h1, by simp⟩
  | limit => simp only [wstep]; split <;> exact ⟨h0, h1, by simp⟩
  | make =>
    simp only [wstep]
    split
    · exact ⟨h0, h1, by simp⟩
    · rename_i b hb
      refine ⟨h0, h1, ?_⟩
      intro a' b' e
      simp only [Sum.inl.injEq, Prod.mk.injEq, RecPC.insert.injEq] at e
      obtain ⟨-, rfl⟩ := e
      unfold BucketCounter.newImpl at hb
      split at hb
      · cases hb
      · simp only [Option.some.injEq] at hb
        subst hb
        simp [BucketCounter.new, Deque.new, h0]
  | insert b =>
    refine ⟨h0, ?_, ?_⟩
    · intro e he
      rcases mem_set he with he | he
      · exact h1 e he
      · rw [he]; exact h2 a b rfl
    · intro a' b' e; simp [wstep] at e
  | update c =>
    simp only [wstep]
    split
    · exact ⟨h0, h1, by simp⟩
    · rename_i b hb
      obtain ⟨e0, he0, hv⟩ := mem_of_get hb
      have key : ∀ e ∈ fc.subCategories.set a.subCategory (BucketCounter.callStep b t c).1, e.2.buckets.queue.length = N + 1 := by
        intro e he
        rcases mem_set he with he | he
        · exact h1 e he
        · rw [he, callStep_qlen, ← hv]; exact h1 e0 he0
      split <;> exact ⟨h0, key, by simp⟩

theorem rings_run (interval : Int) (N : Nat) (limit : Int) (es : List (Ev (Arg ⊕ Empty) Int)) : Rings N (after interval N limit es) := by
  refine Machine.inv_run guarded.machine (Rings N) ?_ ?_ _ ⟨rfl, by simp [Guarded.init, Machine.start, FastCompass.new], by simp [Guarded.init, Machine.start]⟩ es
  · intro s cs a h
    refine ⟨h.1, h.2.1, ?_⟩
    intro c hc
    rcases List.mem_append.1 hc with hc | hc
    · exact h.2.2 c hc
    · simp only [List.mem_singleton] at hc
      subst hc
      intro a' ins a'' b e
      cases a with
      | inl a => cases e
      | inr q => exact q.elim
  · intro s pre c post x h
    have hold : ∀ d ∈ pre ++ post, ∀ a ins a' b, d = .wIn a ins (a', .insert b) → b.buckets.queue.length = N + 1 := fun d hd =>
      h.2.2 d (by rcases List.mem_append.1 hd with hd | hd <;> simp [hd])
    have close : ∀ (s' : Guard FastCompass Arg Int Bool) (c' : GuardPC Arg (Arg × RecPC) Int Bool Empty Empty Empty), s'.obj.numberOfBuckets = N →
        (∀ e ∈ s'.obj.subCategories, e.2.buckets.queue.length = N + 1) → (∀ a ins a' b, c' = .wIn a ins (a', .insert b) → b.buckets.queue.length = N + 1) →
        Rings N ⟨s', pre ++ c' :: post⟩ := by
      intro s' c' g1 g2 g3
      refine ⟨g1, g2, ?_⟩
      intro d hd
      simp only [List.mem_append, List.mem_cons] at hd
      rcases hd with hd | rfl | hd
      · exact hold d (by simp [hd])
      · exact g3
      · exact hold d (by simp [hd])
    have hc := h.2.2 c (by simp)
    cases c with
    | wWait a =>
      show Rings N ⟨(Guarded.callStep guarded s x (.wWait a)).1, _⟩
      by_cases hw : s.writer = true ∨ 0 < s.readers
      · simp only [Guarded.machine, Guarded.callStep, if_pos hw]; exact close _ _ h.1 h.2.1 (by simp)
      · simp only [Guarded.machine, Guarded.callStep, if_neg hw]; exact close _ _ h.1 h.2.1 (by simp [guarded])
    | wIn a ins l =>
      obtain ⟨k0, k1, k2⟩ := wstep_rings s.obj x l h.1 h.2.1 (fun a' b e => hc a ins a' b (by rw [e]))
      show Rings N ⟨(Guarded.callStep guarded s x (.wIn a ins l)).1, pre ++ (Guarded.callStep guarded s x (.wIn a ins l)).2 :: post⟩
      have hg : guarded.wstep s.obj x l = wstep s.obj x l := rfl
      cases hr : wstep s.obj x l with
      | mk o r =>
        rw [hr] at k0 k1 k2
        cases r with
        | inl l' =>
          simp only [Guarded.callStep, hg, hr]
          exact close _ _ k0 k1 (fun a1 ins1 a' b e => by
            simp only [GuardPC.wIn.injEq] at e
            exact k2 a' b (by rw [e.2.2]))
        | inr r =>
          simp only [Guarded.callStep, hg, hr]
          exact close _ _ k0 k1 (by simp)
    | wOut a r => exact close _ _ h.1 h.2.1 (fun _ _ _ _ e => by cases e)
    | wDone a r => exact close _ _ h.1 h.2.1 (fun _ _ _ _ e => by cases e)
    | rWait q => exact q.elim
    | rIn q k => exact q.elim
    | rOut q v => exact q.elim
    | rDone q v => exact q.elim

end FastCompassConc

/-- **C98.** A fast compass keeps at most `N + 2` buckets for each of the sub-categories it is allowed to distinguish. -/
theorem C98_fast (interval : Int) (N : Nat) (limit : Int) (es : List (Ev (FastCompassConc.Arg ⊕ Empty) Int)) :
    (bucketsKept (FastCompassConc.after interval N limit es).shared.obj.subCategories : Int) ≤ max limit 0 * (N + 2) := by
  have h1 := C80_limit interval N limit es
  have h2 := (FastCompassConc.rings_run interval N limit es).2.1
  generalize (FastCompassConc.after interval N limit es).shared.obj.subCategories = m at h1 h2
  have h3 := CompassConc.kept_le (m := m) (K := N + 2) (fun e he => (pointed_card e.2).trans (by have := h2 e he; omega))
  have h4 : (bucketsKept m : Int) ≤ (m.length : Int) * (N + 2) := by exact_mod_cast h3
  exact h4.trans (mul_le_mul_of_nonneg_right h1 (by positivity))

namespace Registry
/-- Lookups of `n` different names in registry 0. -/
def manyNames (n : Nat) : List Call := (List.range n).map fun i => .lookup ⟨.direct 0, .compass, { hash := List.replicate i 97 }⟩
/-- Lookups of one name in `n` different groups. -/
def manyGroups (n : Nat) : List Call := (List.range n).map fun i => .lookup ⟨.group (List.replicate i 97), .compass, { hash := [98] }⟩

theorem get?_none_of {ν : Type} {m : GoMap GoStr ν} {k : GoStr} (h : k ∉ m.keys) : m.get? k = none := by
  induction m with
  | nil => rfl
  | cons d m ih =>
    obtain ⟨a, b⟩ := d
    simp only [GoMap.keys, List.map_cons, List.mem_cons, not_or] at h
    unfold GoMap.get?
    rw [if_neg (fun e => h.1 e.symm)]
    exact ih h.2
end Registry
open Registry

/-- **C98.** The limit of a registry does not bound its memory: names beyond the limit are kept too, each with its entry. -/
theorem C98_registry_refuted (limit : Int) (n : Nat) :
    ((runSeq (initial [limit]) (manyNames n)).regs 0).metricsMap.length = n := by
  have key : ((runSeq (initial [limit]) (manyNames n)).regs 0).metricsMap.keys = (List.range n).map fun i => List.replicate i 97 := by
    induction n with
    | zero => rfl
    | succ n ih =>
      have hs : manyNames (n + 1) = manyNames n ++ [.lookup ⟨.direct 0, .compass, { hash := List.replicate n 97 }⟩] := by
        simp [manyNames, List.range_succ]
      rw [hs]
      unfold runSeq at ih ⊢
      rw [List.foldl_append]
      generalize List.foldl (fun s c => (exec s c).1) (initial [limit]) (manyNames n) = s at ih
      simp only [List.foldl_cons, List.foldl_nil]
      rw [exec_direct s _ 0 rfl]
      have hnone : (s.regs 0).metricsMap.get? (List.replicate n 97) = none := get?_none_of (by
        rw [ih]
        intro h
        obtain ⟨i, hi, e⟩ := List.mem_map.1 h
        have := congrArg List.length e
        simp at this hi
        omega)
      unfold getOn
      rw [hnone]
      simp only [Mem.setReg, if_true]
      rw [GoMap.set_of_none _ hnone]
      unfold GoMap.keys at ih ⊢
      rw [List.map_append, ih, List.range_succ]
      simp
  have := congrArg List.length key
  simpa [GoMap.keys] using this

/-- **C98.** Nor is there a limit on the number of groups of a manager: each keeps a registry of its own. -/
theorem C98_groups_refuted (n : Nat) :
    (runSeq (initial []) (manyGroups n)).groups.length = n ∧ ((runSeq (initial []) (manyGroups n)).groups.map Prod.snd).Nodup := by
  have key : (runSeq (initial []) (manyGroups n)).enable = true ∧ (runSeq (initial []) (manyGroups n)).nextReg = n ∧
      (runSeq (initial []) (manyGroups n)).groups = (List.range n).map fun i => (List.replicate i 97, i) := by
    induction n with
    | zero => exact ⟨rfl, rfl, rfl⟩
    | succ n ih =>
      have hs : manyGroups (n + 1) = manyGroups n ++ [.lookup ⟨.group (List.replicate n 97), .compass, { hash := [98] }⟩] := by
        simp [manyGroups, List.range_succ]
      rw [hs]
      unfold runSeq at ih ⊢
      rw [List.foldl_append]
      generalize List.foldl (fun s c => (exec s c).1) (initial []) (manyGroups n) = s at ih
      simp only [List.foldl_cons, List.foldl_nil]
      obtain ⟨h1, h2, h3⟩ := ih
      rw [exec_group s _ _ rfl]
      have hnone : s.groups.get? (List.replicate n 97) = none := get?_none_of (by
        rw [h3]
        intro h
        simp only [GoMap.keys, List.map_map, List.mem_map, List.mem_range, Function.comp] at h
        obtain ⟨i, hi, e⟩ := h
        have := congrArg List.length e
        simp at this
        omega)
      unfold getManaged
      rw [if_pos h1, hnone]
      have hg : ∀ (s : Mem) q r, (getOn s q r).1.enable = s.enable ∧ (getOn s q r).1.nextReg = s.nextReg ∧ (getOn s q r).1.groups = s.groups := by
        intro s q r
        unfold getOn
        split <;> exact ⟨rfl, rfl, rfl⟩
      obtain ⟨g1, g2, g3⟩ := hg { s.setReg s.nextReg { maxMetricCount := 5000 } with nextReg := s.nextReg + 1, groups := s.groups.set (List.replicate n 97) s.nextReg }
        ⟨.group (List.replicate n 97), .compass, { hash := [98] }⟩ s.nextReg
      refine ⟨g1.trans h1, g2.trans (by simp only; omega), g3.trans ?_⟩
      simp only
      rw [GoMap.set_of_none _ hnone, h3, h2, List.range_succ]
      simp
  obtain ⟨-, -, h3⟩ := key
  rw [h3]
  constructor
  · simp
  · simp only [List.map_map, Function.comp_def, List.map_id']
    exact List.nodup_range

/-- The concrete case: a compass for 5 buckets, with 2 error codes and 1 addon at most. -/
example : ((Whole.bucketUsed Rounding.exact 10000000000 5 2 1 0 0 0 0
    (.spawn (.update 100 ⟨true, "", ""⟩) :: List.replicate 60 (.step 0 ⟨0, 21000, (21000, 0)⟩))).shared.marks.shared.kept : Int) = 12 := by
  decide +kernel

end GoMetrics
