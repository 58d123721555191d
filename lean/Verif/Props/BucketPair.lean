import Verif.Proofs.BucketPair
import Verif.Props.BucketReader
import Verif.Props.Alone
import Verif.Proofs.FloatError
/-! # C97 — snapshots of a bucket compass while others update it -/
namespace GoMetrics
open Spec
namespace BucketPair
open BucketCounter (Call ReadPC Single single_run single_count SumInv CInv sumInv_run cinv_run sharedOk_new)

/-- The durations of the updates, in the order in which they began. -/
def durations (es : List Event) : List Int := es.filterMap fun e =>
  match e with
  | .inl (.spawn d) => some d
  | _ => none

/-- The readings of the clock in a schedule (a step that does not read the clock may be given any). -/
def readings (es : List Event) : List Int := es.filterMap fun e =>
  match e with
  | .inl (.step _ t) => some t
  | .inr x => some x.1
  | _ => none

/-- The events of the updates. -/
def updates (es : List Event) : List (Ev Int Int) := es.filterMap Sum.getLeft?

theorem after_snoc (I : Int) (N : Nat) (t1 t2 : Int) (es : List Event) (e : Event) :
    after I N t1 t2 (es ++ [e]) = eventStep I (after I N t1 t2 es) e := by simp [after]

theorem updates_append (es es' : List Event) : updates (es ++ es') = updates es ++ updates es' := by simp [updates]

theorem after_pool (I : Int) (N : Nat) (t1 t2 : Int) (es : List Event) :
    (after I N t1 t2 es).1 = conc.run (Machine.start (Shared.new I N t1 t2)) (updates es) := by
  induction es using List.reverseRecOn with
  | nil => rfl
  | append_singleton es e ih =>
    rw [after_snoc, updates_append]
    cases e with
    | inl e => simp only [eventStep, ih]; simp [updates, Machine.run_snoc]
    | inr t => simp only [eventStep, ih]; rw [show updates [(Sum.inr t : Event)] = [] from rfl, List.append_nil]

theorem step_reading {es : List Event} {i : Nat} {x : Int} (h : Ev.step i x ∈ updates es) : x ∈ readings es := by
  obtain ⟨e, he, hx⟩ := List.mem_filterMap.1 h
  cases e with
  | inl e =>
    obtain rfl : e = .step i x := by simpa using hx
    exact List.mem_filterMap.2 ⟨_, he, rfl⟩
  | inr y => simp at hx

/-- What holds of the two counters. -/
structure Facts (N : Nat) (J : Int) (p : Pool Shared Upd) : Prop where
  c1 : CInv N (countPool p)
  c2 : SumInv (countPool p)
  c3 : Single N J (countPool p)
  v1 : CInv N (valuePool p)
  v2 : SumInv (valuePool p)
  v3 : Single N J (valuePool p)
  ok : ∀ u ∈ p.calls, UpdOk u

theorem facts_run (I : Int) (N : Nat) (t1 t2 : Int) (J : Int) (hJ : 0 ≤ J) (es : List (Ev Int Int))
    (hes : ∀ i x, Ev.step i x ∈ es → BucketCounter.alignTimestamp I x = some J) : Facts N J (conc.run (Machine.start (Shared.new I N t1 t2)) es) := by
  obtain ⟨⟨ec, h1, h2⟩, ev, h3, h4⟩ := projections I N t1 t2 es
  refine ⟨?_, ?_, ?_, ?_, ?_, ?_, updOk_run _ es⟩
  · rw [h1]; exact cinv_run N _ (sharedOk_new I N t1 true) ec
  · rw [h1]; exact sumInv_run N I t1 true ec
  · rw [h1]; exact single_run I N t1 true J hJ ec (fun i x h => hes i x (h2 i x h))
  · rw [h3]; exact cinv_run N _ (sharedOk_new I N t2 true) ev
  · rw [h3]; exact sumInv_run N I t2 true ev
  · rw [h3]; exact single_run I N t2 true J hJ ev (fun i x h => hes i x (h4 i x h))

theorem ext_apply (p : Pool Shared Upd) (e : Ev Int Int) {N : Nat} (hc : CInv N (countPool p)) (hv : CInv N (valuePool p)) :
    p.shared.count.heap.length ≤ (conc.apply p e).shared.count.heap.length ∧ p.shared.value.heap.length ≤ (conc.apply p e).shared.value.heap.length := by
  cases e with
  | spawn d => exact ⟨le_rfl, le_rfl⟩
  | step i x =>
    cases h : p.calls[i]? with
    | none => rw [apply_none p i x h]; exact ⟨le_rfl, le_rfl⟩
    | some u =>
      rw [apply_some h x]
      have hu := List.mem_of_getElem? h
      unfold updStep
      split
      · exact ⟨le_rfl, (BucketCounter.callStep_ok (t := x) hv.shared (hv.calls u.value (List.mem_map.2 ⟨u, hu, rfl⟩))).2.1.len⟩
      · exact ⟨(BucketCounter.callStep_ok (t := x) hc.shared (hc.calls u.count (List.mem_map.2 ⟨u, hu, rfl⟩))).2.1.len, le_rfl⟩

/-- A value that a snapshot may have read: the durations of a set `A` of calls, all of them counted before; if not empty, `A` has the calls `F`. -/
def ValueOf (dur : Nat → Int) (F : Finset Nat) (p : Pool Shared Upd) (A : Finset Nat) (v : Int) : Prop :=
  v = i64 (∑ i ∈ A, dur i) ∧ (A = ∅ ∨ F ⊆ A) ∧ A ⊆ countedSet p

/-- A count that a snapshot may have read after such a value: the number of calls in a set `B`. -/
def CountOf (F : Finset Nat) (p : Pool Shared Upd) (A B : Finset Nat) (w : Int) : Prop :=
  w = i64 B.card ∧ F ⊆ B ∧ A ⊆ B ∧ B ⊆ countedSet p

/-- The invariant of a snapshot. -/
def SnapOk (dur : Nat → Int) (F : Finset Nat) (p : Pool Shared Upd) : SnapPC → Prop
  | .align => True
  | .value st r => -1000 < st ∧ Reads (fun v => ∃ A, ValueOf dur F p A v) p.shared.value r
  | .count st v r => -1000 < st ∧ ∃ A, ValueOf dur F p A v ∧ Reads (fun w => ∃ B, CountOf F p A B w) p.shared.count r
  | .done b => ∃ A, ValueOf dur F p A b.value ∧ (b.count = 0 ∨ ∃ B, CountOf F p A B b.count)
  | .panicked => True

theorem snapOk_apply {dur : Nat → Int} {F : Finset Nat} {p : Pool Shared Upd} {N : Nat} {J : Int} (hf : Facts N J p) (e : Ev Int Int) {pc : SnapPC}
    (h : SnapOk dur F p pc) : SnapOk dur F (conc.apply p e) pc := by
  obtain ⟨e1, e2⟩ := ext_apply p e hf.c1 hf.v1
  have hm := counted_mono p e
  have hV : ∀ A v, ValueOf dur F p A v → ValueOf dur F (conc.apply p e) A v := fun A v h => ⟨h.1, h.2.1, h.2.2.trans hm⟩
  have hC : ∀ A B w, CountOf F p A B w → CountOf F (conc.apply p e) A B w := fun A B w h => ⟨h.1, h.2.1, h.2.2.1, h.2.2.2.trans hm⟩
  cases pc with
  | align => trivial
  | value st r => exact ⟨h.1, h.2.mono e2 fun v ⟨A, hA⟩ => ⟨A, hV A v hA⟩⟩
  | count st v r =>
    obtain ⟨h1, A, h2, h3⟩ := h
    exact ⟨h1, A, hV A v h2, h3.mono e1 fun w ⟨B, hB⟩ => ⟨B, hC A B w hB⟩⟩
  | done b =>
    obtain ⟨A, h2, h3⟩ := h
    exact ⟨A, hV A _ h2, h3.imp id fun ⟨B, hB⟩ => ⟨B, hC A B _ hB⟩⟩
  | panicked => trivial

theorem snapOk_look {dur : Nat → Int} {F : Finset Nat} {p : Pool Shared Upd} {N : Nat} {J : Int} (hf : Facts N J p)
    (hdur : ∀ i u, p.calls[i]? = some u → u.value.n = dur i) (hF : F ⊆ valuedSet p) (I : Int) (x : Int × Nat)
    (hx : ∀ st, BucketReservoir.alignToBucketStartTimeInMs I x.1 = some st → -1000 < st) {pc : SnapPC}
    (h : SnapOk dur F p pc) : SnapOk dur F p (snapStep I p.shared x pc) := by
  have hsub := valued_sub p hf.ok
  have hsv : BucketCounter.SharedOk N p.shared.value := hf.v1.shared
  have hsc : BucketCounter.SharedOk N p.shared.count := hf.c1.shared
  have hreal : ∀ {q : Pool BucketCounter Call}, Single N J q → ∀ i, N < i → i < q.shared.heap.length → i = N + 1 := by
    intro q hs i h1 h2; have := hs.len; omega
  have hval : ∀ i, N < i → i < p.shared.value.heap.length → ∃ A, ValueOf dur F p A (p.shared.value.heap.at i).count := by
    intro i h1 h2
    have := hreal hf.v3 i h1 h2
    subst this
    have hc := single_count hf.v3 hf.v2
    refine ⟨valuedSet p, ?_, .inr hF, hsub⟩
    rw [← values_eq p dur hdur]
    exact hc
  have hcnt : ∀ A, A ⊆ countedSet p → ∀ i, N < i → i < p.shared.count.heap.length → ∃ B, CountOf F p A B (p.shared.count.heap.at i).count := by
    intro A hA i h1 h2
    have := hreal hf.c3 i h1 h2
    subst this
    have hc := single_count hf.c3 hf.c2
    refine ⟨countedSet p, ?_, hF.trans hsub, hA, subset_rfl⟩
    rw [← counts_eq p hf.ok]
    exact hc
  have h0 : ValueOf dur F p ∅ 0 := ⟨by simp, .inl rfl, by simp⟩
  cases pc with
  | align =>
    simp only [snapStep]
    cases ha : BucketReservoir.alignToBucketStartTimeInMs I x.1 with
    | none => trivial
    | some st => exact ⟨hx st ha, trivial⟩
  | value st r =>
    obtain ⟨h1, h2⟩ := h
    cases r with
    | done m =>
      refine ⟨h1, ?_⟩
      rcases AllV.fetch (P := fun v => ∃ A, ValueOf dur F p A v) (m := m) h2 x.2 with hz | ⟨A, hA⟩
      · rw [hz]; exact ⟨∅, h0, trivial⟩
      · exact ⟨A, hA, trivial⟩
    | panicked => trivial
    | _ => exact ⟨h1, reads_step (P := fun v => ∃ A, ValueOf dur F p A v) hsv st h1 hval x.1 h2⟩
  | count st v r =>
    obtain ⟨h1, A, h2, h3⟩ := h
    cases r with
    | done m => exact ⟨A, h2, AllV.fetch (P := fun w => ∃ B, CountOf F p A B w) (m := m) h3 x.2⟩
    | panicked => trivial
    | _ => exact ⟨h1, A, h2, reads_step (P := fun w => ∃ B, CountOf F p A B w) hsc st h1 (hcnt A h2.2.2) x.1 h3⟩
  | done b => exact h
  | panicked => trivial

/-- The calls that have returned. -/
def Returned (p : Pool Shared Upd) : Finset Nat := valuedSet p

theorem align_ok {I : Int} (hI : 1000000000 ≤ I) {t j : Int} (ht : 1000 ≤ t) (hj : slot (I / 1000000000) t = j) :
    BucketCounter.alignTimestamp I t = some (I / 1000000000 * j) := by
  obtain ⟨hw, h1⟩ := wholeSeconds_pos hI
  unfold BucketCounter.alignTimestamp secondToMsRate
  rw [if_neg (by omega), hw, Int.tdiv_eq_ediv_of_nonneg (by omega : 0 ≤ t), Int.tdiv_eq_ediv_of_nonneg (by omega)]
  unfold slot at hj
  rw [Int.ediv_ediv_of_nonneg (by norm_num), hj, mul_comm]

theorem slot_nonneg {S t j : Int} (hS : 1 ≤ S) (ht : 1000 ≤ t) (hj : slot S t = j) : 0 ≤ j := by
  rw [← hj]; exact Int.ediv_nonneg (by omega) (by omega)

theorem args_run (s : Shared) (es : List Event) : (conc.run (Machine.start s) (updates es)).calls.map (fun u => u.value.n) = durations es := by
  induction es using List.reverseRecOn with
  | nil => rfl
  | append_singleton es e ih =>
    rw [updates_append]
    unfold durations at *
    rw [List.filterMap_append, ← ih]
    cases e with
    | inr x => rw [show updates [(Sum.inr x : Event)] = [] from rfl]; simp
    | inl e =>
      rw [show updates [(Sum.inl e : Event)] = [e] from rfl, Machine.run_snoc]
      generalize conc.run (Machine.start s) (updates es) = p
      cases e with
      | spawn d => simp [Machine.apply, conc]
      | step i x =>
        cases h : p.calls[i]? with
        | none => rw [apply_none p i x h]; simp
        | some u =>
          rw [apply_some h x]
          simp only [List.map_set, updStep_arg, List.filterMap_cons, List.filterMap_nil, List.append_nil]
          exact set_self _ _ _ (by simp [h])

end BucketPair
open BucketPair

/-- **C97.** Any number of goroutines update a compass with a bucket reservoir while a snapshot is taken; all clock readings are in one interval (which may
begin anywhere from the second second of the clock's time on). Whatever the interleaving, the value of the snapshot is the sum of the durations of some
set `A` of the calls, all counted by then, and its count, if not 0, the number of calls in some set `B` that contains `A`. Calls that had returned
before the snapshot began are in `B` unless the count is 0, and in `A` unless `A` is empty. -/
theorem C97_snapshot (I : Int) (hI : 1000000000 ≤ I) (hI64 : InI64 I) (N : Nat) (t1 t2 : Int) (before : List (Ev Int Int)) (es : List Event) (j : Int)
    (htime : ∀ t ∈ readings (before.map .inl ++ es), 1000 ≤ t ∧ InI64 t ∧ slot (I / 1000000000) t = j) (b : BucketSnapshot)
    (hb : (after I N t1 t2 (before.map .inl ++ es)).2 = .done b) :
    let dur : Nat → Int := fun i => (durations (before.map .inl ++ es))[i]?.getD 0
    let returned : Nat → Prop := fun i => ∃ u ts p, (after I N t1 t2 (before.map .inl)).1.calls[i]? = some u ∧ u.value.pc = .done ts p
    ∃ A B : Finset Nat, A ⊆ B ∧ (∀ i ∈ B, i < (durations (before.map .inl ++ es)).length) ∧ b.value = i64 (∑ i ∈ A, dur i) ∧
      (A = ∅ ∨ ∀ i, returned i → i ∈ A) ∧ (b.count = 0 ∨ b.count = i64 B.card ∧ ∀ i, returned i → i ∈ B) := by
  intro dur returned
  obtain ⟨hw, hS⟩ := wholeSeconds_pos hI
  have hret : ∀ i, returned i → i ∈ valuedSet (after I N t1 t2 (before.map .inl)).1 := by
    rintro i ⟨u, ts, p, h1, h2⟩
    exact mem_those.2 ⟨u, h1, by simp [counted, h2]⟩
  have hstart : (after I N t1 t2 (before.map .inl)).2 = .align := by
    have : ∀ l : List (Ev Int Int), (after I N t1 t2 (l.map .inl)).2 = .align := by
      intro l
      induction l using List.reverseRecOn with
      | nil => rfl
      | append_singleton l e ih => rw [List.map_append, List.map_singleton, after_snoc]; exact ih
    exact this before
  -- the invariant
  have key : ∀ (es : List Event) (dur : Nat → Int), (∀ t ∈ readings (before.map .inl ++ es), 1000 ≤ t ∧ InI64 t ∧ slot (I / 1000000000) t = j) →
      (∀ i u, (after I N t1 t2 (before.map .inl ++ es)).1.calls[i]? = some u → u.value.n = dur i) →
      valuedSet (after I N t1 t2 (before.map .inl)).1 ⊆ valuedSet (after I N t1 t2 (before.map .inl ++ es)).1 ∧
      SnapOk dur (valuedSet (after I N t1 t2 (before.map .inl)).1) (after I N t1 t2 (before.map .inl ++ es)).1
        (after I N t1 t2 (before.map .inl ++ es)).2 := by
    intro es
    induction es using List.reverseRecOn with
    | nil =>
      intro dur _ _
      rw [List.append_nil, hstart]
      exact ⟨subset_rfl, trivial⟩
    | append_singleton es e ih =>
      intro dur ht hdur
      have ht0 : ∀ t ∈ readings (before.map .inl ++ es), 1000 ≤ t ∧ InI64 t ∧ slot (I / 1000000000) t = j := by
        intro t h
        apply ht
        rw [← List.append_assoc]
        unfold readings at h ⊢
        rw [List.filterMap_append]
        exact List.mem_append.2 (.inl h)
      rw [← List.append_assoc, after_snoc] at hdur ⊢
      have hpool := after_pool I N t1 t2 (before.map .inl ++ es)
      have hfacts : (j < 0 ∧ readings (before.map .inl ++ es) = []) ∨ ∃ J, 0 ≤ J ∧
          ∀ i x, Ev.step i x ∈ updates (before.map .inl ++ es) → BucketCounter.alignTimestamp I x = some J := by
        by_cases hj : 0 ≤ j
        · refine .inr ⟨I / 1000000000 * j, Int.mul_nonneg (by omega) hj, fun i x h => ?_⟩
          have := ht0 x (step_reading h)
          exact align_ok hI this.1 this.2.2
        · refine .inl ⟨by omega, ?_⟩
          rw [List.eq_nil_iff_forall_not_mem]
          intro t h
          have := ht0 t h
          exact hj (slot_nonneg hS this.1 this.2.2)
      have hf : ∃ J, Facts N J (after I N t1 t2 (before.map .inl ++ es)).1 := by
        rw [hpool]
        rcases hfacts with ⟨-, hnil⟩ | ⟨J, hJ, h⟩
        · refine ⟨0, facts_run I N t1 t2 0 le_rfl _ fun i x h => ?_⟩
          have := step_reading h
          rw [hnil] at this; simp at this
        · exact ⟨J, facts_run I N t1 t2 J hJ _ h⟩
      obtain ⟨J, hf⟩ := hf
      have hx : ∀ x k, e = .inr (x, k) → ∀ st, BucketReservoir.alignToBucketStartTimeInMs I x = some st → -1000 < st := by
        intro x k he st hst
        have := ht x (by
          rw [he]
          unfold readings
          simp)
        rw [align_window hI hI64 this.1 this.2.1] at hst
        rw [← Option.some.inj hst]
        omega
      generalize after I N t1 t2 (before.map .inl ++ es) = st at *
      obtain ⟨p, pc⟩ := st
      cases e with
      | inl e =>
        simp only [eventStep] at hdur ⊢
        have hdur0 : ∀ i u, p.calls[i]? = some u → u.value.n = dur i := by
          intro i u hu
          obtain ⟨u', h1, h2, -⟩ := getElem?_apply p e i u hu
          rw [← h2]; exact hdur i u' h1
        obtain ⟨i1, i2⟩ := ih dur ht0 hdur0
        exact ⟨i1.trans (valued_mono p e), snapOk_apply hf e i2⟩
      | inr x =>
        simp only [eventStep] at hdur ⊢
        obtain ⟨i1, i2⟩ := ih dur ht0 hdur
        exact ⟨i1, snapOk_look hf hdur i1 I x (hx x.1 x.2 rfl) i2⟩
  have hargs := args_run (Shared.new I N t1 t2) (before.map .inl ++ es)
  rw [← after_pool] at hargs
  obtain ⟨-, h⟩ := key es dur htime (by
    intro i u hu
    have : (durations (before.map .inl ++ es))[i]? = some u.value.n := by rw [← hargs, List.getElem?_map, hu]; rfl
    simp only [dur, this, Option.getD_some])
  rw [hb] at h
  obtain ⟨A, ⟨h1, h2, h3⟩, h4⟩ := h
  have hlt : ∀ i ∈ countedSet (after I N t1 t2 (before.map .inl ++ es)).1, i < (durations (before.map .inl ++ es)).length := by
    intro i hi
    obtain ⟨u, hu, -⟩ := mem_those.1 hi
    rw [← hargs, List.length_map]
    exact (List.getElem?_eq_some_iff.1 hu).1
  have hA : A = ∅ ∨ ∀ i, returned i → i ∈ A := by
    rcases h2 with h2 | h2
    · exact .inl h2
    · exact .inr fun i hi => h2 (hret i hi)
  clear key
  rcases h4 with h4 | ⟨B, h5, h6, h7, h8⟩
  · exact ⟨A, _, h3, hlt, h1, hA, Or.inl h4⟩
  · exact ⟨A, B, h7, fun i hi => hlt i (h8 hi), h1, hA, Or.inr ⟨h5, fun i hi => h6 (hret i hi)⟩⟩

/-- **C97.** So, while durations are between 0 and `D` (and sums stay below 2^53), the mean a snapshot shows is a number between 0 and `D`, at every moment:
a duration never shows in the mean before it has been counted. -/
theorem C97_mean (I : Int) (hI : 1000000000 ≤ I) (hI64 : InI64 I) (N : Nat) (t1 t2 : Int) (es : List Event) (j : Int)
    (htime : ∀ t ∈ readings es, 1000 ≤ t ∧ InI64 t ∧ slot (I / 1000000000) t = j) (D : Int) (hD : 0 ≤ D) (hdur : ∀ d ∈ durations es, 0 ≤ d ∧ d ≤ D)
    (hn : ((durations es).length : Int) < 2 ^ 53) (hsum : D * (durations es).length < 2 ^ 53) (b : BucketSnapshot) (hb : (after I N t1 t2 es).2 = .done b) :
    0 ≤ b.count ∧ b.count ≤ (durations es).length ∧ 0 ≤ b.value ∧ (b.count = 0 ∨ b.value ≤ D * b.count) ∧
      ∃ m : ℚ, b.getMean .binary64 = .ok (.fin m) ∧ 0 ≤ m ∧ m ≤ D := by
  obtain ⟨A, B, h1, h2, h3, -, h4⟩ := C97_snapshot I hI hI64 N t1 t2 [] es j htime b hb
  simp only [List.map_nil, List.nil_append] at h2 h3
  have hel : ∀ i : Nat, 0 ≤ (durations es)[i]?.getD 0 ∧ (durations es)[i]?.getD 0 ≤ D := by
    intro i
    cases hi : (durations es)[i]? with
    | none => simpa using hD
    | some d => exact hdur d (List.mem_of_getElem? hi)
  have hAB : A.card ≤ B.card := Finset.card_le_card h1
  have hBn : (B.card : Int) ≤ (durations es).length := by
    have : B ⊆ Finset.range (durations es).length := fun i hi => Finset.mem_range.2 (h2 i hi)
    have := Finset.card_le_card this
    rw [Finset.card_range] at this
    exact_mod_cast this
  have hA0 : 0 ≤ ∑ i ∈ A, (durations es)[i]?.getD 0 := Finset.sum_nonneg fun i _ => (hel i).1
  have hA1 : ∑ i ∈ A, (durations es)[i]?.getD 0 ≤ D * A.card := by
    have := Finset.sum_le_card_nsmul A (fun i => (durations es)[i]?.getD 0) D (fun i _ => (hel i).2)
    simpa [mul_comm] using this
  have hA2 : D * (A.card : Int) ≤ D * B.card := Int.mul_le_mul_of_nonneg_left (by exact_mod_cast hAB) hD
  have hA3 : D * (B.card : Int) ≤ D * (durations es).length := Int.mul_le_mul_of_nonneg_left hBn hD
  have h53 : (2 : Int) ^ 53 = 9007199254740992 := by norm_num
  rw [h53] at hn hsum
  rw [i64_of_in (by unfold InI64; omega)] at h3
  have hv0 : 0 ≤ b.value := by omega
  have hv1 : b.value < 9007199254740992 := by omega
  have hcase : 0 ≤ b.count ∧ b.count ≤ (durations es).length ∧ (b.count = 0 ∨ b.value ≤ D * b.count) := by
    rcases h4 with h4 | ⟨h4, -⟩
    · exact ⟨by omega, by omega, .inl h4⟩
    · rw [i64_of_in (by unfold InI64; omega)] at h4
      exact ⟨by omega, by omega, .inr (by rw [h4]; omega)⟩
  obtain ⟨hc0, hc1, hc2⟩ := hcase
  refine ⟨hc0, hc1, hv0, hc2, ?_⟩
  by_cases hz : b.count = 0
  · refine ⟨0, ?_, le_rfl, by exact_mod_cast hD⟩
    unfold BucketSnapshot.getMean
    rw [if_pos hz]
  · have hle : b.value ≤ D * b.count := hc2.resolve_left hz
    have hcpos : (0 : ℚ) < b.count := by exact_mod_cast (by omega : 0 < b.count)
    have hD1 : D ≤ D * (durations es).length := by
      have : D * 1 ≤ D * (durations es).length := Int.mul_le_mul_of_nonneg_left (by omega) hD
      omega
    have ev : Rounding.binary64.rnd (b.value : ℚ) = .fin b.value := Rounding.binary64_int (by rw [abs_of_nonneg hv0]; omega)
    have ec : Rounding.binary64.rnd (b.count : ℚ) = .fin b.count := Rounding.binary64_int (by rw [abs_of_nonneg hc0]; omega)
    have eD : Rounding.binary64.rnd (D : ℚ) = .fin D := Rounding.binary64_int (by rw [abs_of_nonneg hD]; omega)
    have hq0 : (0 : ℚ) ≤ (b.value : ℚ) / b.count := div_nonneg (by exact_mod_cast hv0) hcpos.le
    have hq1 : (b.value : ℚ) / b.count ≤ D := by rw [div_le_iff₀ hcpos]; exact_mod_cast hle
    obtain ⟨m, hm, hm0, hm1, -⟩ := Rounding.Lawful.between Rounding.binary64_lawful Rounding.binary64_lawful.zero eD hq0 hq1
    refine ⟨m, ?_, hm0, hm1⟩
    unfold BucketSnapshot.getMean F64.ofInt
    rw [if_neg hz, ev, ec]
    simp only [F64.div, if_neg hcpos.ne', hm]

namespace BucketPair
open BucketCounter (Call ReadPC)

/-- What an uninterrupted snapshot has done so far, on counters that do not change. -/
def LookOk (I : Int) (s : Shared) (xs : List (Int × Nat)) : SnapPC → Prop
  | .align => True
  | .value st r => ∃ a ∈ xs, BucketReservoir.alignToBucketStartTimeInMs I a.1 = some st ∧
      ∃ l : List Int, (∀ t ∈ l, ∃ k, (t, k) ∈ xs) ∧ r = l.foldl (fun r t => BucketCounter.readStep st s.value t r) .clock
  | .count st v r => ∃ a ∈ xs, BucketReservoir.alignToBucketStartTimeInMs I a.1 = some st ∧ ∃ c ∈ xs, ∃ m k,
      s.value.getBucketCountsSince c.1 st = some m ∧ v = BucketReservoir.fetchValueFromMap m k ∧
      ∃ l : List Int, (∀ t ∈ l, ∃ k, (t, k) ∈ xs) ∧ r = l.foldl (fun r t => BucketCounter.readStep st s.count t r) .clock
  | .done b => ∃ env : BucketReservoir.SnapEnv, (∃ a ∈ xs, a.1 = env.tAlign) ∧ (∃ a ∈ xs, a.1 = env.tValue) ∧ (∃ a ∈ xs, a.1 = env.tCount) ∧
      (⟨s.value, I⟩ : BucketReservoir).getSnapshot s.count env = some b
  | .panicked => ∃ env : BucketReservoir.SnapEnv, (∃ a ∈ xs, a.1 = env.tAlign) ∧ (⟨s.value, I⟩ : BucketReservoir).getSnapshot s.count env = none

theorem query_alone (b : BucketCounter) (st : Int) (l : List Int) (r : ReadPC)
    (hr : r = l.foldl (fun r t => BucketCounter.readStep st b t r) .clock) (hover : r.ended = true) :
    ∃ t ∈ l, r = match b.getBucketCountsSince t st with
      | none => .panicked
      | some m => .done m := by
  have e : ∀ (l : List Int) (c : ReadPC), (l.map Sum.inr).foldl (BucketCounter.watchStep st) ((⟨b, []⟩ : Pool BucketCounter Call), c) =
      (⟨b, []⟩, l.foldl (fun r t => BucketCounter.readStep st b t r) c) := by
    intro l
    induction l with
    | nil => intro c; rfl
    | cons t l ih => intro c; exact ih _
  have := C91_query (⟨b, []⟩ : Pool BucketCounter Call) st l (by rw [e, ← hr]; exact hover)
  rw [e, ← hr] at this
  exact this.2

theorem lookOk_step (I : Int) (s : Shared) (xs : List (Int × Nat)) (x : Int × Nat) (hx : x ∈ xs) (pc : SnapPC) (h : LookOk I s xs pc) :
    LookOk I s xs (snapStep I s x pc) := by
  cases pc with
  | align =>
    simp only [snapStep]
    cases ha : BucketReservoir.alignToBucketStartTimeInMs I x.1 with
    | none =>
      refine ⟨⟨x.1, 0, 0, 0, 0⟩, ⟨x, hx, rfl⟩, ?_⟩
      simp only [BucketReservoir.getSnapshot, ha]
    | some st => exact ⟨x, hx, ha, [], by simp, rfl⟩
  | value st r =>
    obtain ⟨a, ha, h1, l, h2, h3⟩ := h
    have hgo : LookOk I s xs (.value st (BucketCounter.readStep st s.value x.1 r)) := by
      refine ⟨a, ha, h1, l ++ [x.1], fun t ht => ?_, ?_⟩
      · rcases List.mem_append.1 ht with ht | ht
        · exact h2 t ht
        · rw [List.mem_singleton.1 ht]; exact ⟨x.2, hx⟩
      · rw [List.foldl_append, ← h3]; rfl
    cases r with
    | done m =>
      obtain ⟨t, ht, he⟩ := query_alone s.value st l _ h3 rfl
      obtain ⟨k, hk⟩ := h2 t ht
      refine ⟨a, ha, h1, (t, k), hk, m, x.2, ?_, rfl, [], by simp, rfl⟩
      cases hq : s.value.getBucketCountsSince t st with
      | none => rw [hq] at he; simp at he
      | some m' => rw [hq] at he; simp only [ReadPC.done.injEq] at he; rw [he]
    | panicked =>
      obtain ⟨t, ht, he⟩ := query_alone s.value st l _ h3 rfl
      refine ⟨⟨a.1, t, 0, 0, 0⟩, ⟨a, ha, rfl⟩, ?_⟩
      cases hq : s.value.getBucketCountsSince t st with
      | none => simp only [BucketReservoir.getSnapshot, h1, hq]
      | some m' => rw [hq] at he; simp at he
    | _ => exact hgo
  | count st v r =>
    obtain ⟨a, ha, h1, c, hc, m, k, h4, h5, l, h2, h3⟩ := h
    have hgo : LookOk I s xs (.count st v (BucketCounter.readStep st s.count x.1 r)) := by
      refine ⟨a, ha, h1, c, hc, m, k, h4, h5, l ++ [x.1], fun t ht => ?_, ?_⟩
      · rcases List.mem_append.1 ht with ht | ht
        · exact h2 t ht
        · rw [List.mem_singleton.1 ht]; exact ⟨x.2, hx⟩
      · rw [List.foldl_append, ← h3]; rfl
    cases r with
    | done m' =>
      obtain ⟨t, ht, he⟩ := query_alone s.count st l _ h3 rfl
      obtain ⟨k', hk'⟩ := h2 t ht
      refine ⟨⟨a.1, c.1, t, k, x.2⟩, ⟨a, ha, rfl⟩, ⟨c, hc, rfl⟩, ⟨_, hk', rfl⟩, ?_⟩
      cases hq : s.count.getBucketCountsSince t st with
      | none => rw [hq] at he; simp at he
      | some m'' =>
        rw [hq] at he; simp only [ReadPC.done.injEq] at he
        simp only [BucketReservoir.getSnapshot, h1, h4, hq, h5, he]
    | panicked =>
      obtain ⟨t, ht, he⟩ := query_alone s.count st l _ h3 rfl
      refine ⟨⟨a.1, c.1, t, 0, 0⟩, ⟨a, ha, rfl⟩, ?_⟩
      cases hq : s.count.getBucketCountsSince t st with
      | none => simp only [BucketReservoir.getSnapshot, h1, h4, hq]
      | some m' => rw [hq] at he; simp at he
    | _ => exact hgo
  | done b => exact h
  | panicked => exact h

theorem looks (I : Int) (p : Pool Shared Upd) (xs : List (Int × Nat)) :
    ((xs.map Sum.inr).foldl (eventStep I) (p, .align)).1 = p ∧ LookOk I p.shared xs ((xs.map Sum.inr).foldl (eventStep I) (p, .align)).2 := by
  have key : ∀ (l : List (Int × Nat)) (pc : SnapPC), (∀ x ∈ l, x ∈ xs) → LookOk I p.shared xs pc →
      ((l.map Sum.inr).foldl (eventStep I) (p, pc)).1 = p ∧ LookOk I p.shared xs ((l.map Sum.inr).foldl (eventStep I) (p, pc)).2 := by
    intro l
    induction l with
    | nil => intro pc _ h; exact ⟨rfl, h⟩
    | cons x l ih =>
      intro pc hl h
      exact ih _ (fun y hy => hl y (by simp [hy])) (lookOk_step I p.shared xs x (hl x (by simp)) pc h)
  exact key xs .align (fun _ h => h) trivial

end BucketPair

/-- **C97.** A snapshot that is not interrupted shows, and panics, as its sequential description says, at clock readings of its own steps. -/
theorem C97_uninterrupted (I : Int) (p : Pool Shared Upd) (xs : List (Int × Nat)) :
    ((xs.map Sum.inr).foldl (eventStep I) (p, .align)).1 = p ∧
    (∀ b, ((xs.map Sum.inr).foldl (eventStep I) (p, .align)).2 = .done b → ∃ env : BucketReservoir.SnapEnv, (∃ a ∈ xs, a.1 = env.tAlign) ∧
      (∃ a ∈ xs, a.1 = env.tValue) ∧ (∃ a ∈ xs, a.1 = env.tCount) ∧ (⟨p.shared.value, I⟩ : BucketReservoir).getSnapshot p.shared.count env = some b) ∧
    (((xs.map Sum.inr).foldl (eventStep I) (p, .align)).2 = .panicked → ∃ env : BucketReservoir.SnapEnv, (∃ a ∈ xs, a.1 = env.tAlign) ∧
      (⟨p.shared.value, I⟩ : BucketReservoir).getSnapshot p.shared.count env = none) := by
  obtain ⟨h1, h2⟩ := looks I p xs
  refine ⟨h1, fun b hb => ?_, fun hb => ?_⟩
  · rw [hb] at h2; exact h2
  · rw [hb] at h2; exact h2

namespace BucketPair

/-- A query of one counter all of whose updates were in one interval. -/
theorem single_query (I : Int) (hI : 1000000000 ≤ I) (N : Nat) (hN : 1 ≤ N) (t0 J : Int) (hJ : 0 ≤ J) (es : List (Ev Int Int))
    (hes : ∀ i x, Ev.step i x ∈ es → BucketCounter.alignTimestamp I x = some J) (hret : BucketCounter.AllReturned (BucketCounter.after I N t0 true es))
    (t st : Int) (ht : BucketCounter.alignTimestamp I t = some J) (hst : -1000 < st) (hst' : st ≤ 1000 * J) (m : GoMap Int Int)
    (hm : (BucketCounter.after I N t0 true es).shared.getBucketCountsSince t st = some m) (k : Nat) :
    BucketReservoir.fetchValueFromMap m k = i64 ((BucketCounter.after I N t0 true es).calls.map BucketCounter.Call.n).sum := by
  obtain ⟨hw, hS⟩ := wholeSeconds_pos hI
  have htake : ∀ n, ∀ i x, Ev.step i x ∈ es.take n → BucketCounter.alignTimestamp I x = some J := fun n i x h => hes i x (List.mem_of_mem_take h)
  obtain ⟨m', hm', hwf, hq⟩ := C12_no_race I N t0 true hI es (fun n => (BucketCounter.single_run I N t0 true J hJ _ (htake n)).one) hret t st hst
  obtain rfl : m' = m := by rw [hm] at hm'; exact (Option.some.inj hm').symm
  have hs := BucketCounter.single_run I N t0 true J hJ es hes
  have hc := BucketCounter.cinv_run N _ (BucketCounter.sharedOk_new I N t0 true) es
  have hsum := BucketCounter.sumInv_run N I t0 true es
  change BucketCounter.CInv N (BucketCounter.after I N t0 true es) at hc
  change BucketCounter.SumInv (BucketCounter.after I N t0 true es) at hsum
  have hnow : intervalStart (I / 1000000000) t = J := by
    unfold BucketCounter.alignTimestamp at ht
    rw [hw] at ht
    split at ht
    · cases ht
    · exact Option.some.inj ht
  rw [hnow] at hq
  generalize BucketCounter.after I N t0 true es = p at *
  -- every call was credited to the one bucket
  have hcall : ∀ c ∈ p.calls, ∃ ts, c.pc = .done ts (N + 1) := by
    intro c hcm
    obtain ⟨ts, q, hpc⟩ := hret c hcm
    have := hs.calls c hcm
    simp only [hpc] at this
    exact ⟨ts, by rw [hpc, this.2]⟩
  have hgot : p.calls.map BucketCounter.Call.got = p.calls.map BucketCounter.Call.n := by
    apply List.map_congr_left
    intro c hcm
    obtain ⟨ts, hpc⟩ := hcall c hcm
    simp [BucketCounter.Call.got, hpc]
  have hcred : ∀ ts, ts ∈ (BucketCounter.credits p).map Prod.fst → ts = J ∧ N + 1 < p.shared.heap.length := by
    intro ts hts
    obtain ⟨e, he, rfl⟩ := List.mem_map.1 hts
    obtain ⟨c, hcm, hce⟩ := List.mem_filterMap.1 he
    obtain ⟨ts', hpc⟩ := hcall c hcm
    have hok := hc.calls c hcm
    simp only [BucketCounter.CallOk, hpc] at hok
    simp only [BucketCounter.Call.credit, hpc, Option.some.injEq] at hce
    have := hs.ts hok
    unfold BucketCounter.tsOf at this
    rw [← hce]
    exact ⟨this, hok⟩
  have hval : ∀ c ∈ p.calls, i64 (amount (BucketCounter.credits p) J) = i64 (p.calls.map BucketCounter.Call.n).sum := by
    intro c hcm
    obtain ⟨ts', hpc⟩ := hcall c hcm
    have hok := hc.calls c hcm
    simp only [BucketCounter.CallOk, hpc] at hok
    have h1 := BucketCounter.amount_credits hc hsum hok (by omega)
    have h2 := hs.ts hok
    unfold BucketCounter.tsOf at h2
    rw [h2] at h1
    rw [← h1, BucketCounter.single_count hs hsum, hgot]
  rcases (fetch_spec hwf (BucketReservoir.fetchValueFromMap m' k)).1 ⟨k, rfl⟩ with ⟨hno, h0⟩ | ⟨key, hk⟩
  · -- nothing is reported: there was no call
    rw [h0]
    cases hcalls : p.calls with
    | nil => simp
    | cons c cs =>
      exfalso
      have hcm : c ∈ p.calls := by rw [hcalls]; simp
      obtain ⟨ts', hpc⟩ := hcall c hcm
      have hok := hc.calls c hcm
      simp only [BucketCounter.CallOk, hpc] at hok
      have h2 := hs.ts hok
      unfold BucketCounter.tsOf at h2
      refine hno (1000 * J) _ ((hq _ _).2 ⟨J, rfl, ⟨?_, hJ, ?_, hst', le_rfl⟩, rfl⟩)
      · exact List.mem_map.2 ⟨(J, c.n), List.mem_filterMap.2 ⟨c, hcm, by simp [BucketCounter.Call.credit, hpc, h2]⟩, rfl⟩
      · have : laterIntervals (BucketCounter.credits p) J = ∅ := by
          unfold laterIntervals
          rw [Finset.filter_eq_empty_iff]
          intro y hy
          rw [List.mem_toFinset] at hy
          rw [(hcred y hy).1]; omega
        rw [this]; simp; omega
  · obtain ⟨ts, -, hrep, hv⟩ := (hq _ _).1 hk
    rw [hv, (hcred ts hrep.1).1]
    obtain ⟨e, he, -⟩ := List.mem_map.1 hrep.1
    obtain ⟨c, hcm, -⟩ := List.mem_filterMap.1 he
    exact hval c hcm

end BucketPair

/-- **C97.** Once all updates are over, a snapshot shows exactly their number and the sum of their durations, whatever the interleaving of the updates was (all
clock readings still in one interval, and room for at least one bucket). -/
theorem C97_quiescent (I : Int) (hI : 1000000000 ≤ I) (hI64 : InI64 I) (N : Nat) (hN : 1 ≤ N) (t1 t2 : Int) (before : List (Ev Int Int)) (xs : List (Int × Nat))
    (j : Int) (htime : ∀ t ∈ readings (before.map .inl ++ xs.map .inr), 1000 ≤ t ∧ InI64 t ∧ slot (I / 1000000000) t = j)
    (hover : ∀ u ∈ (after I N t1 t2 (before.map .inl)).1.calls, ∃ ts p, u.value.pc = .done ts p) (b : BucketSnapshot)
    (hb : (after I N t1 t2 (before.map .inl ++ xs.map .inr)).2 = .done b) :
    b.count = i64 (durations (before.map .inl)).length ∧ b.value = i64 (durations (before.map .inl)).sum := by
  obtain ⟨hw, hS⟩ := wholeSeconds_pos hI
  have hstart : (after I N t1 t2 (before.map .inl)).2 = .align := by
    have : ∀ l : List (Ev Int Int), (after I N t1 t2 (l.map .inl)).2 = .align := by
      intro l
      induction l using List.reverseRecOn with
      | nil => rfl
      | append_singleton l e ih => rw [List.map_append, List.map_singleton, after_snoc]; exact ih
    exact this before
  have hsplit : after I N t1 t2 (before.map .inl ++ xs.map .inr) = (xs.map Sum.inr).foldl (eventStep I) ((after I N t1 t2 (before.map .inl)).1, .align) := by
    have e : after I N t1 t2 (before.map .inl) = ((after I N t1 t2 (before.map .inl)).1, .align) := Prod.ext rfl hstart
    rw [← e]
    unfold after
    rw [List.foldl_append]
  rw [hsplit] at hb
  obtain ⟨env, ⟨a, ha, hta⟩, ⟨v, hv, htv⟩, ⟨c, hc, htc⟩, hsnap⟩ := (C97_uninterrupted I _ xs).2.1 b hb
  have hx : ∀ a ∈ xs, 1000 ≤ a.1 ∧ InI64 a.1 ∧ slot (I / 1000000000) a.1 = j := by
    intro a ha
    apply htime
    unfold readings
    rw [List.filterMap_append]
    exact List.mem_append.2 (.inr (List.mem_filterMap.2 ⟨.inr a, List.mem_map.2 ⟨a, ha, rfl⟩, rfl⟩))
  have hj : 0 ≤ j := slot_nonneg hS (hx a ha).1 (hx a ha).2.2
  have hJ : 0 ≤ I / 1000000000 * j := Int.mul_nonneg (by omega) hj
  have hes : ∀ i x, Ev.step i x ∈ updates (before.map .inl) → BucketCounter.alignTimestamp I x = some (I / 1000000000 * j) := by
    intro i x h
    have h := step_reading h
    have := htime x (by
      unfold readings at h ⊢
      rw [List.filterMap_append]
      exact List.mem_append.2 (.inl h))
    exact align_ok hI this.1 this.2.2
  have hpool := after_pool I N t1 t2 (before.map .inl)
  have hargs := args_run (Shared.new I N t1 t2) (before.map .inl)
  have hok := updOk_run (Shared.new I N t1 t2) (updates (before.map .inl))
  obtain ⟨⟨ec, hec, hec'⟩, ev, hev, hev'⟩ := projections I N t1 t2 (updates (before.map .inl))
  rw [← hpool] at hargs hok hec hev
  generalize (after I N t1 t2 (before.map .inl)).1 = p at *
  -- both inner calls of every update have returned
  have hrv : BucketCounter.AllReturned (valuePool p) := by
    intro c hc
    obtain ⟨u, hu, rfl⟩ := List.mem_map.1 hc
    obtain ⟨ts, q, h⟩ := hover u hu
    exact ⟨ts, q, h⟩
  have hrc : BucketCounter.AllReturned (countPool p) := by
    intro c hc
    obtain ⟨u, hu, rfl⟩ := List.mem_map.1 hc
    obtain ⟨ts, q, h⟩ := hover u hu
    have h2 := (hok u hu).2
    rw [h] at h2
    cases hcc : counted u.count with
    | false => have := h2 hcc; simp at this
    | true =>
      unfold counted at hcc
      cases hpc : u.count.pc with
      | done ts q => exact ⟨ts, q, hpc⟩
      | _ => rw [hpc] at hcc; simp at hcc
  -- what the snapshot read
  unfold BucketReservoir.getSnapshot at hsnap
  have hal : BucketReservoir.alignToBucketStartTimeInMs I env.tAlign =
      some (max 0 (1000 * (I / 1000000000) * j - 1000 * (I / 1000000000))) := by
    rw [← hta, align_window hI hI64 (hx a ha).1 (hx a ha).2.1, (hx a ha).2.2]
  simp only [hal] at hsnap
  have hst : max 0 (1000 * (I / 1000000000) * j - 1000 * (I / 1000000000)) ≤ 1000 * (I / 1000000000 * j) := by
    have : 1000 * (I / 1000000000) * j = 1000 * (I / 1000000000 * j) := by ring
    omega
  have hst0 : -1000 < max 0 (1000 * (I / 1000000000) * j - 1000 * (I / 1000000000)) := by omega
  generalize max 0 (1000 * (I / 1000000000) * j - 1000 * (I / 1000000000)) = st at hsnap hst hst0
  cases hm1 : p.shared.value.getBucketCountsSince env.tValue st with
  | none => rw [hm1] at hsnap; simp at hsnap
  | some m1 =>
    cases hm2 : p.shared.count.getBucketCountsSince env.tCount st with
    | none => rw [hm1, hm2] at hsnap; simp at hsnap
    | some m2 =>
      rw [hm1, hm2] at hsnap
      simp only [Option.some.injEq] at hsnap
      have k1 := single_query I hI N hN t2 _ hJ ev (fun i x h => hes i x (hev' i x h)) (by rw [← hev]; exact hrv) env.tValue st
        (by rw [← htv]; exact align_ok hI (hx v hv).1 (hx v hv).2.2) hst0 hst m1 (by rw [← hev]; exact hm1) env.pickValue
      have k2 := single_query I hI N hN t1 _ hJ ec (fun i x h => hes i x (hec' i x h)) (by rw [← hec]; exact hrc) env.tCount st
        (by rw [← htc]; exact align_ok hI (hx c hc).1 (hx c hc).2.2) hst0 hst m2 (by rw [← hec]; exact hm2) env.pickCount
      rw [← hev] at k1
      rw [← hec] at k2
      rw [← hsnap]
      constructor
      · simp only [k2, countPool, List.map_map]
        congr 1
        rw [← hargs, List.length_map]
        have : p.calls.map (BucketCounter.Call.n ∘ Upd.count) = p.calls.map fun _ => 1 := List.map_congr_left fun u hu => (hok u hu).1
        rw [this]; simp
      · simp only [k1, valuePool, List.map_map]
        rw [← hargs]; rfl

namespace BucketPair
/-- Update number `i` as a whole, at clock reading `t`. -/
def whole (i : Nat) (d t : Int) : List (Ev Int Int) := .spawn d :: List.replicate 20 (.step i t)

/-- A snapshot as a whole, at clock reading `t`. -/
def look (t : Int) : List Event := List.replicate 40 (.inr (t, 0))

/-- A snapshot between the two halves of an update: update 0 is over, update 1 has been counted and has not added its duration. -/
def halfway : List Event := (whole 0 100 21000).map .inl ++ (.inl (.spawn 100) :: List.replicate 5 (.inl (.step 1 22000))) ++ look 23000

/-- Update 0 has made the bucket of its interval and has not linked it into the ring; update 1 finds the bucket and returns; then a snapshot. -/
def unlinked : List (Ev Int Int) :=
  .spawn 100 :: List.replicate 4 (.step 0 21000) ++ .spawn 100 :: List.replicate 20 (.step 1 22000)

/-- Update 0 is counted in interval 10 and adds its duration in interval 20; update 1 does both in interval 20. -/
def straddling : List (Ev Int Int) := .spawn 100 :: List.replicate 9 (.step 0 19000) ++ List.replicate 9 (.step 0 20000) ++ whole 1 100 21000
end BucketPair

/-- **C97.** The mean may be too small for a moment: two updates of 100 each, and a snapshot after the second was counted shows a mean of 50. -/
theorem C97_too_small_refuted : durations halfway = [100, 100] ∧ (∀ t ∈ readings halfway, slot 10 t = 2) ∧
    (after 10000000000 5 0 0 halfway).2 = .done ⟨2, 100⟩ := by decide +kernel

/-- **C97.** A snapshot may miss an update that had returned before it began, although all is in one interval: the bucket exists, but another goroutine has
not linked it yet. -/
theorem C97_missed_refuted : (∃ u ts p, (after 10000000000 5 0 0 (unlinked.map .inl)).1.calls[1]? = some u ∧ u.value.pc = .done ts p) ∧
    (∀ t ∈ readings (unlinked.map .inl ++ look 23000), slot 10 t = 2) ∧ (after 10000000000 5 0 0 (unlinked.map .inl ++ look 23000)).2 = .done ⟨0, 100⟩ := by
  refine ⟨⟨⟨⟨1, .done 20 6⟩, ⟨100, .done 20 6⟩⟩, 20, 6, ?_⟩, ?_⟩ <;> decide +kernel

/-- **C97.** The restriction to one interval is needed: an update that begins at the end of an interval is counted there and adds its duration to the next
one. Two updates of 100 each; when both are over a snapshot shows one call and a mean of 200, even if it picks the same interval of both counters. -/
theorem C97_straddle_refuted : durations (straddling.map .inl) = [100, 100] ∧
    (∀ u ∈ (after 10000000000 5 0 0 (straddling.map .inl)).1.calls, BucketPair.counted u.value = true) ∧
    (after 10000000000 5 0 0 (straddling.map .inl ++ look 23000)).2 = .done ⟨1, 200⟩ := by decide +kernel

/-- The hypotheses of `C97_quiescent` (and of the others) are met: two updates interleaved step by step, then a snapshot. -/
example : let before : List (Ev Int Int) := [.spawn 100, .spawn 250] ++ (List.replicate 20 [.step 0 21000, .step 1 22000]).flatten
    durations (before.map .inl) = [100, 250] ∧ (∀ t ∈ readings (before.map .inl ++ look 23000), 1000 ≤ t ∧ slot 10 t = 2) ∧
    (∀ u ∈ (after 10000000000 5 0 0 (before.map .inl)).1.calls, counted u.value = true) ∧
    (after 10000000000 5 0 0 (before.map .inl ++ look 23000)).2 = .done ⟨2, 350⟩ := by decide +kernel

end GoMetrics
