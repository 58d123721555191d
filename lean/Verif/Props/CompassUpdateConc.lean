import Verif.Proofs.CompassUpdateConc
import Verif.Props.BucketsConc
import Verif.Proofs.Pool
/-! # C83: a compass used by many goroutines

Every theorem quantifies over every schedule `es` of any number of `UpdateWithError` calls (`Update` is the case without success, error code
and addon). -/
namespace GoMetrics
namespace CompassConc
open BucketCounter (callStep Call conc)

/-- A fresh compass (limits `maxErr`, `maxAdd`) after the schedule `es`. -/
def marked (I : Int) (n : Nat) (maxErr maxAdd t1 t2 : Int) (es : List (Ev MarkArg Int)) : Pool Marks Mark :=
  marking.run (Machine.start (Marks.new I n maxErr maxAdd t1 t2)) es

/-- The call is over: it returned, or it panicked because of its label for map `w`. -/
def Mark.finished (m : Mark) : Bool :=
  match m.pc with
  | .done => true
  | .panicked _ => true
  | _ => false

theorem align_some {I : Int} (hI : 1000000000 ≤ I) (t : Int) : BucketCounter.alignTimestamp I t ≠ none := by
  unfold BucketCounter.alignTimestamp
  have : wholeSeconds I ≠ 0 := by
    unfold wholeSeconds
    rw [Int.tdiv_eq_ediv_of_nonneg (by omega)]; omega
  rw [if_neg this]; simp

theorem callStep_alive {b : BucketCounter} {t : Int} {c : Call} (hI : 1000000000 ≤ b.interval) (hc : c.pc ≠ .panicked) :
    (callStep b t c).2.pc ≠ .panicked := by
  unfold callStep
  cases hpc : c.pc <;> simp only
  case clock =>
    have := align_some hI t
    split
    · contradiction
    · simp
  case panicked => exact absurd hpc hc
  case done => rw [hpc]; simp
  all_goals (repeat' split) <;> simp

theorem sim_const {I n t0 sel view b ms} (h : Sim I n t0 sel view b ms) : b.interval = I := by
  obtain ⟨es, rfl, -⟩ := h
  apply BucketCounter.inv_run_start (Inv := fun p => p.shared.interval = I) n _ (BucketCounter.sharedOk_new I n t0 true)
  · rfl
  · intro s cs a _ h; exact h
  · intro s pre c post x _ h
    simp only [(BucketCounter.callStep_const s x c).2.1]; exact h

/-- No division by zero happened or is about to. -/
def MarkPC.alive : MarkPC → Prop
  | .total c => c.pc ≠ .panicked
  | .success c => c.pc ≠ .panicked
  | .hit _ c => c.pc ≠ .panicked
  | .crashed => False
  | _ => True

theorem alive_atAddon (a) : (atAddon a).alive := by unfold atAddon; split <;> trivial
theorem alive_atError (a) : (atError a).alive := by unfold atError; split; trivial; exact alive_atAddon a
theorem alive_atSuccess (a) : (atSuccess a).alive := by
  unfold atSuccess; split
  · exact fun h => by cases h
  · exact alive_atError a
theorem alive_afterHit (a w) : (afterHit a w).alive := by cases w; exact alive_atAddon a; trivial
theorem alive_follow {c : Call} {go : Call → MarkPC} {next : MarkPC} (hc : c.pc ≠ .panicked) (hgo : (go c).alive) (hn : next.alive) :
    (follow c go next).alive := by
  rcases follow_cases c go next with ⟨-, h⟩ | ⟨h', h⟩ | h
  · rw [h]; exact hn
  · exact absurd h' hc
  · rw [h]; exact hgo

theorem alive_run (I : Int) (hI : 1000000000 ≤ I) (n : Nat) (maxErr maxAdd t1 t2 : Int) (es : List (Ev MarkArg Int)) :
    ∀ m ∈ (marked I n maxErr maxAdd t1 t2 es).calls, m.pc.alive := by
  induction es using List.reverseRecOn with
  | nil => simp [marked, Machine.run, Machine.start]
  | append_singleton es e ih =>
    have hinv : MInv I n maxErr maxAdd t1 t2 (marked I n maxErr maxAdd t1 t2 es) := minv_run I n maxErr maxAdd t1 t2 es
    rw [show marked I n maxErr maxAdd t1 t2 (es ++ [e]) = marking.apply (marked I n maxErr maxAdd t1 t2 es) e from Machine.run_snoc _ _ _ _]
    cases e with
    | spawn a =>
      intro m hm
      rcases List.mem_append.1 hm with g | g
      · exact ih m g
      · rw [List.mem_singleton.1 g]; exact fun h => by cases h
    | step i t =>
      generalize marked I n maxErr maxAdd t1 t2 es = p at ih hinv
      cases hc : p.calls[i]? with
      | none => simp only [Machine.apply, hc]; exact ih
      | some m =>
        obtain ⟨pre, post, h1, -, h2⟩ := marking.apply_step_eq (x := t) hc
        rw [h2]
        intro x hx
        have hm := ih m (by rw [h1]; simp)
        rcases List.mem_append.1 hx with g | g
        on_goal 2 => rcases List.mem_cons.1 g with rfl | g
        · exact ih x (by rw [h1]; simp [g])
        · change (markStep p.shared t m).2.pc.alive
          unfold markStep
          cases hpc : m.pc with
          | total c =>
            rw [hpc] at hm
            have := callStep_alive (t := t) (by rw [sim_const hinv.total]; exact hI) hm
            exact alive_follow this this (alive_atSuccess _)
          | success c =>
            rw [hpc] at hm
            have := callStep_alive (t := t) (by rw [sim_const hinv.success]; exact hI) hm
            exact alive_follow this this (alive_atError _)
          | hit w c =>
            rw [hpc] at hm
            simp only
            have hl := (hinv.lab w).loc m (by rw [h1]; simp)
            rw [hpc, show stage w (.hit w c) = .hit c by cases w <;> rfl] at hl
            cases hg : (p.shared.lab w).counters.get? (m.arg.label w) with
            | none => exact absurd hg hl.2
            | some b =>
              obtain ⟨t0, hb⟩ := (hinv.lab w).sim _ b hg
              have := callStep_alive (t := t) (by rw [sim_const hb]; exact hI) hm
              exact alive_follow this this (alive_afterHit _ _)
          | lock w => simp only; split; rw [hpc]; trivial; trivial
          | find w => simp only; (repeat' split) <;> trivial
          | make w => trivial
          | insert w b => trivial
          | unlock w f =>
            simp only; split
            · exact fun h => by cases h
            · trivial
          | done => simp only; rw [hpc]; trivial
          | panicked w => simp only; rw [hpc]; trivial
          | crashed => rw [hpc] at hm; exact hm.elim
        · exact ih x (by rw [h1]; simp [g])

def View.isOver : View → Bool
  | .over => true
  | _ => false
def View.touched : View → Bool
  | .before => false
  | _ => true

theorem over_before : View.before.isOver = false := rfl
theorem over_inside (c) : (View.inside c).isOver = false := rfl
theorem over_over : View.over.isOver = true := rfl
theorem touched_before : View.before.touched = false := rfl
theorem touched_inside (c) : (View.inside c).touched = true := rfl
theorem touched_over : View.over.touched = true := rfl

/-- What a counter says, from what the calls have done to it. -/
theorem sim_count {I n t0 sel view b ms} (h : Sim I n t0 sel view b ms) (hdead : ∀ m ∈ ms, view m ≠ .dead)
    (hone : ∀ m ∈ ms, ∀ c, view m = .inside c → c.n = 1) :
    ∃ j : Nat, b.getCount = i64 j ∧ ms.countP (fun m => sel m && (view m).isOver) ≤ j ∧ j ≤ ms.countP (fun m => sel m && (view m).touched) := by
  obtain ⟨es, rfl, h2⟩ := h
  have hs := BucketCounter.sumInv_run n I t0 true es
  have hf : (conc.run (Machine.start (BucketCounter.new I n t0 true)) es).shared.updateTotalCount = true := by
    apply BucketCounter.inv_run_start (Inv := fun p => p.shared.updateTotalCount = true) n _ (BucketCounter.sharedOk_new I n t0 true)
    · rfl
    · intro s cs a _ h; exact h
    · intro s pre c post x _ h
      simp only [(BucketCounter.callStep_const s x c).1]; exact h
  have ht := hs.total
  rw [hf, if_pos rfl] at ht
  rw [ht]
  clear ht hf hs
  generalize (conc.run (Machine.start (BucketCounter.new I n t0 true)) es).calls = cs at h2
  have key : ∃ j : Nat, (cs.map Call.totalled).sum = j ∧ (ms.filter sel).countP (fun m => (view m).isOver) ≤ j ∧
      j ≤ (ms.filter sel).countP (fun m => (view m).touched) := by
    have hdead' : ∀ m ∈ ms.filter sel, view m ≠ .dead := fun m hm => hdead m (List.mem_filter.1 hm).1
    have hone' : ∀ m ∈ ms.filter sel, ∀ c, view m = .inside c → c.n = 1 := fun m hm => hone m (List.mem_filter.1 hm).1
    generalize ms.filter sel = l at h2 hdead' hone'
    induction h2 with
    | nil => exact ⟨0, by simp⟩
    | @cons m c ms cs h1 h2 ih =>
      obtain ⟨j, g1, g2, g3⟩ := ih (fun m hm => hdead' m (by simp [hm])) (fun m hm => hone' m (by simp [hm]))
      have hd := hdead' m (by simp)
      have ho := hone' m (by simp)
      rw [List.map_cons, List.sum_cons, g1, List.countP_cons, List.countP_cons]
      cases hv : view m with
      | before =>
        rw [hv] at h1; cases h1
        simp only [over_before, touched_before, Bool.false_eq_true, if_false]
        exact ⟨j, by simp [Call.totalled], g2, g3⟩
      | inside c' =>
        rw [hv] at h1; cases h1
        have := ho c hv
        simp only [over_inside, touched_inside, Bool.false_eq_true, if_false, if_true]
        have ht : c.totalled = 0 ∨ c.totalled = 1 := by
          unfold Call.totalled
          cases c.pc <;> simp [this]
        rcases ht with ht | ht
        · exact ⟨j, by rw [ht]; simp, by omega, by omega⟩
        · exact ⟨j + 1, by rw [ht]; push_cast; ring, by omega, by omega⟩
      | over =>
        rw [hv] at h1
        obtain ⟨h1, ts, p, h3⟩ := h1
        simp only [over_over, touched_over, if_true]
        have ht : c.totalled = 1 := by unfold Call.totalled; rw [h3]; exact h1
        exact ⟨j + 1, by rw [ht]; push_cast; ring, by omega, by omega⟩
      | dead => exact absurd hv hd
  obtain ⟨j, g1, g2, g3⟩ := key
  rw [List.countP_filter] at g2 g3
  refine ⟨j, by rw [g1], ?_, ?_⟩
  · refine le_trans (le_of_eq ?_) g2
    congr 1; funext m; exact Bool.and_comm _ _
  · refine le_trans g3 (le_of_eq ?_)
    congr 1; funext m; exact Bool.and_comm _ _

theorem alive_total {pc : MarkPC} (h : pc.alive) : viewTotal pc ≠ .dead := by cases pc <;> simp [viewTotal]; exact h
theorem alive_success {pc : MarkPC} (h : pc.alive) : viewSuccess pc ≠ .dead := by cases pc <;> simp [viewSuccess]; exact h
theorem alive_stage {pc : MarkPC} (h : pc.alive) (w : Bool) : (stage w pc).view ≠ .dead := by
  cases pc with
  | crashed => exact h.elim
  | total c => cases w <;> exact fun h => by cases h
  | success c => cases w <;> exact fun h => by cases h
  | done => cases w <;> exact fun h => by cases h
  | lock w' => cases w <;> cases w' <;> exact fun h => by cases h
  | find w' => cases w <;> cases w' <;> exact fun h => by cases h
  | make w' => cases w <;> cases w' <;> exact fun h => by cases h
  | insert w' b => cases w <;> cases w' <;> exact fun h => by cases h
  | unlock w' f => cases w <;> cases w' <;> exact fun h => by cases h
  | hit w' c => cases w <;> cases w' <;> exact fun h => by cases h
  | panicked w' => cases w <;> cases w' <;> exact fun h => by cases h

theorem inside_stage {pc : MarkPC} (h : pc.one) (w : Bool) (c : Call) (hc : (stage w pc).view = .inside c) : c.n = 1 := by
  cases pc with
  | crashed => cases w <;> cases hc
  | total c' => cases w <;> cases hc
  | success c' => cases w <;> cases hc
  | done => cases w <;> cases hc
  | lock w' => cases w <;> cases w' <;> cases hc
  | find w' => cases w <;> cases w' <;> cases hc
  | make w' => cases w <;> cases w' <;> cases hc
  | insert w' b => cases w <;> cases w' <;> cases hc
  | unlock w' f => cases w <;> cases w' <;> cases hc
  | hit w' c' => cases w <;> cases w' <;> cases hc <;> exact h
  | panicked w' => cases w <;> cases w' <;> cases hc

theorem inside_total {pc : MarkPC} (h : pc.one) (c : Call) (hc : viewTotal pc = .inside c) : c.n = 1 := by
  cases pc <;> cases hc; exact h
theorem inside_success {pc : MarkPC} (h : pc.one) (c : Call) (hc : viewSuccess pc = .inside c) : c.n = 1 := by
  cases pc <;> cases hc; exact h

end CompassConc
open CompassConc

/-- **C83.** At every moment, the total count is at least the number of `Update`s and `UpdateWithError`s that are over and at most the
number that have started, the success count likewise among the calls with `isSuccess`, and the count of an error code or addon likewise
among the calls that carry it (a call that panicked for its error code does not reach its addon): no call is lost or counted twice. -/
theorem C83_counts (I : Int) (hI : 1000000000 ≤ I) (n : Nat) (maxErr maxAdd t1 t2 : Int) (es : List (Ev MarkArg Int)) :
    let p := marked I n maxErr maxAdd t1 t2 es
    (∃ j : Nat, p.shared.total.getCount = i64 j ∧ p.calls.countP Mark.finished ≤ j ∧ j ≤ p.calls.length) ∧
    (∃ j : Nat, p.shared.success.getCount = i64 j ∧ p.calls.countP (fun m => m.finished && m.arg.isSuccess) ≤ j ∧
      j ≤ p.calls.countP (fun m => m.arg.isSuccess)) ∧
    (∀ code b, (p.shared.lab false).counters.get? code = some b → ∃ j : Nat, b.getCount = i64 j ∧
      p.calls.countP (fun m => m.finished && decide (m.arg.errorCode = code)) ≤ j ∧ j ≤ p.calls.countP (fun m => m.arg.errorCode = code)) ∧
    (∀ addon b, (p.shared.lab true).counters.get? addon = some b → ∃ j : Nat, b.getCount = i64 j ∧
      p.calls.countP (fun m => decide (m.pc = .done) && decide (m.arg.addon = addon)) ≤ j ∧
      j ≤ p.calls.countP (fun m => m.arg.addon = addon ∧ m.pc ≠ .panicked false)) := by
  intro p
  have h := minv_run I n maxErr maxAdd t1 t2 es
  have ha := alive_run I hI n maxErr maxAdd t1 t2 es
  change MInv I n maxErr maxAdd t1 t2 p at h
  change ∀ m ∈ p.calls, m.pc.alive at ha
  refine ⟨?_, ?_, ?_, ?_⟩
  · obtain ⟨j, g1, g2, g3⟩ := sim_count h.total (fun m hm => alive_total (ha m hm)) (fun m hm => inside_total (h.one m hm))
    refine ⟨j, g1, le_trans (List.countP_mono_left ?_) g2, le_trans g3 (List.countP_le_length)⟩
    intro m _ hm
    obtain ⟨a, pc⟩ := m
    cases pc <;> simp [Mark.finished] at hm <;> rfl
  · obtain ⟨j, g1, g2, g3⟩ := sim_count h.success (fun m hm => alive_success (ha m hm)) (fun m hm => inside_success (h.one m hm))
    refine ⟨j, g1, le_trans (List.countP_mono_left ?_) g2, le_trans g3 (List.countP_mono_left ?_)⟩
    · intro m _ hm
      rw [Bool.and_eq_true] at hm ⊢
      refine ⟨hm.2, ?_⟩
      obtain ⟨a, pc⟩ := m
      cases pc <;> simp [Mark.finished] at hm <;> rfl
    · intro m _ hm
      rw [Bool.and_eq_true] at hm
      exact hm.1
  · intro k b hb
    obtain ⟨t0, hs⟩ := (h.lab false).sim k b hb
    obtain ⟨j, g1, g2, g3⟩ := sim_count hs (fun m hm => alive_stage (ha m hm) false) (fun m hm => inside_stage (h.one m hm) false)
    refine ⟨j, g1, le_trans (List.countP_mono_left ?_) g2, le_trans g3 (List.countP_mono_left ?_)⟩
    · intro m hm hf
      rw [Bool.and_eq_true] at hf ⊢
      refine ⟨hf.2, ?_⟩
      have hl := (h.lab false).loc m hm
      have hk : m.arg.errorCode = k := by simpa using hf.2
      simp only [MarkArg.label, hk] at hl
      obtain ⟨a, pc⟩ := m
      cases pc <;> simp [Mark.finished] at hf
      · rfl
      · rename_i w
        cases w
        · exact absurd hl.2.1 (by rw [hb]; simp)
        · rfl
    · intro m _ hm
      rw [Bool.and_eq_true] at hm
      exact hm.1
  · intro k b hb
    obtain ⟨t0, hs⟩ := (h.lab true).sim k b hb
    obtain ⟨j, g1, g2, g3⟩ := sim_count hs (fun m hm => alive_stage (ha m hm) true) (fun m hm => inside_stage (h.one m hm) true)
    refine ⟨j, g1, le_trans (List.countP_mono_left ?_) g2, le_trans g3 (List.countP_mono_left ?_)⟩
    · intro m hm hf
      rw [Bool.and_eq_true] at hf ⊢
      refine ⟨hf.2, ?_⟩
      have : m.pc = .done := by simpa using hf.1
      rw [this]; rfl
    · intro m _ hm
      rw [Bool.and_eq_true] at hm
      have h1 : m.arg.addon = k := of_decide_eq_true hm.1
      simp only [decide_eq_true_eq]
      refine ⟨h1, fun e => ?_⟩
      rw [e] at hm; exact absurd hm.2 (by decide)

/-- **C83.** A call that is over panicked exactly when its error code has no counter, or its error code is fine and its addon has none; and
then that map is full. (The maps are those of the moment, however much later it is.) -/
theorem C83_panics_iff (I : Int) (n : Nat) (maxErr maxAdd t1 t2 : Int) (es : List (Ev MarkArg Int)) :
    let p := marked I n maxErr maxAdd t1 t2 es
    ∀ m ∈ p.calls, m.finished = true →
      (m.pc = .panicked false ↔ m.arg.errorCode ≠ "" ∧ m.arg.errorCode ∉ (p.shared.lab false).counters.keys) ∧
      (m.pc = .panicked true ↔ (m.arg.errorCode = "" ∨ m.arg.errorCode ∈ (p.shared.lab false).counters.keys) ∧
        m.arg.addon ≠ "" ∧ m.arg.addon ∉ (p.shared.lab true).counters.keys) ∧
      (m.pc = .panicked false → maxErr ≤ (p.shared.lab false).counters.length) ∧
      (m.pc = .panicked true → maxAdd ≤ (p.shared.lab true).counters.length) := by
  intro p m hm hf
  have h := minv_run I n maxErr maxAdd t1 t2 es
  change MInv I n maxErr maxAdd t1 t2 p at h
  have l1 := (h.lab false).loc m hm
  have l2 := (h.lab true).loc m hm
  have m1 := (h.lab false).lim
  have m2 := (h.lab true).lim
  have k1 := GoMap.get?_eq_none_iff (p.shared.lab false).counters m.arg.errorCode
  have k2 := GoMap.get?_eq_none_iff (p.shared.lab true).counters m.arg.addon
  simp only [MarkArg.label] at l1 l2
  simp only [Bool.false_eq_true, if_false, if_true] at m1 m2
  have hcase : m.pc = .done ∨ m.pc = .panicked false ∨ m.pc = .panicked true := by
    obtain ⟨a, pc⟩ := m
    cases pc <;> simp [Mark.finished] at hf ⊢
  rcases hcase with e | e | e <;> rw [e] at l1 l2 ⊢
  · change m.arg.errorCode = "" ∨ _ ≠ none at l1
    change m.arg.addon = "" ∨ _ ≠ none at l2
    rw [ne_eq, k1] at l1
    rw [ne_eq, k2] at l2
    simp only [reduceCtorEq, false_iff, false_imp_iff, and_true]
    tauto
  · change _ ∧ _ ∧ _ at l1
    rw [k1, m1] at l1
    simp only [MarkPC.panicked.injEq, Bool.false_eq_true, false_iff, false_imp_iff, and_true, true_iff, true_imp_iff]
    tauto
  · change m.arg.errorCode = "" ∨ _ ≠ none at l1
    change _ ∧ _ ∧ _ at l2
    rw [ne_eq, k1] at l1
    rw [k2, m2] at l2
    simp only [MarkPC.panicked.injEq, Bool.true_eq_false, false_iff, false_imp_iff, true_iff, true_imp_iff, true_and]
    tauto

/-- **C83.** When all calls are over, the counts are exact. -/
theorem C83_quiescent (I : Int) (hI : 1000000000 ≤ I) (n : Nat) (maxErr maxAdd t1 t2 : Int) (es : List (Ev MarkArg Int))
    (hall : ∀ m ∈ (marked I n maxErr maxAdd t1 t2 es).calls, m.finished = true) :
    let p := marked I n maxErr maxAdd t1 t2 es
    p.shared.total.getCount = i64 p.calls.length ∧
    p.shared.success.getCount = i64 (p.calls.countP fun m => m.arg.isSuccess) ∧
    (∀ code b, (p.shared.lab false).counters.get? code = some b → b.getCount = i64 (p.calls.countP fun m => m.arg.errorCode = code)) ∧
    (∀ addon b, (p.shared.lab true).counters.get? addon = some b → b.getCount = i64 (p.calls.countP fun m =>
      m.arg.addon = addon ∧ (m.arg.errorCode = "" ∨ m.arg.errorCode ∈ (p.shared.lab false).counters.keys))) := by
  intro p
  have hpan := C83_panics_iff I n maxErr maxAdd t1 t2 es
  obtain ⟨⟨j1, a1, a2, a3⟩, ⟨j2, b1, b2, b3⟩, hc, hd⟩ := C83_counts I hI n maxErr maxAdd t1 t2 es
  have h := minv_run I n maxErr maxAdd t1 t2 es
  change MInv I n maxErr maxAdd t1 t2 p at h
  change ∀ m ∈ p.calls, m.finished = true at hall
  change p.calls.countP _ ≤ j1 at a2
  change p.calls.countP _ ≤ j2 at b2
  refine ⟨?_, ?_, ?_, ?_⟩
  · have : p.calls.countP Mark.finished = p.calls.length := List.countP_eq_length.2 hall
    have : j1 = p.calls.length := le_antisymm a3 (by rw [← this]; exact a2)
    rw [← this]; exact a1
  · have : p.calls.countP (fun m => m.finished && m.arg.isSuccess) = p.calls.countP (fun m => m.arg.isSuccess) :=
      List.countP_congr fun m hm => by rw [hall m hm, Bool.true_and]
    have : j2 = p.calls.countP (fun m => m.arg.isSuccess) := le_antisymm b3 (by rw [← this]; exact b2)
    rw [← this]; exact b1
  · intro k b hb
    obtain ⟨j, g1, g2, g3⟩ := hc k b hb
    have : p.calls.countP (fun m => m.finished && decide (m.arg.errorCode = k)) = p.calls.countP (fun m => decide (m.arg.errorCode = k)) :=
      List.countP_congr fun m hm => by rw [hall m hm, Bool.true_and]
    have : j = p.calls.countP (fun m => decide (m.arg.errorCode = k)) := le_antisymm g3 (by rw [← this]; exact g2)
    rw [← this]; exact g1
  · intro k b hb
    obtain ⟨j, g1, g2, g3⟩ := hd k b hb
    have e1 : p.calls.countP (fun m => decide (m.pc = .done) && decide (m.arg.addon = k)) = p.calls.countP (fun m =>
      decide (m.arg.addon = k ∧ (m.arg.errorCode = "" ∨ m.arg.errorCode ∈ (p.shared.lab false).counters.keys))) := by
      refine List.countP_congr fun m hm => ?_
      obtain ⟨q1, q2, -⟩ := hpan m hm (hall m hm)
      have hka : m.arg.addon = k → m.arg.addon ∈ (p.shared.lab true).counters.keys := by
        rintro rfl; exact (GoMap.mem_keys_iff _ _).2 ⟨b, hb⟩
      have hcase : m.pc = .done ∨ m.pc = .panicked false ∨ m.pc = .panicked true := by
        have hf := hall m hm
        obtain ⟨a, pc⟩ := m
        cases pc <;> simp [Mark.finished] at hf ⊢
      rw [Bool.and_eq_true, decide_eq_true_eq, decide_eq_true_eq, decide_eq_true_eq]
      constructor
      · rintro ⟨e, e'⟩
        refine ⟨e', ?_⟩
        by_contra hc
        rw [not_or] at hc
        have := q1.2 hc
        rw [e] at this; cases this
      · rintro ⟨e, e'⟩
        refine ⟨?_, e⟩
        rcases hcase with h | h | h
        · exact h
        · exact absurd (q1.1 h) (by tauto)
        · exact absurd (q2.1 h).2.2 (by simpa using hka e)
    have e2 : p.calls.countP (fun m => decide (m.arg.addon = k ∧ m.pc ≠ .panicked false)) = p.calls.countP (fun m =>
      decide (m.arg.addon = k ∧ (m.arg.errorCode = "" ∨ m.arg.errorCode ∈ (p.shared.lab false).counters.keys))) := by
      refine List.countP_congr fun m hm => ?_
      obtain ⟨q1, -⟩ := hpan m hm (hall m hm)
      rw [decide_eq_true_eq, decide_eq_true_eq, ne_eq, q1]
      tauto
    have : j = p.calls.countP (fun m =>
      decide (m.arg.addon = k ∧ (m.arg.errorCode = "" ∨ m.arg.errorCode ∈ (p.shared.lab false).counters.keys))) :=
      le_antisymm (by rw [← e2]; exact g3) (by rw [← e1]; exact g2)
    rw [← this]; exact g1

/-- **C83.** At every moment there are at most `max maxErr 0` error codes and `max maxAdd 0` addons, each once, each passed by some call,
none empty. -/
theorem C83_limit (I : Int) (n : Nat) (maxErr maxAdd t1 t2 : Int) (es : List (Ev MarkArg Int)) :
    let p := marked I n maxErr maxAdd t1 t2 es
    (((p.shared.lab false).counters.length : Int) ≤ max maxErr 0 ∧ (p.shared.lab false).counters.keys.Nodup ∧
      ∀ code ∈ (p.shared.lab false).counters.keys, code ≠ "" ∧ ∃ m ∈ p.calls, m.arg.errorCode = code) ∧
    (((p.shared.lab true).counters.length : Int) ≤ max maxAdd 0 ∧ (p.shared.lab true).counters.keys.Nodup ∧
      ∀ addon ∈ (p.shared.lab true).counters.keys, addon ≠ "" ∧ ∃ m ∈ p.calls, m.arg.addon = addon) := by
  intro p
  have h := minv_run I n maxErr maxAdd t1 t2 es
  exact ⟨⟨(h.lab false).len, (h.lab false).wf, (h.lab false).keys⟩, ⟨(h.lab true).len, (h.lab true).wf, (h.lab true).keys⟩⟩

/-- **C83.** If the calls use no more different error codes and addons than the limits allow, no call panics. -/
theorem C83_room (I : Int) (hI : 1000000000 ≤ I) (n : Nat) (maxErr maxAdd t1 t2 : Int) (es : List (Ev MarkArg Int)) (codes addons : List String)
    (hcodes : (codes.length : Int) ≤ maxErr) (haddons : (addons.length : Int) ≤ maxAdd)
    (hes : ∀ a, Ev.spawn a ∈ es → (a.errorCode = "" ∨ a.errorCode ∈ codes) ∧ (a.addon = "" ∨ a.addon ∈ addons)) :
    ∀ m ∈ (marked I n maxErr maxAdd t1 t2 es).calls, (∀ w, m.pc ≠ .panicked w) ∧ m.pc ≠ .crashed := by
  have hcalls : ∀ m ∈ (marked I n maxErr maxAdd t1 t2 es).calls,
      (m.arg.errorCode = "" ∨ m.arg.errorCode ∈ codes) ∧ (m.arg.addon = "" ∨ m.arg.addon ∈ addons) := by
    have := Machine.inv_runE marking (fun _ p => ∀ m ∈ p.calls,
      (m.arg.errorCode = "" ∨ m.arg.errorCode ∈ codes) ∧ (m.arg.addon = "" ∨ m.arg.addon ∈ addons))
      (fun e => ∀ a, e = .spawn a → (a.errorCode = "" ∨ a.errorCode ∈ codes) ∧ (a.addon = "" ∨ a.addon ∈ addons))
      (fun _ _ h => h) ?_ ?_ (Machine.start (Marks.new I n maxErr maxAdd t1 t2)) 0 (by simp [Machine.start]) es
      (fun e he a hea => hes a (hea ▸ he))
    · exact this
    · intro _ s cs a hq h m hm
      rcases List.mem_append.1 hm with g | g
      · exact h m g
      · rw [List.mem_singleton.1 g]; exact hq a rfl
    · intro _ s pre c post x i _ h m hm
      rcases List.mem_append.1 hm with g | g
      · exact h m (by simp [g])
      · rcases List.mem_cons.1 g with rfl | g
        · have := h c (by simp)
          rw [show (marking.step s x c).2.arg = c.arg from markStep_arg s x c]
          exact this
        · exact h m (by simp [g])
  obtain ⟨⟨-, w1, k1⟩, ⟨-, w2, k2⟩⟩ := C83_limit I n maxErr maxAdd t1 t2 es
  have hpan := C83_panics_iff I n maxErr maxAdd t1 t2 es
  have hal := alive_run I hI n maxErr maxAdd t1 t2 es
  generalize marked I n maxErr maxAdd t1 t2 es = p at hcalls w1 k1 w2 k2 hpan hal
  intro m hm
  refine ⟨fun w hw => ?_, fun e => by have := hal m hm; rw [e] at this; exact this⟩
  have hfin : m.finished = true := by unfold Mark.finished; rw [hw]
  obtain ⟨q1, q2, q3, q4⟩ := hpan m hm hfin
  cases w
  · obtain ⟨r1, r2⟩ := q1.1 hw
    have r3 := q3 hw
    have hc := (hcalls m hm).1.resolve_left r1
    have hsub : (p.shared.lab false).counters.keys ⊆ codes.erase m.arg.errorCode := by
      intro c hc'
      obtain ⟨s1, m', s2, s3⟩ := k1 c hc'
      have hne : c ≠ m.arg.errorCode := by rintro rfl; exact r2 hc'
      rw [List.mem_erase_of_ne hne, ← s3]
      exact (hcalls m' s2).1.resolve_left (by rw [s3]; exact s1)
    have hle := (w1.subperm hsub).length_le
    rw [List.length_erase_of_mem hc] at hle
    have hpos := List.length_pos_of_mem hc
    have hkl : (p.shared.lab false).counters.keys.length = (p.shared.lab false).counters.length := by simp [GoMap.keys]
    omega
  · obtain ⟨-, r1, r2⟩ := q2.1 hw
    have r3 := q4 hw
    have hc := (hcalls m hm).2.resolve_left r1
    have hsub : (p.shared.lab true).counters.keys ⊆ addons.erase m.arg.addon := by
      intro c hc'
      obtain ⟨s1, m', s2, s3⟩ := k2 c hc'
      have hne : c ≠ m.arg.addon := by rintro rfl; exact r2 hc'
      rw [List.mem_erase_of_ne hne, ← s3]
      exact (hcalls m' s2).2.resolve_left (by rw [s3]; exact s1)
    have hle := (w2.subperm hsub).length_le
    rw [List.length_erase_of_mem hc] at hle
    have hpos := List.length_pos_of_mem hc
    have hkl : (p.shared.lab true).counters.keys.length = (p.shared.lab true).counters.length := by simp [GoMap.keys]
    omega

/-- **C83.** Each of the counters behaves like a `BucketCounter` that many goroutines update on its own: whatever C10-C13 and C81 say of
those is true of `GetInstantCount`, `GetBucketSuccessCount`, `GetErrorCodeCounts` and `GetAddonCounts` of a compass. -/
theorem C83_bucket_counters (I : Int) (n : Nat) (maxErr maxAdd t1 t2 : Int) (es : List (Ev MarkArg Int)) :
    let p := marked I n maxErr maxAdd t1 t2 es
    (∃ es', p.shared.total = (BucketCounter.after I n t1 true es').shared ∧ (BucketCounter.after I n t1 true es').calls.length = p.calls.length ∧
      ((∀ m ∈ p.calls, m.finished = true) → BucketCounter.AllReturned (BucketCounter.after I n t1 true es'))) ∧
    (∃ es', p.shared.success = (BucketCounter.after I n t2 true es').shared ∧
      (BucketCounter.after I n t2 true es').calls.length = p.calls.countP (fun m => m.arg.isSuccess) ∧
      ((∀ m ∈ p.calls, m.finished = true) → BucketCounter.AllReturned (BucketCounter.after I n t2 true es'))) ∧
    (∀ w k b, (p.shared.lab w).counters.get? k = some b → ∃ t0 es', b = (BucketCounter.after I n t0 true es').shared) := by
  intro p
  have h := minv_run I n maxErr maxAdd t1 t2 es
  change MInv I n maxErr maxAdd t1 t2 p at h
  have hrel : ∀ (ms : List Mark) (cs : List BucketCounter.Call) (view : Mark → View),
      List.Forall₂ (fun m c => (view m).rel c) ms cs → (∀ m ∈ ms, view m = .over) → ∀ c ∈ cs, c.returned := by
    intro ms cs view hf
    induction hf with
    | nil => simp
    | cons h1 _ ih =>
      intro hv c hc
      rcases List.mem_cons.1 hc with rfl | hc
      · rw [hv _ (by simp)] at h1; exact h1.2
      · exact ih (fun m hm => hv m (by simp [hm])) c hc
  refine ⟨?_, ?_, ?_⟩
  · obtain ⟨es', g1, g2⟩ := h.total
    refine ⟨es', g1.symm, ?_, fun hf => ?_⟩
    · have := g2.length_eq
      rw [List.filter_true] at this
      exact this.symm
    · refine hrel _ _ (fun m => viewTotal m.pc) g2 ?_
      intro m hm
      have hm := hf m (List.mem_filter.1 hm).1
      obtain ⟨a, pc⟩ := m
      cases pc <;> simp [Mark.finished] at hm <;> rfl
  · obtain ⟨es', g1, g2⟩ := h.success
    refine ⟨es', g1.symm, ?_, fun hf => ?_⟩
    · have := g2.length_eq
      rw [← List.countP_eq_length_filter] at this
      exact this.symm
    · refine hrel _ _ (fun m => viewSuccess m.pc) g2 ?_
      intro m hm
      have hm := hf m (List.mem_filter.1 hm).1
      obtain ⟨a, pc⟩ := m
      cases pc <;> simp [Mark.finished] at hm <;> rfl
  · intro w k b hb
    obtain ⟨t0, es', g1, -⟩ := (h.lab w).sim k b hb
    exact ⟨t0, es', g1.symm⟩

/-- **C83.** A label that has a counter keeps it. -/
theorem C83_kept (I : Int) (n : Nat) (maxErr maxAdd t1 t2 : Int) (es es' : List (Ev MarkArg Int)) (w : Bool) (k : String)
    (hk : k ∈ ((marked I n maxErr maxAdd t1 t2 es).shared.lab w).counters.keys) :
    k ∈ ((marked I n maxErr maxAdd t1 t2 (es ++ es')).shared.lab w).counters.keys := by
  induction es' using List.reverseRecOn with
  | nil => simpa using hk
  | append_singleton es' e ih =>
    have hinv := minv_run I n maxErr maxAdd t1 t2 (es ++ es')
    change MInv I n maxErr maxAdd t1 t2 (marked I n maxErr maxAdd t1 t2 (es ++ es')) at hinv
    rw [← List.append_assoc, show marked I n maxErr maxAdd t1 t2 (es ++ es' ++ [e]) =
      marking.apply (marked I n maxErr maxAdd t1 t2 (es ++ es')) e from Machine.run_snoc _ _ _ _]
    generalize marked I n maxErr maxAdd t1 t2 (es ++ es') = p at ih hinv
    cases e with
    | spawn a => exact ih
    | step i t =>
      cases hc : p.calls[i]? with
      | none => simp only [Machine.apply, hc]; exact ih
      | some m =>
        simp only [Machine.apply, hc]
        have hl := markStep_lstep p.shared t m (hinv.one m (List.mem_of_getElem? hc)) w
        change LStep _ _ _ _ (((marking.step p.shared t m).1.lab w), _) at hl
        generalize (marking.step p.shared t m).1.lab w = l' at hl ⊢
        generalize stage w (markStep p.shared t m).2.pc = y at hl
        generalize stage w m.pc = x at hl
        generalize p.shared.lab w = l at hl ih
        cases hl <;> first | exact ih | exact (GoMap.mem_keys_set _ _ _ _).2 (.inr ih)

namespace CompassConc
open BucketCounter (callStep Call)

/-- How many steps an `UpdateN` still has to make, at most. -/
def callRank : BucketCounter.PC → Nat
  | .start => 9
  | .clock => 8
  | .load _ => 7
  | .cas _ _ => 6
  | .q1 _ _ => 5
  | .q2 _ _ _ => 4
  | .q3 _ _ => 3
  | .q4 _ _ _ => 2
  | .reload _ => 2
  | .add _ _ => 1
  | .done _ _ => 0
  | .panicked => 0

/-- How many steps a call still has to make, at most. -/
def markRank : MarkPC → Nat
  | .total c => 42 + callRank c.pc
  | .success c => 32 + callRank c.pc
  | .lock false => 31
  | .find false => 30
  | .make false => 29
  | .insert false _ => 28
  | .unlock false _ => 27
  | .hit false c => 16 + callRank c.pc
  | .lock true => 15
  | .find true => 14
  | .make true => 13
  | .insert true _ => 12
  | .unlock true _ => 11
  | .hit true c => 1 + callRank c.pc
  | .done => 0
  | .panicked _ => 0
  | .crashed => 0

theorem callStep_rank (b : BucketCounter) (t : Int) (c : Call) : callRank (callStep b t c).2.pc ≤ callRank c.pc - 1 := by
  unfold callStep
  cases hpc : c.pc <;> simp only
  case done => rw [hpc]; simp [callRank]
  case panicked => rw [hpc]; simp [callRank]
  all_goals (repeat' split) <;> simp [callRank]

theorem callStep_rank_lt (b : BucketCounter) (t : Int) (c : Call) (go : Call → MarkPC) (next : MarkPC) (K : Nat)
    (hgo : ∀ c, markRank (go c) = K + callRank c.pc) (hK : markRank next < K) :
    markRank (follow (callStep b t c).2 go next) < K + callRank c.pc := by
  have h := callStep_rank b t c
  unfold follow
  split
  · omega
  · simp only [markRank]; omega
  · rename_i h1 h2
    rw [hgo]
    have : callRank (callStep b t c).2.pc ≠ 0 ∨ callRank c.pc ≠ 0 := by
      left
      cases hp : (callStep b t c).2.pc <;> simp_all [callRank]
    omega

theorem rank_atAddon (a) : markRank (atAddon a) ≤ 15 := by unfold atAddon; split <;> simp [markRank]
theorem rank_atError (a) : markRank (atError a) ≤ 31 := by
  unfold atError; split
  · simp [markRank]
  · exact le_trans (rank_atAddon a) (by omega)
theorem rank_atSuccess (a) : markRank (atSuccess a) ≤ 41 := by
  unfold atSuccess; split
  · simp [markRank, callRank]
  · exact le_trans (rank_atError a) (by omega)

/-- A step of an unfinished call brings it nearer its end, unless it waits for a mutex that is held. -/
theorem markStep_rank (s : Marks) (t : Int) (m : Mark) (hf : m.finished = false) (hc : m.pc ≠ .crashed)
    (hw : ∀ w, m.pc = .lock w → (s.lab w).held = false) : markRank (markStep s t m).2.pc < markRank m.pc := by
  unfold markStep
  cases hpc : m.pc with
  | total c =>
    exact callStep_rank_lt s.total t c _ (atSuccess m.arg) 42 (fun _ => rfl) (by have := rank_atSuccess m.arg; omega)
  | success c =>
    exact callStep_rank_lt s.success t c _ (atError m.arg) 32 (fun _ => rfl) (by have := rank_atError m.arg; omega)
  | lock w =>
    simp only [hw w hpc, Bool.false_eq_true, if_false]
    cases w <;> simp [markRank]
  | find w =>
    simp only
    (repeat' split) <;> cases w <;> simp [markRank]
  | make w => cases w <;> simp [markRank]
  | insert w b => cases w <;> simp [markRank]
  | unlock w f => cases f <;> cases w <;> simp [markRank, callRank]
  | hit w c =>
    simp only
    split
    · cases w <;> simp [markRank]
    · cases w
      · exact callStep_rank_lt _ t c _ (atAddon m.arg) 16 (fun _ => rfl) (by have := rank_atAddon m.arg; omega)
      · exact callStep_rank_lt _ t c _ .done 1 (fun _ => rfl) (by simp [markRank])
  | done => simp [Mark.finished, hpc] at hf
  | panicked w => simp [Mark.finished, hpc] at hf
  | crashed => exact absurd hpc hc

/-- The number of events of `es`, run from `p`, that change the state of a call (a goroutine that only waits for a mutex does not). -/
def moves (p : Pool Marks Mark) : List (Ev MarkArg Int) → Nat
  | [] => 0
  | .spawn a :: es => moves (marking.apply p (.spawn a)) es
  | .step i t :: es =>
    moves (marking.apply p (.step i t)) es + if (marking.apply p (.step i t)).calls = p.calls then 0 else 1

theorem rank_le (pc : MarkPC) : markRank pc ≤ 51 := by
  have h : ∀ c, callRank c ≤ 9 := by intro c; cases c <;> simp [callRank]
  cases pc with
  | total c => have := h c.pc; simp only [markRank]; omega
  | success c => have := h c.pc; simp only [markRank]; omega
  | hit w c => have := h c.pc; cases w <;> simp only [markRank] <;> omega
  | lock w => cases w <;> simp [markRank]
  | find w => cases w <;> simp [markRank]
  | make w => cases w <;> simp [markRank]
  | insert w b => cases w <;> simp [markRank]
  | unlock w f => cases w <;> simp [markRank]
  | _ => simp [markRank]

/-- A call that is over, or waits for a held mutex, does nothing. -/
theorem markStep_stuck (s : Marks) (t : Int) (m : Mark)
    (h : m.finished = true ∨ m.pc = .crashed ∨ ∃ w, m.pc = .lock w ∧ (s.lab w).held = true) : markStep s t m = (s, m) := by
  unfold markStep
  rcases h with h | h | ⟨w, h, h'⟩
  · cases hpc : m.pc <;> simp [Mark.finished, hpc] at h <;> rfl
  · rw [h]
  · rw [h]; simp only [h', if_true]

theorem stuck_or (s : Marks) (m : Mark) : (m.finished = true ∨ m.pc = .crashed ∨ ∃ w, m.pc = .lock w ∧ (s.lab w).held = true) ∨
    (m.finished = false ∧ m.pc ≠ .crashed ∧ ∀ w, m.pc = .lock w → (s.lab w).held = false) := by
  by_cases h1 : m.finished = true
  · exact .inl (.inl h1)
  by_cases h2 : m.pc = .crashed
  · exact .inl (.inr (.inl h2))
  by_cases h3 : ∃ w, m.pc = .lock w ∧ (s.lab w).held = true
  · exact .inl (.inr (.inr h3))
  refine .inr ⟨by simpa using h1, h2, fun w hw => ?_⟩
  by_contra hc
  exact h3 ⟨w, hw, by simpa using hc⟩

def ranks (p : Pool Marks Mark) : Nat := (p.calls.map fun m => markRank m.pc).sum

theorem moves_le (p : Pool Marks Mark) (es : List (Ev MarkArg Int)) :
    moves p es + ranks (marking.run p es) + 51 * p.calls.length ≤ ranks p + 51 * (marking.run p es).calls.length := by
  induction es generalizing p with
  | nil => simp [moves, Machine.run]
  | cons e es ih =>
    rw [Machine.run_cons]
    cases e with
    | spawn a =>
      have := ih (marking.apply p (.spawn a))
      simp only [moves]
      have e1 : (marking.apply p (.spawn a)).calls.length = p.calls.length + 1 := by simp [Machine.apply]
      have e2 : ranks (marking.apply p (.spawn a)) ≤ ranks p + 51 := by
        simp only [ranks, Machine.apply, List.map_append, List.sum_append, List.map_cons, List.map_nil, List.sum_cons, List.sum_nil]
        have := rank_le (marking.call a).pc
        omega
      omega
    | step i t =>
      have := ih (marking.apply p (.step i t))
      simp only [moves]
      have key : (marking.apply p (.step i t)).calls.length = p.calls.length ∧
          ranks (marking.apply p (.step i t)) + (if (marking.apply p (.step i t)).calls = p.calls then 0 else 1) ≤ ranks p := by
        cases hc : p.calls[i]? with
        | none => simp only [Machine.apply, hc]; simp
        | some m =>
          obtain ⟨pre, post, h1, -, h2⟩ := marking.apply_step_eq (x := t) hc
          rw [h2]
          refine ⟨by simp [h1], ?_⟩
          rcases stuck_or p.shared m with hs | ⟨g1, g2, g3⟩
          · have := markStep_stuck p.shared t m hs
            have e : (marking.step p.shared t m).2 = m := by rw [show marking.step p.shared t m = _ from this]
            simp only [e, ← h1]
            simp [ranks, h1]
          · have := markStep_rank p.shared t m g1 g2 g3
            have : markRank (marking.step p.shared t m).2.pc < markRank m.pc := this
            simp only [ranks, h1, List.map_append, List.map_cons, List.sum_append, List.sum_cons]
            split <;> omega
      omega

end CompassConc

/-- **C83.** No deadlock, no livelock: while a call is not over, some call can move; and the calls move at most 51 times each. -/
theorem C83_progress (I : Int) (hI : 1000000000 ≤ I) (n : Nat) (maxErr maxAdd t1 t2 : Int) (es : List (Ev MarkArg Int)) :
    let p := marked I n maxErr maxAdd t1 t2 es
    ((∃ m ∈ p.calls, m.finished = false) → ∃ i, ∀ t, (marking.apply p (.step i t)).calls ≠ p.calls) ∧
    moves (Machine.start (Marks.new I n maxErr maxAdd t1 t2)) es ≤ 51 * p.calls.length := by
  intro p
  constructor
  · rintro ⟨m, hm, hf⟩
    have hinv := minv_run I n maxErr maxAdd t1 t2 es
    change MInv I n maxErr maxAdd t1 t2 p at hinv
    have hal := alive_run I hI n maxErr maxAdd t1 t2 es
    change ∀ m ∈ p.calls, m.pc.alive at hal
    have hnc : ∀ m ∈ p.calls, m.pc ≠ .crashed := fun m hm e => by have := hal m hm; rw [e] at this; exact this
    have key : ∃ m ∈ p.calls, m.finished = false ∧ ∀ w, m.pc = .lock w → (p.shared.lab w).held = false := by
      rcases stuck_or p.shared m with (h | h | ⟨w, h, h'⟩) | ⟨g1, g2, g3⟩
      · rw [hf] at h; cases h
      · exact absurd h (hnc m hm)
      · have hh := (hinv.lab w).held
        rw [if_pos h'] at hh
        obtain ⟨m', hm', hl⟩ := List.countP_pos_iff (p := fun m : Mark => (stage w m.pc).inLock).1 (by rw [hh]; omega)
        refine ⟨m', hm', ?_, ?_⟩
        · obtain ⟨a, pc⟩ := m'
          cases w <;> cases pc <;> first | rfl | (rename_i w'; cases w' <;> cases hl) | cases hl
        · intro w' e
          rw [e] at hl
          cases w <;> cases w' <;> cases hl
      · exact ⟨m, hm, g1, g3⟩
    obtain ⟨m', hm', h1, h2⟩ := key
    obtain ⟨i, hi, rfl⟩ := List.getElem_of_mem hm'
    refine ⟨i, fun t e => ?_⟩
    have hc : p.calls[i]? = some p.calls[i] := List.getElem?_eq_getElem hi
    have hlt := markStep_rank p.shared t _ h1 (hnc _ hm') h2
    simp only [Machine.apply, hc] at e
    have e' := congrArg (fun l => l[i]?) e
    simp only [List.getElem?_set_self hi, hc, Option.some.injEq] at e'
    change (markStep p.shared t p.calls[i]).2 = _ at e'
    rw [e'] at hlt
    exact absurd hlt (lt_irrefl _)
  · have := moves_le (Machine.start (Marks.new I n maxErr maxAdd t1 t2)) es
    have h0 : ranks (Machine.start (Marks.new I n maxErr maxAdd t1 t2)) = 0 := rfl
    have h1 : (Machine.start (Marks.new I n maxErr maxAdd t1 t2) : Pool Marks Mark).calls.length = 0 := rfl
    change _ ≤ 51 * (marking.run _ es).calls.length
    omega

namespace CompassConc
/-- Three calls, in lock step, with one error code allowed: the second to ask for the mutex waits for the first, and the second error code finds
no room. -/
def rush : List (Ev MarkArg Int) :=
  [.spawn ⟨true, "a", "x"⟩, .spawn ⟨false, "b", "y"⟩, .spawn ⟨true, "a", ""⟩] ++
    (List.replicate 60 [.step 0 7000, .step 1 7000, .step 2 7000]).flatten
end CompassConc

/-- The hypotheses of the C83 theorems are met: two calls panicked, one returned; exact counts. -/
example : (marked 1000000000 2 1 5 0 0 rush).calls.map (fun m => (m.finished, decide (m.pc = .panicked false))) = [(true, true), (true, false), (true, true)] ∧
    (marked 1000000000 2 1 5 0 0 rush).shared.total.getCount = 3 ∧ (marked 1000000000 2 1 5 0 0 rush).shared.success.getCount = 2 ∧
    ((marked 1000000000 2 1 5 0 0 rush).shared.lab false).counters.map (fun e => (e.1, e.2.getCount)) = [("b", 1)] ∧
    ((marked 1000000000 2 1 5 0 0 rush).shared.lab true).counters.map (fun e => (e.1, e.2.getCount)) = [("y", 1)] := by decide +kernel

/-- In the middle, one call waits for the mutex that another holds. -/
example : (((marked 1000000000 2 1 5 0 0 (rush.take 48)).shared.lab false).held = true) ∧
    (∃ m ∈ (marked 1000000000 2 1 5 0 0 (rush.take 48)).calls, m.pc = .lock false) := by decide +kernel

/-- `C83_room`: with room for both codes all three return. -/
example : (∀ a, Ev.spawn a ∈ rush → (a.errorCode = "" ∨ a.errorCode ∈ ["a", "b"]) ∧ (a.addon = "" ∨ a.addon ∈ ["x", "y"])) ∧
    (marked 1000000000 2 2 2 0 0 rush).calls.map (fun m => m.pc) = [.done, .done, .done] := by
  constructor
  · intro a ha
    unfold rush at ha
    rcases List.mem_append.1 ha with h | h
    · simp only [List.mem_cons, List.not_mem_nil, Ev.spawn.injEq, or_false] at h
      rcases h with rfl | rfl | rfl <;> simp
    · obtain ⟨l, h1, h2⟩ := List.mem_flatten.1 h
      obtain ⟨-, rfl⟩ := List.mem_replicate.1 h1
      simp at h2
  · decide +kernel

end GoMetrics
