import Verif.Proofs.CompassWild
import Verif.Props.CompassUpdateConc
import Verif.Props.BucketWild
import Verif.Props.CompassConc
/-! # C110 — a compass whatever unsynchronised loads return -/
namespace GoMetrics
namespace CompassWild
open CompassConc
open BucketCounter (wildStep Call wild Seen)

/-- A fresh compass (limits `maxErr`, `maxAdd`) after the schedule `es`. -/
def wildMarked (I : Int) (n : Nat) (maxErr maxAdd t1 t2 : Int) (es : List (Ev MarkArg Seen)) : Pool Marks Mark :=
  wildMarking.run (Machine.start (Marks.new I n maxErr maxAdd t1 t2)) es

theorem wildStep_alive {b : BucketCounter} {t : Seen} {c : Call} (hI : 1000000000 ≤ b.interval) (hc : c.pc ≠ .panicked) :
    (wildStep b t c).2.pc ≠ .panicked := by
  unfold wildStep
  split
  · exact callStep_alive (b := b.appears t) hI hc
  · exact callStep_alive hI hc

theorem wildStep_const (b : BucketCounter) (e : Seen) (c : Call) :
    (wildStep b e c).1.updateTotalCount = b.updateTotalCount ∧ (wildStep b e c).1.interval = b.interval := by
  unfold wildStep
  split
  · exact ⟨rfl, rfl⟩
  · exact ⟨(BucketCounter.callStep_const _ _ _).1, (BucketCounter.callStep_const _ _ _).2.1⟩

theorem sim_const {I n t0 sel view b ms} (h : Sim I n t0 sel view b ms) : b.interval = I := by
  obtain ⟨es, rfl, -⟩ := h
  exact Machine.inv_run wild (fun p => p.shared.interval = I) (fun _ _ _ h => h) (fun s pre c post x h => (wildStep_const s x c).2.trans h) _ rfl es

theorem alive_run (I : Int) (hI : 1000000000 ≤ I) (n : Nat) (maxErr maxAdd t1 t2 : Int) (es : List (Ev MarkArg Seen)) :
    ∀ m ∈ (wildMarked I n maxErr maxAdd t1 t2 es).calls, m.pc.alive := by
  induction es using List.reverseRecOn with
  | nil => simp [wildMarked, Machine.run, Machine.start]
  | append_singleton es e ih =>
    have hinv : MInv I n maxErr maxAdd t1 t2 (wildMarked I n maxErr maxAdd t1 t2 es) := minv_run I n maxErr maxAdd t1 t2 es
    rw [show wildMarked I n maxErr maxAdd t1 t2 (es ++ [e]) = wildMarking.apply (wildMarked I n maxErr maxAdd t1 t2 es) e from Machine.run_snoc _ _ _ _]
    cases e with
    | spawn a =>
      intro m hm
      rcases List.mem_append.1 hm with g | g
      · exact ih m g
      · rw [List.mem_singleton.1 g]; exact fun h => by cases h
    | step i t =>
      generalize wildMarked I n maxErr maxAdd t1 t2 es = p at ih hinv
      cases hc : p.calls[i]? with
      | none => simp only [Machine.apply, hc]; exact ih
      | some m =>
        obtain ⟨pre, post, h1, -, h2⟩ := wildMarking.apply_step_eq (x := t) hc
        rw [h2]
        intro x hx
        have hm := ih m (by rw [h1]; simp)
        rcases List.mem_append.1 hx with g | g
        on_goal 2 => rcases List.mem_cons.1 g with rfl | g
        · exact ih x (by rw [h1]; simp [g])
        · change (markStepBy BucketCounter.wildStep Seen.clock p.shared t m).2.pc.alive
          unfold markStepBy
          cases hpc : m.pc with
          | total c =>
            rw [hpc] at hm
            have := wildStep_alive (t := t) (by rw [sim_const hinv.total]; exact hI) hm
            exact alive_follow this this (alive_atSuccess _)
          | success c =>
            rw [hpc] at hm
            have := wildStep_alive (t := t) (by rw [sim_const hinv.success]; exact hI) hm
            exact alive_follow this this (alive_atError _)
          | hit w c =>
            rw [hpc] at hm
            simp only
            have hl := (hinv.lab w).loc m (by rw [h1]; simp)
            rw [hpc, show stage w (.hit w c) = .hit c by cases w <;> rfl] at hl
            cases hg : (p.shared.lab w).counters.get? (m.arg.label w) with
            | none => exact absurd hg hl.2
            | some b =>
              obtain ⟨t0, hb⟩ := (hinv.lab w).sim _ b hg
              have := wildStep_alive (t := t) (by rw [sim_const hb]; exact hI) hm
              exact alive_follow this this (alive_afterHit _ _)
          | lock w => simp only; split; rw [hpc]; trivial; trivial
          | find w => simp only; (repeat' split) <;> trivial
          | make w => trivial
          | insert w b => trivial
          | unlock w f =>
            simp only; split
            · exact fun h => by cases h
            · trivial
          | done => simp only; rw [hpc]; trivial
          | panicked w => simp only; rw [hpc]; trivial
          | crashed => rw [hpc] at hm; exact hm.elim
        · exact ih x (by rw [h1]; simp [g])

/-- What a counter says, from what the calls have done to it. -/
theorem sim_count {I n t0 sel view b ms} (h : Sim I n t0 sel view b ms) (hdead : ∀ m ∈ ms, view m ≠ .dead)
    (hone : ∀ m ∈ ms, ∀ c, view m = .inside c → c.n = 1) :
    ∃ j : Nat, b.getCount = i64 j ∧ ms.countP (fun m => sel m && (view m).isOver) ≤ j ∧ j ≤ ms.countP (fun m => sel m && (view m).touched) := by
  obtain ⟨es, rfl, h2⟩ := h
  have hw := BucketCounter.winv_run I n t0 true es
  have hs := hw.sum
  have hf := hw.u
  have ht := hs.total
  rw [hf, if_pos rfl] at ht
  rw [ht]
  clear ht hf hs hw
  generalize (wild.run (Machine.start (BucketCounter.new I n t0 true)) es).calls = cs at h2
  have key : ∃ j : Nat, (cs.map Call.totalled).sum = j ∧ (ms.filter sel).countP (fun m => (view m).isOver) ≤ j ∧
      j ≤ (ms.filter sel).countP (fun m => (view m).touched) := by
    have hdead' : ∀ m ∈ ms.filter sel, view m ≠ .dead := fun m hm => hdead m (List.mem_filter.1 hm).1
    have hone' : ∀ m ∈ ms.filter sel, ∀ c, view m = .inside c → c.n = 1 := fun m hm => hone m (List.mem_filter.1 hm).1
    generalize ms.filter sel = l at h2 hdead' hone'
    induction h2 with
    | nil => exact ⟨0, by simp⟩
    | @cons m c ms cs h1 h2 ih =>
      obtain ⟨j, g1, g2, g3⟩ := ih (fun m hm => hdead' m (by simp [hm])) (fun m hm => hone' m (by simp [hm]))
      have hd := hdead' m (by simp)
      have ho := hone' m (by simp)
      rw [List.map_cons, List.sum_cons, g1, List.countP_cons, List.countP_cons]
      cases hv : view m with
      | before =>
        rw [hv] at h1; cases h1
        simp only [over_before, touched_before, Bool.false_eq_true, if_false]
        exact ⟨j, by simp [Call.totalled], g2, g3⟩
      | inside c' =>
        rw [hv] at h1; cases h1
        have := ho c hv
        simp only [over_inside, touched_inside, Bool.false_eq_true, if_false, if_true]
        have ht : c.totalled = 0 ∨ c.totalled = 1 := by
          unfold Call.totalled
          cases c.pc <;> simp [this]
        rcases ht with ht | ht
        · exact ⟨j, by rw [ht]; simp, by omega, by omega⟩
        · exact ⟨j + 1, by rw [ht]; push_cast; ring, by omega, by omega⟩
      | over =>
        rw [hv] at h1
        obtain ⟨h1, ts, p, h3⟩ := h1
        simp only [over_over, touched_over, if_true]
        have ht : c.totalled = 1 := by unfold Call.totalled; rw [h3]; exact h1
        exact ⟨j + 1, by rw [ht]; push_cast; ring, by omega, by omega⟩
      | dead => exact absurd hv hd
  obtain ⟨j, g1, g2, g3⟩ := key
  rw [List.countP_filter] at g2 g3
  refine ⟨j, by rw [g1], ?_, ?_⟩
  · refine le_trans (le_of_eq ?_) g2
    congr 1; funext m; exact Bool.and_comm _ _
  · refine le_trans g3 (le_of_eq ?_)
    congr 1; funext m; exact Bool.and_comm _ _

/-- **C110.** At every moment, the total count is at least the number of `Update`s and `UpdateWithError`s that are over and at most the
number that have started, the success count likewise among the calls with `isSuccess`, and the count of an error code or addon likewise
among the calls that carry it (a call that panicked for its error code does not reach its addon): no call is lost or counted twice. -/
theorem _root_.GoMetrics.C110_counts (I : Int) (hI : 1000000000 ≤ I) (n : Nat) (maxErr maxAdd t1 t2 : Int) (es : List (Ev MarkArg Seen)) :
    let p := wildMarked I n maxErr maxAdd t1 t2 es
    (∃ j : Nat, p.shared.total.getCount = i64 j ∧ p.calls.countP Mark.finished ≤ j ∧ j ≤ p.calls.length) ∧
    (∃ j : Nat, p.shared.success.getCount = i64 j ∧ p.calls.countP (fun m => m.finished && m.arg.isSuccess) ≤ j ∧
      j ≤ p.calls.countP (fun m => m.arg.isSuccess)) ∧
    (∀ code b, (p.shared.lab false).counters.get? code = some b → ∃ j : Nat, b.getCount = i64 j ∧
      p.calls.countP (fun m => m.finished && decide (m.arg.errorCode = code)) ≤ j ∧ j ≤ p.calls.countP (fun m => m.arg.errorCode = code)) ∧
    (∀ addon b, (p.shared.lab true).counters.get? addon = some b → ∃ j : Nat, b.getCount = i64 j ∧
      p.calls.countP (fun m => decide (m.pc = .done) && decide (m.arg.addon = addon)) ≤ j ∧
      j ≤ p.calls.countP (fun m => m.arg.addon = addon ∧ m.pc ≠ .panicked false)) := by
  intro p
  have h := minv_run I n maxErr maxAdd t1 t2 es
  have ha := alive_run I hI n maxErr maxAdd t1 t2 es
  change MInv I n maxErr maxAdd t1 t2 p at h
  change ∀ m ∈ p.calls, m.pc.alive at ha
  refine ⟨?_, ?_, ?_, ?_⟩
  · obtain ⟨j, g1, g2, g3⟩ := sim_count h.total (fun m hm => alive_total (ha m hm)) (fun m hm => inside_total (h.one m hm))
    refine ⟨j, g1, le_trans (List.countP_mono_left ?_) g2, le_trans g3 (List.countP_le_length)⟩
    intro m _ hm
    obtain ⟨a, pc⟩ := m
    cases pc <;> simp [Mark.finished] at hm <;> rfl
  · obtain ⟨j, g1, g2, g3⟩ := sim_count h.success (fun m hm => alive_success (ha m hm)) (fun m hm => inside_success (h.one m hm))
    refine ⟨j, g1, le_trans (List.countP_mono_left ?_) g2, le_trans g3 (List.countP_mono_left ?_)⟩
    · intro m _ hm
      rw [Bool.and_eq_true] at hm ⊢
      refine ⟨hm.2, ?_⟩
      obtain ⟨a, pc⟩ := m
      cases pc <;> simp [Mark.finished] at hm <;> rfl
    · intro m _ hm
      rw [Bool.and_eq_true] at hm
      exact hm.1
  · intro k b hb
    obtain ⟨t0, hs⟩ := (h.lab false).sim k b hb
    obtain ⟨j, g1, g2, g3⟩ := sim_count hs (fun m hm => alive_stage (ha m hm) false) (fun m hm => inside_stage (h.one m hm) false)
    refine ⟨j, g1, le_trans (List.countP_mono_left ?_) g2, le_trans g3 (List.countP_mono_left ?_)⟩
    · intro m hm hf
      rw [Bool.and_eq_true] at hf ⊢
      refine ⟨hf.2, ?_⟩
      have hl := (h.lab false).loc m hm
      have hk : m.arg.errorCode = k := by simpa using hf.2
      simp only [MarkArg.label, hk] at hl
      obtain ⟨a, pc⟩ := m
      cases pc <;> simp [Mark.finished] at hf
      · rfl
      · rename_i w
        cases w
        · exact absurd hl.2.1 (by rw [hb]; simp)
        · rfl
    · intro m _ hm
      rw [Bool.and_eq_true] at hm
      exact hm.1
  · intro k b hb
    obtain ⟨t0, hs⟩ := (h.lab true).sim k b hb
    obtain ⟨j, g1, g2, g3⟩ := sim_count hs (fun m hm => alive_stage (ha m hm) true) (fun m hm => inside_stage (h.one m hm) true)
    refine ⟨j, g1, le_trans (List.countP_mono_left ?_) g2, le_trans g3 (List.countP_mono_left ?_)⟩
    · intro m hm hf
      rw [Bool.and_eq_true] at hf ⊢
      refine ⟨hf.2, ?_⟩
      have : m.pc = .done := by simpa using hf.1
      rw [this]; rfl
    · intro m _ hm
      rw [Bool.and_eq_true] at hm
      have h1 : m.arg.addon = k := of_decide_eq_true hm.1
      simp only [decide_eq_true_eq]
      refine ⟨h1, fun e => ?_⟩
      rw [e] at hm; exact absurd hm.2 (by decide)

/-- **C110.** A call that is over panicked exactly when its error code has no counter, or its error code is fine and its addon has none; and
then that map is full. (The maps are those of the moment, however much later it is.) -/
theorem _root_.GoMetrics.C110_panics_iff (I : Int) (n : Nat) (maxErr maxAdd t1 t2 : Int) (es : List (Ev MarkArg Seen)) :
    let p := wildMarked I n maxErr maxAdd t1 t2 es
    ∀ m ∈ p.calls, m.finished = true →
      (m.pc = .panicked false ↔ m.arg.errorCode ≠ "" ∧ m.arg.errorCode ∉ (p.shared.lab false).counters.keys) ∧
      (m.pc = .panicked true ↔ (m.arg.errorCode = "" ∨ m.arg.errorCode ∈ (p.shared.lab false).counters.keys) ∧
        m.arg.addon ≠ "" ∧ m.arg.addon ∉ (p.shared.lab true).counters.keys) ∧
      (m.pc = .panicked false → maxErr ≤ (p.shared.lab false).counters.length) ∧
      (m.pc = .panicked true → maxAdd ≤ (p.shared.lab true).counters.length) := by
  intro p m hm hf
  have h := minv_run I n maxErr maxAdd t1 t2 es
  change MInv I n maxErr maxAdd t1 t2 p at h
  have l1 := (h.lab false).loc m hm
  have l2 := (h.lab true).loc m hm
  have m1 := (h.lab false).lim
  have m2 := (h.lab true).lim
  have k1 := GoMap.get?_eq_none_iff (p.shared.lab false).counters m.arg.errorCode
  have k2 := GoMap.get?_eq_none_iff (p.shared.lab true).counters m.arg.addon
  simp only [MarkArg.label] at l1 l2
  simp only [Bool.false_eq_true, if_false, if_true] at m1 m2
  have hcase : m.pc = .done ∨ m.pc = .panicked false ∨ m.pc = .panicked true := by
    obtain ⟨a, pc⟩ := m
    cases pc <;> simp [Mark.finished] at hf ⊢
  rcases hcase with e | e | e <;> rw [e] at l1 l2 ⊢
  · change m.arg.errorCode = "" ∨ _ ≠ none at l1
    change m.arg.addon = "" ∨ _ ≠ none at l2
    rw [ne_eq, k1] at l1
    rw [ne_eq, k2] at l2
    simp only [reduceCtorEq, false_iff, false_imp_iff, and_true]
    tauto
  · change _ ∧ _ ∧ _ at l1
    rw [k1, m1] at l1
    simp only [MarkPC.panicked.injEq, Bool.false_eq_true, false_iff, false_imp_iff, and_true, true_iff, true_imp_iff]
    tauto
  · change m.arg.errorCode = "" ∨ _ ≠ none at l1
    change _ ∧ _ ∧ _ at l2
    rw [ne_eq, k1] at l1
    rw [k2, m2] at l2
    simp only [MarkPC.panicked.injEq, Bool.true_eq_false, false_iff, false_imp_iff, true_iff, true_imp_iff, true_and]
    tauto

/-- **C110.** When all calls are over, the counts are exact. -/
theorem _root_.GoMetrics.C110_quiescent (I : Int) (hI : 1000000000 ≤ I) (n : Nat) (maxErr maxAdd t1 t2 : Int) (es : List (Ev MarkArg Seen))
    (hall : ∀ m ∈ (wildMarked I n maxErr maxAdd t1 t2 es).calls, m.finished = true) :
    let p := wildMarked I n maxErr maxAdd t1 t2 es
    p.shared.total.getCount = i64 p.calls.length ∧
    p.shared.success.getCount = i64 (p.calls.countP fun m => m.arg.isSuccess) ∧
    (∀ code b, (p.shared.lab false).counters.get? code = some b → b.getCount = i64 (p.calls.countP fun m => m.arg.errorCode = code)) ∧
    (∀ addon b, (p.shared.lab true).counters.get? addon = some b → b.getCount = i64 (p.calls.countP fun m =>
      m.arg.addon = addon ∧ (m.arg.errorCode = "" ∨ m.arg.errorCode ∈ (p.shared.lab false).counters.keys))) := by
  intro p
  have hpan := C110_panics_iff I n maxErr maxAdd t1 t2 es
  obtain ⟨⟨j1, a1, a2, a3⟩, ⟨j2, b1, b2, b3⟩, hc, hd⟩ := C110_counts I hI n maxErr maxAdd t1 t2 es
  have h := minv_run I n maxErr maxAdd t1 t2 es
  change MInv I n maxErr maxAdd t1 t2 p at h
  change ∀ m ∈ p.calls, m.finished = true at hall
  change p.calls.countP _ ≤ j1 at a2
  change p.calls.countP _ ≤ j2 at b2
  refine ⟨?_, ?_, ?_, ?_⟩
  · have : p.calls.countP Mark.finished = p.calls.length := List.countP_eq_length.2 hall
    have : j1 = p.calls.length := le_antisymm a3 (by rw [← this]; exact a2)
    rw [← this]; exact a1
  · have : p.calls.countP (fun m => m.finished && m.arg.isSuccess) = p.calls.countP (fun m => m.arg.isSuccess) :=
      List.countP_congr fun m hm => by rw [hall m hm, Bool.true_and]
    have : j2 = p.calls.countP (fun m => m.arg.isSuccess) := le_antisymm b3 (by rw [← this]; exact b2)
    rw [← this]; exact b1
  · intro k b hb
    obtain ⟨j, g1, g2, g3⟩ := hc k b hb
    have : p.calls.countP (fun m => m.finished && decide (m.arg.errorCode = k)) = p.calls.countP (fun m => decide (m.arg.errorCode = k)) :=
      List.countP_congr fun m hm => by rw [hall m hm, Bool.true_and]
    have : j = p.calls.countP (fun m => decide (m.arg.errorCode = k)) := le_antisymm g3 (by rw [← this]; exact g2)
    rw [← this]; exact g1
  · intro k b hb
    obtain ⟨j, g1, g2, g3⟩ := hd k b hb
    have e1 : p.calls.countP (fun m => decide (m.pc = .done) && decide (m.arg.addon = k)) = p.calls.countP (fun m =>
      decide (m.arg.addon = k ∧ (m.arg.errorCode = "" ∨ m.arg.errorCode ∈ (p.shared.lab false).counters.keys))) := by
      refine List.countP_congr fun m hm => ?_
      obtain ⟨q1, q2, -⟩ := hpan m hm (hall m hm)
      have hka : m.arg.addon = k → m.arg.addon ∈ (p.shared.lab true).counters.keys := by
        rintro rfl; exact (GoMap.mem_keys_iff _ _).2 ⟨b, hb⟩
      have hcase : m.pc = .done ∨ m.pc = .panicked false ∨ m.pc = .panicked true := by
        have hf := hall m hm
        obtain ⟨a, pc⟩ := m
        cases pc <;> simp [Mark.finished] at hf ⊢
      rw [Bool.and_eq_true, decide_eq_true_eq, decide_eq_true_eq, decide_eq_true_eq]
      constructor
      · rintro ⟨e, e'⟩
        refine ⟨e', ?_⟩
        by_contra hc
        rw [not_or] at hc
        have := q1.2 hc
        rw [e] at this; cases this
      · rintro ⟨e, e'⟩
        refine ⟨?_, e⟩
        rcases hcase with h | h | h
        · exact h
        · exact absurd (q1.1 h) (by tauto)
        · exact absurd (q2.1 h).2.2 (by simpa using hka e)
    have e2 : p.calls.countP (fun m => decide (m.arg.addon = k ∧ m.pc ≠ .panicked false)) = p.calls.countP (fun m =>
      decide (m.arg.addon = k ∧ (m.arg.errorCode = "" ∨ m.arg.errorCode ∈ (p.shared.lab false).counters.keys))) := by
      refine List.countP_congr fun m hm => ?_
      obtain ⟨q1, -⟩ := hpan m hm (hall m hm)
      rw [decide_eq_true_eq, decide_eq_true_eq, ne_eq, q1]
      tauto
    have : j = p.calls.countP (fun m =>
      decide (m.arg.addon = k ∧ (m.arg.errorCode = "" ∨ m.arg.errorCode ∈ (p.shared.lab false).counters.keys))) :=
      le_antisymm (by rw [← e2]; exact g3) (by rw [← e1]; exact g2)
    rw [← this]; exact g1

/-- **C110.** At every moment there are at most `max maxErr 0` error codes and `max maxAdd 0` addons, each once, each passed by some call,
none empty. -/
theorem _root_.GoMetrics.C110_limit (I : Int) (n : Nat) (maxErr maxAdd t1 t2 : Int) (es : List (Ev MarkArg Seen)) :
    let p := wildMarked I n maxErr maxAdd t1 t2 es
    (((p.shared.lab false).counters.length : Int) ≤ max maxErr 0 ∧ (p.shared.lab false).counters.keys.Nodup ∧
      ∀ code ∈ (p.shared.lab false).counters.keys, code ≠ "" ∧ ∃ m ∈ p.calls, m.arg.errorCode = code) ∧
    (((p.shared.lab true).counters.length : Int) ≤ max maxAdd 0 ∧ (p.shared.lab true).counters.keys.Nodup ∧
      ∀ addon ∈ (p.shared.lab true).counters.keys, addon ≠ "" ∧ ∃ m ∈ p.calls, m.arg.addon = addon) := by
  intro p
  have h := minv_run I n maxErr maxAdd t1 t2 es
  exact ⟨⟨(h.lab false).len, (h.lab false).wf, (h.lab false).keys⟩, ⟨(h.lab true).len, (h.lab true).wf, (h.lab true).keys⟩⟩

/-- **C110.** Each of the counters behaves like a `BucketCounter` that many goroutines update on its own: whatever C107 says of
those is true of `GetInstantCount`, `GetBucketSuccessCount`, `GetErrorCodeCounts` and `GetAddonCounts` of a compass. -/
theorem _root_.GoMetrics.C110_bucket_counters (I : Int) (n : Nat) (maxErr maxAdd t1 t2 : Int) (es : List (Ev MarkArg Seen)) :
    let p := wildMarked I n maxErr maxAdd t1 t2 es
    (∃ es', p.shared.total = (BucketCounter.wildAfter I n t1 true es').shared ∧ (BucketCounter.wildAfter I n t1 true es').calls.length = p.calls.length ∧
      ((∀ m ∈ p.calls, m.finished = true) → BucketCounter.AllReturned (BucketCounter.wildAfter I n t1 true es'))) ∧
    (∃ es', p.shared.success = (BucketCounter.wildAfter I n t2 true es').shared ∧
      (BucketCounter.wildAfter I n t2 true es').calls.length = p.calls.countP (fun m => m.arg.isSuccess) ∧
      ((∀ m ∈ p.calls, m.finished = true) → BucketCounter.AllReturned (BucketCounter.wildAfter I n t2 true es'))) ∧
    (∀ w k b, (p.shared.lab w).counters.get? k = some b → ∃ t0 es', b = (BucketCounter.wildAfter I n t0 true es').shared) := by
  intro p
  have h := minv_run I n maxErr maxAdd t1 t2 es
  change MInv I n maxErr maxAdd t1 t2 p at h
  have hrel : ∀ (ms : List Mark) (cs : List BucketCounter.Call) (view : Mark → View),
      List.Forall₂ (fun m c => (view m).rel c) ms cs → (∀ m ∈ ms, view m = .over) → ∀ c ∈ cs, c.returned := by
    intro ms cs view hf
    induction hf with
    | nil => simp
    | cons h1 _ ih =>
      intro hv c hc
      rcases List.mem_cons.1 hc with rfl | hc
      · rw [hv _ (by simp)] at h1; exact h1.2
      · exact ih (fun m hm => hv m (by simp [hm])) c hc
  refine ⟨?_, ?_, ?_⟩
  · obtain ⟨es', g1, g2⟩ := h.total
    refine ⟨es', g1.symm, ?_, fun hf => ?_⟩
    · have := g2.length_eq
      rw [List.filter_true] at this
      exact this.symm
    · refine hrel _ _ (fun m => viewTotal m.pc) g2 ?_
      intro m hm
      have hm := hf m (List.mem_filter.1 hm).1
      obtain ⟨a, pc⟩ := m
      cases pc <;> simp [Mark.finished] at hm <;> rfl
  · obtain ⟨es', g1, g2⟩ := h.success
    refine ⟨es', g1.symm, ?_, fun hf => ?_⟩
    · have := g2.length_eq
      rw [← List.countP_eq_length_filter] at this
      exact this.symm
    · refine hrel _ _ (fun m => viewSuccess m.pc) g2 ?_
      intro m hm
      have hm := hf m (List.mem_filter.1 hm).1
      obtain ⟨a, pc⟩ := m
      cases pc <;> simp [Mark.finished] at hm <;> rfl
  · intro w k b hb
    obtain ⟨t0, es', g1, -⟩ := (h.lab w).sim k b hb
    exact ⟨t0, es', g1.symm⟩

end CompassWild
end GoMetrics
