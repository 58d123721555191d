import Verif.Model.Accesses
import Verif.Proofs.RWLock
import Verif.Proofs.EWMAConc
import Verif.Proofs.CompassUpdateConc
import Verif.Props.MetricName
/-! # The footprints are honest; who holds a lock excludes the others -/
namespace GoMetrics

/-- Two different calls of a kind of which there is at most one. -/
theorem two_of_countP {α : Type} {f : α → Bool} {l : List α} {i j : Nat} {c d : α} (hij : i ≠ j) (hc : l[i]? = some c) (hd : l[j]? = some d)
    (fc : f c = true) (fd : f d = true) (h : l.countP f ≤ 1) : False := by
  wlog hlt : i < j generalizing i j c d
  · exact this (Ne.symm hij) hd hc fd fc (by omega)
  obtain ⟨hi, hc'⟩ := List.getElem?_eq_some_iff.1 hc
  obtain ⟨hj, hd'⟩ := List.getElem?_eq_some_iff.1 hd
  have hsplit : l = l.take (i + 1) ++ l.drop (i + 1) := (List.take_append_drop _ _).symm
  have h1 : 0 < (l.take (i + 1)).countP f := by
    rw [List.countP_pos_iff]
    exact ⟨c, by rw [List.mem_take_iff_getElem]; exact ⟨i, by simp; omega, by simpa using hc'⟩, fc⟩
  have h2 : 0 < (l.drop (i + 1)).countP f := by
    rw [List.countP_pos_iff]
    refine ⟨d, ?_, fd⟩
    rw [List.mem_drop_iff_getElem]
    exact ⟨j - (i + 1), by omega, by rw [← hd']; congr 1; omega⟩
  rw [hsplit, List.countP_append] at h
  omega

namespace Access
variable {Loc : Type} {a b : Access Loc}
theorem Conflict.loc_eq (h : a.Conflict b) : a.loc = b.loc := h.1
theorem Conflict.writes (h : a.Conflict b) : a.write = true ∨ b.write = true := h.2.1
end Access

namespace Guarded
variable {S A L I R Q K V : Type} {G : Guarded S A L I R Q K V}

theorem footprint_honest : footprint.Honest G.machine (fun _ _ => True) where
  frame s x c l _ _ h := by
    cases c <;> cases l <;> simp only [footprint, List.mem_cons, List.not_mem_nil, or_false, forall_eq, awr, wr, rd] at h ⊢ <;>
      simp only [machine, callStep] <;> (repeat' split) <;> first | rfl | (simp at h)
  depends s s' x c _ _ _ h := by
    cases c with
    | wDone a r => exact ⟨rfl, by simp [footprint]⟩
    | rDone a r => exact ⟨rfl, by simp [footprint]⟩
    | wIn a ins l =>
      have h' : s.obj = s'.obj := h (wr .obj) (by simp [footprint])
      simp only [machine, callStep, h', footprint, List.mem_singleton, forall_eq, wr]
      split <;> exact ⟨rfl, rfl⟩
    | rIn q k =>
      have h' : s.obj = s'.obj := h (rd .obj) (by simp [footprint])
      simp only [machine, callStep, h', footprint, List.mem_singleton, forall_eq, rd]
      split <;> exact ⟨rfl, h'⟩
    | wWait a =>
      have h' : (s.writer, s.readers) = (s'.writer, s'.readers) := h (awr .lock) (by simp [footprint])
      obtain ⟨h1, h2⟩ := Prod.mk.inj h'
      simp only [machine, callStep, h1, h2, footprint, List.mem_singleton, forall_eq, awr]
      split <;> simp [h1, h2]
    | rWait a =>
      have h' : (s.writer, s.readers) = (s'.writer, s'.readers) := h (awr .lock) (by simp [footprint])
      obtain ⟨h1, h2⟩ := Prod.mk.inj h'
      simp only [machine, callStep, h1, h2, footprint, List.mem_singleton, forall_eq, awr]
      split <;> simp [h1, h2]
    | wOut a r =>
      have h' : (s.writer, s.readers) = (s'.writer, s'.readers) := h (awr .lock) (by simp [footprint])
      obtain ⟨h1, h2⟩ := Prod.mk.inj h'
      simp [machine, callStep, h2, footprint, awr]
    | rOut a r =>
      have h' : (s.writer, s.readers) = (s'.writer, s'.readers) := h (awr .lock) (by simp [footprint])
      obtain ⟨h1, h2⟩ := Prod.mk.inj h'
      simp [machine, callStep, h1, h2, footprint, awr]

theorem raceFree (s0 : S) : footprint.RaceFree G.machine { obj := s0 } (fun _ => True) := by
  rintro l ⟨es, -, i, j, c, d, a, b, hij, hc, hd, ha, hb, hl, hcon⟩
  have inv := inv_run (G := G) s0 es
  have hw : (G.machine.run (Machine.start { obj := s0 }) es).calls.countP wHolds ≤ 1 := by
    rw [List.countP_eq_length_filter]
    have := inv.writer
    change ((G.machine.run (init s0) es).calls.filter wHolds).length ≤ 1
    rw [this]; split <;> omega
  -- a writer inside excludes readers
  have key : ∀ c d : GuardPC A L I R Q K V, c ∈ (G.machine.run (init s0) es).calls → d ∈ (G.machine.run (init s0) es).calls →
      wHolds c = true → rHolds d = true → False := by
    intro c d hc hd h1 h2
    have e1 : 0 < ((G.machine.run (init s0) es).calls.filter wHolds).length := List.length_pos_of_mem (List.mem_filter.2 ⟨hc, h1⟩)
    have e2 : 0 < ((G.machine.run (init s0) es).calls.filter rHolds).length := List.length_pos_of_mem (List.mem_filter.2 ⟨hd, h2⟩)
    rw [inv.writer] at e1
    rw [inv.readers] at e2
    have : (G.machine.run (init s0) es).shared.writer = true := by
      by_contra hh; rw [if_neg hh] at e1; omega
    have := inv.excl this
    omega
  have mc : c ∈ (G.machine.run (init s0) es).calls := List.mem_of_getElem? hc
  have md : d ∈ (G.machine.run (init s0) es).calls := List.mem_of_getElem? hd
  obtain ⟨h1, h2, h3, -⟩ := hcon
  cases c <;> simp only [footprint, List.mem_singleton, List.not_mem_nil] at ha <;> subst ha <;>
    cases d <;> simp only [footprint, List.mem_singleton, List.not_mem_nil] at hb <;> subst hb <;>
    simp [awr, wr, rd] at h1 h2 h3
  · exact two_of_countP hij hc hd rfl rfl hw
  · exact key _ _ mc md rfl rfl
  · exact key _ _ md mc rfl rfl

end Guarded

namespace EWMA
theorem footprint_honest (R : Rounding) : footprint.Honest (conc R) (fun _ _ => True) where
  frame s x c l _ _ h := by
    cases c <;> cases l <;> simp only [footprint, List.mem_cons, List.not_mem_nil, or_false, forall_eq_or_imp, forall_eq, awr, wr, rd] at h ⊢ <;>
      simp only [conc, callStep, update] <;> (repeat' split) <;> first | rfl | (simp at h)
  depends s s' x c _ _ _ h := by
    cases c with
    | update n =>
      have h' : s.e.uncounted = s'.e.uncounted := h (awr .uncounted) (by simp [footprint])
      simp [conc, callStep, footprint, awr, update, h']
    | updated n => exact ⟨rfl, by simp [footprint]⟩
    | load =>
      have h' : s.e.uncounted = s'.e.uncounted := h (rd .uncounted) (by simp [footprint])
      simp [conc, callStep, footprint, rd, h']
    | cas old =>
      have h' : s.e.uncounted = s'.e.uncounted := h (awr .uncounted) (by simp [footprint])
      simp only [conc, callStep, footprint, h', List.mem_singleton, forall_eq, awr]
      split <;> simp [h']
    | enter own c =>
      have h1 : (s.e.alpha, s.e.interval) = (s'.e.alpha, s'.e.interval) := h (rd .const) (by simp [footprint])
      have h2 : s.held = s'.held := h (awr .mutex) (by simp [footprint])
      obtain ⟨h3, h4⟩ := Prod.mk.inj h1
      simp only [conc, callStep, footprint, h2, List.mem_cons, List.not_mem_nil, or_false, forall_eq_or_imp, forall_eq, awr, rd, instantRate, h4]
      split <;> simp [h2, h3, h4]
    | read own c i =>
      have h1 : (s.e.alpha, s.e.interval) = (s'.e.alpha, s'.e.interval) := h (rd .const) (by simp [footprint])
      have h2 : s.e.initialized = s'.e.initialized := h (rd .initialized) (by simp [footprint])
      have h5 : s.e.rate = s'.e.rate := h (rd .rate) (by simp [footprint])
      obtain ⟨h3, h4⟩ := Prod.mk.inj h1
      simp [conc, callStep, footprint, rd, h2, h3, h4, h5]
    | store own c ini new => exact ⟨rfl, by simp [footprint, conc, callStep, wr]⟩
    | setInit own c => exact ⟨rfl, by simp [footprint, conc, callStep, wr]⟩
    | unlock own c => exact ⟨rfl, by simp [footprint, conc, callStep, awr]⟩
    | done own c => exact ⟨rfl, by simp [footprint]⟩

theorem crit_le_one (R : Rounding) (e0 : EWMA) (es : List (Ev Op Unit)) :
    ((conc R).run (Machine.start ⟨e0, false⟩) es).calls.countP PC.crit ≤ 1 := by
  obtain ⟨l, h⟩ := serial_run R e0 es
  rw [List.countP_eq_length_filter, h.excl]
  split <;> omega

/-- The only field of an average on which its methods race is `uncounted`, and then one of the two is in `Tick`. -/
theorem race_uncounted (R : Rounding) (e0 : EWMA) (es : List (Ev Op Unit)) (l : Loc)
    (h : footprint.RaceAt ((conc R).run (Machine.start ⟨e0, false⟩) es) l) :
    l = .uncounted ∧ PC.load ∈ ((conc R).run (Machine.start ⟨e0, false⟩) es).calls := by
  obtain ⟨i, j, c, d, a, b, hij, hc, hd, ha, hb, hl, h1, h2, h3, -⟩ := h
  have hw := crit_le_one R e0 es
  have mc := List.mem_of_getElem? hc
  have md := List.mem_of_getElem? hd
  by_cases hcc : c.crit = true ∧ d.crit = true
  · exact (two_of_countP hij hc hd hcc.1 hcc.2 hw).elim
  · cases c <;> simp only [footprint, List.mem_cons, List.not_mem_nil, or_false] at ha <;> (try exact absurd ha id) <;>
      cases d <;> simp only [footprint, List.mem_cons, List.not_mem_nil, or_false] at hb <;> (try exact absurd hb id) <;>
      simp only [PC.crit, and_self, not_true_eq_false, and_true, true_and] at hcc <;>
      rcases ha with rfl | rfl | rfl <;> rcases hb with rfl | rfl | rfl <;>
      simp [awr, wr, rd] at h1 h2 h3 <;> exact ⟨hl.symm, by assumption⟩
end EWMA

namespace BucketCounter
theorem footprint_honest : footprint.Honest conc (fun _ _ => True) where
  frame s x c l _ hl h := by
    obtain ⟨n, pc⟩ := c
    cases pc with
    | start =>
      simp only [conc, callStep, bumpTotal]
      split
      · cases l <;> first | rfl | exact absurd (h (awr .total) (by simp [footprint, accesses]) rfl) (by simp [awr])
      · rfl
    | clock => simp only [conc, callStep]; split <;> rfl
    | load ts => simp only [conc, callStep]; split <;> rfl
    | cas ts old =>
      simp only [conc, callStep]
      split
      · cases l with
        | latest => exact absurd (h (awr .latest) (by simp [footprint, accesses]) rfl) (by simp [awr])
        | alloc => exact absurd (h (awr .alloc) (by simp [footprint, accesses]) rfl) (by simp [awr])
        | stamp p =>
          change ((s.heap ++ [_])[p]?).map _ = (s.heap[p]?).map _
          rw [List.getElem?_append_left hl]
        | count p =>
          change ((s.heap ++ [_])[p]?).map _ = (s.heap[p]?).map _
          rw [List.getElem?_append_left hl]
        | _ => rfl
      · rfl
    | reload ts => rfl
    | q1 ts p => rfl
    | q2 ts p k =>
      cases l <;> first | rfl | exact absurd (h (wr .position) (by simp [footprint, accesses]) rfl) (by simp [wr])
    | q3 ts p => rfl
    | q4 ts p k =>
      cases l with
      | slot k' =>
        change (s.buckets.queue.set k p)[k']? = s.buckets.queue[k']?
        by_cases e : k = k'
        · subst e
          exact absurd (h (wr (.slot k)) (by simp [footprint, accesses]) rfl) (by simp [wr])
        · rw [List.getElem?_set_ne e]
      | const =>
        change (s.updateTotalCount, s.interval, (s.buckets.queue.set k p).length) = _
        rw [List.length_set]; rfl
      | _ => rfl
    | add ts p =>
      cases l with
      | stamp q =>
        change ((addAt s.heap p n)[q]?).map _ = (s.heap[q]?).map _
        simp only [addAt, List.getElem?_modify]
        split <;> cases s.heap[q]? <;> rfl
      | count q =>
        by_cases e : p = q
        · subst e
          exact absurd (h (awr (.count p)) (by simp [footprint, accesses]) rfl) (by simp [awr])
        · change ((addAt s.heap p n)[q]?).map _ = (s.heap[q]?).map _
          simp only [addAt, List.getElem?_modify, if_neg e]
          cases s.heap[q]? <;> rfl
      | alloc => exact length_addAt _ _ _
      | _ => rfl
    | done ts p => rfl
    | panicked => rfl
  depends s s' x c _ _ hl h := by
    obtain ⟨n, pc⟩ := c
    cases pc with
    | start =>
      have h1 : (s.updateTotalCount, s.interval, s.buckets.queue.length) = (s'.updateTotalCount, s'.interval, s'.buckets.queue.length) :=
        h (rd .const) (by simp [footprint, accesses])
      have h2 : s.totalCount.count = s'.totalCount.count := h (awr .total) (by simp [footprint, accesses])
      obtain ⟨h3, h4⟩ := Prod.mk.inj h1
      refine ⟨rfl, fun a ha => ?_⟩
      simp only [footprint, accesses, List.mem_cons, List.not_mem_nil, or_false] at ha
      rcases ha with rfl | rfl
      · have e : ∀ b : BucketCounter, footprint.val (rd Loc.const).loc (b.bumpTotal n) = footprint.val (rd Loc.const).loc b := by
          intro b; unfold bumpTotal; split <;> rfl
        exact (e s).trans (h1.trans (e s').symm)
      · simp only [conc, callStep, bumpTotal, h3]
        split
        · exact congrArg (fun z => i64 (z + n)) h2
        · exact h2
    | clock =>
      have h1 : (s.updateTotalCount, s.interval, s.buckets.queue.length) = (s'.updateTotalCount, s'.interval, s'.buckets.queue.length) :=
        h (rd .const) (by simp [footprint, accesses])
      have h4 : s.interval = s'.interval := congrArg (fun x => x.2.1) h1
      refine ⟨by simp only [conc, callStep, h4]; split <;> rfl, fun a ha => ?_⟩
      simp only [footprint, accesses, List.mem_singleton] at ha
      subst ha
      simp only [conc, callStep, h4]
      split <;> exact h1
    | load ts =>
      have h1 : s.latestBucket = s'.latestBucket := h (rd .latest) (by simp [footprint, accesses])
      have h2 : (s.heap[s.latestBucket]?).map (·.timestamp) = (s'.heap[s.latestBucket]?).map (·.timestamp) :=
        h (rd (.stamp s.latestBucket)) (by simp [footprint, accesses])
      have h3 : (s.heap.at s.latestBucket).timestamp = (s'.heap.at s'.latestBucket).timestamp := by
        rw [← h1]
        simp only [BHeap.at]
        cases e1 : s.heap[s.latestBucket]? <;> cases e2 : s'.heap[s.latestBucket]? <;> rw [e1, e2] at h2 <;> simp_all
      refine ⟨by simp only [conc, callStep]; rw [h3, h1]; split <;> rfl, fun a ha => ?_⟩
      have e1 : (conc.step s x ⟨n, .load ts⟩).1 = s := by simp only [conc, callStep]; split <;> rfl
      have e2 : (conc.step s' x ⟨n, .load ts⟩).1 = s' := by simp only [conc, callStep]; split <;> rfl
      rw [e1, e2]; exact h a ha
    | cas ts old =>
      have h1 : s.latestBucket = s'.latestBucket := h (awr .latest) (by simp [footprint, accesses])
      have h2 : s.heap.length = s'.heap.length := h (awr .alloc) (by simp [footprint, accesses])
      refine ⟨by simp only [conc, callStep, h1, h2]; split <;> rfl, fun a ha => ?_⟩
      simp only [footprint, accesses, List.mem_cons, List.not_mem_nil, or_false] at ha
      rcases ha with rfl | rfl
      · simp only [conc, callStep, h1, footprint, Loc.val, awr]
        split
        · exact h2
        · exact h1
      · simp only [conc, callStep, h1, footprint, Loc.val, awr]
        split
        · change (s.heap ++ [_]).length = (s'.heap ++ [_]).length
          rw [List.length_append, List.length_append, h2]
        · exact h2
    | reload ts =>
      have h1 : s.latestBucket = s'.latestBucket := h (rd .latest) (by simp [footprint, accesses])
      exact ⟨by simp only [conc, callStep, h1], fun a ha => h a ha⟩
    | q1 ts p =>
      have h1 : s.buckets.current = s'.buckets.current := h (rd .position) (by simp [footprint, accesses])
      have h2 : (s.updateTotalCount, s.interval, s.buckets.queue.length) = (s'.updateTotalCount, s'.interval, s'.buckets.queue.length) :=
        h (rd .const) (by simp [footprint, accesses])
      have h4 : s.buckets.queue.length = s'.buckets.queue.length := congrArg (fun x => x.2.2) h2
      exact ⟨by simp only [conc, callStep, h1, h4], fun a ha => h a ha⟩
    | q2 ts p k =>
      refine ⟨rfl, fun a ha => ?_⟩
      simp only [footprint, accesses, List.mem_singleton] at ha
      subst ha; rfl
    | q3 ts p =>
      have h1 : s.buckets.current = s'.buckets.current := h (rd .position) (by simp [footprint, accesses])
      exact ⟨by simp only [conc, callStep, h1], fun a ha => h a ha⟩
    | q4 ts p k =>
      refine ⟨rfl, fun a ha => ?_⟩
      have h1 : s.buckets.queue[k]? = s'.buckets.queue[k]? := h (wr (.slot k)) (by simp [footprint, accesses])
      simp only [footprint, accesses, List.mem_singleton] at ha
      subst ha
      change (s.buckets.queue.set k p)[k]? = (s'.buckets.queue.set k p)[k]?
      simp only [List.getElem?_set_self', h1]
    | add ts p =>
      refine ⟨rfl, fun a ha => ?_⟩
      have h1 : (s.heap[p]?).map (·.count) = (s'.heap[p]?).map (·.count) := h (awr (.count p)) (by simp [footprint, accesses])
      simp only [footprint, accesses, List.mem_singleton] at ha
      subst ha
      change ((addAt s.heap p n)[p]?).map (·.count) = ((addAt s'.heap p n)[p]?).map (·.count)
      simp only [addAt, List.getElem?_modify, if_true]
      cases e1 : s.heap[p]? <;> cases e2 : s'.heap[p]? <;> rw [e1, e2] at h1 <;> simp_all
    | done ts p => exact ⟨rfl, by simp [footprint, accesses]⟩
    | panicked => exact ⟨rfl, by simp [footprint, accesses]⟩

/-- Conflicting accesses of two `UpdateN` calls, in whatever state. -/
theorem conflict_where {b : BucketCounter} {c d : Call} {x y : Access Loc} (hx : x ∈ accesses b c) (hy : y ∈ accesses b d) (h : x.Conflict y) :
    x.loc = .latest ∨ x.loc = .position ∨ ∃ k, x.loc = .slot k := by
  obtain ⟨n, pc⟩ := c
  obtain ⟨n', pc'⟩ := d
  obtain ⟨h1, h2, h3, -⟩ := h
  cases pc <;> simp only [accesses, List.mem_cons, List.not_mem_nil, or_false] at hx <;>
    cases pc' <;> simp only [accesses, List.mem_cons, List.not_mem_nil, or_false] at hy <;>
    rcases hx with rfl | rfl <;> rcases hy with rfl | rfl <;>
    simp [awr, wr, rd] at h1 h2 h3 <;> simp [awr, wr, rd]
end BucketCounter

namespace MetricName
theorem footprint_honest : footprint.Honest conc (fun _ _ => True) where
  frame s x c l _ _ h := by
    cases c with
    | loop r =>
      cases r <;> cases l <;> first | rfl | exact absurd (h (wr .hashKey) (by simp [footprint]) rfl) (by simp [wr])
    | lock =>
      simp only [conc, callStep]
      split
      · rfl
      · cases l <;> first | rfl | exact absurd (h (awr .mutex) (by simp [footprint]) rfl) (by simp [awr])
    | writeKey => cases l <;> first | rfl | exact absurd (h (wr .hashKey) (by simp [footprint]) rfl) (by simp [wr])
    | writeSep => cases l <;> first | rfl | exact absurd (h (wr .hashKey) (by simp [footprint]) rfl) (by simp [wr])
    | setDone => cases l <;> first | rfl | exact absurd (h (awr .done) (by simp [footprint]) rfl) (by simp [awr])
    | unlock => cases l <;> first | rfl | exact absurd (h (awr .mutex) (by simp [footprint]) rfl) (by simp [awr])
    | setKey k => cases l <;> first | rfl | exact absurd (h (wr .key) (by simp [footprint]) rfl) (by simp [wr])
    | setTags k => cases l <;> first | rfl | exact absurd (h (wr .tags) (by simp [footprint]) rfl) (by simp [wr])
    | _ => rfl
  depends s s' x c _ _ _ h := by
    cases c with
    | fast =>
      have h1 : s.done = s'.done := h (ard .done) (by simp [footprint])
      exact ⟨by simp only [conc, callStep, h1], fun a ha => h a ha⟩
    | lock =>
      have h1 : s.locked = s'.locked := h (awr .mutex) (by simp [footprint])
      refine ⟨by simp only [conc, callStep, h1]; split <;> rfl, fun a ha => ?_⟩
      simp only [footprint, List.mem_singleton] at ha
      subst ha
      simp only [conc, callStep, h1]
      split
      · exact h1
      · rfl
    | recheck =>
      have h1 : s.done = s'.done := h (rd .done) (by simp [footprint])
      exact ⟨by simp only [conc, callStep, h1], fun a ha => h a ha⟩
    | writeKey =>
      have h1 : s.key = s'.key := h (rd .key) (by simp [footprint])
      refine ⟨rfl, fun a ha => ?_⟩
      simp only [footprint, List.mem_cons, List.not_mem_nil, or_false] at ha
      rcases ha with rfl | rfl <;> exact h1
    | lenCheck =>
      have h1 : s.tags = s'.tags := h (rd .tags) (by simp [footprint])
      exact ⟨by simp only [conc, callStep, h1], fun a ha => h a ha⟩
    | writeSep =>
      have h1 : s.hashKey = s'.hashKey := h (wr .hashKey) (by simp [footprint])
      refine ⟨rfl, fun a ha => ?_⟩
      simp only [footprint, List.mem_singleton] at ha
      subst ha
      exact congrArg (· ++ keyTagsSeparator) h1
    | range =>
      have h1 : s.tags = s'.tags := h (rd .tags) (by simp [footprint])
      exact ⟨by simp only [conc, callStep, h1], fun a ha => h a ha⟩
    | loop r =>
      cases r with
      | nil => exact ⟨rfl, fun a ha => h a ha⟩
      | cons t r =>
        have h1 : s.hashKey = s'.hashKey := h (wr .hashKey) (by simp [footprint])
        have h2 : s.tags = s'.tags := h (rd .tags) (by simp [footprint])
        refine ⟨rfl, fun a ha => ?_⟩
        simp only [footprint, List.mem_cons, List.not_mem_nil, or_false] at ha
        rcases ha with rfl | rfl
        · exact h2
        · exact congrArg (· ++ tagPiece t) h1
    | ret =>
      have h1 : s.hashKey = s'.hashKey := h (rd .hashKey) (by simp [footprint])
      exact ⟨by simp only [conc, callStep, h1], fun a ha => h a ha⟩
    | setDone | unlock | setKey k | setTags t =>
      refine ⟨rfl, fun a ha => ?_⟩
      simp only [footprint, List.mem_singleton] at ha
      subst ha; rfl
    | returned k | finished => exact ⟨rfl, by simp [footprint]⟩

/-- `HashKey` alone never races. -/
theorem no_race {s : Shared} {cs : List PC} (inv : Inv s cs) (hset : ∀ c ∈ cs, (∀ k, c ≠ .setKey k) ∧ ∀ t, c ≠ .setTags t) (l : Loc) :
    ¬ footprint.RaceAt ⟨s, cs⟩ l := by
  rintro ⟨i, j, c, d, a, b, hij, hc, hd, ha, hb, hl, h1, h2, h3, -⟩
  have mc : c ∈ cs := List.mem_of_getElem? hc
  have md : d ∈ cs := List.mem_of_getElem? hd
  have hw : cs.countP PC.holds ≤ 1 := by rw [inv.lock]; split <;> omega
  have key : ∀ c d : PC, c ∈ cs → d ∈ cs → c = .ret → d.inClosure = true → False := by
    intro c d hc hd e1 e2
    have := inv.closure (inv.after c hc (Or.inl (by rw [e1]; rfl))) d hd
    rw [this] at e2; cases e2
  have sc := hset c mc
  have sd := hset d md
  by_cases hcc : c.holds = true ∧ d.holds = true
  · exact two_of_countP hij hc hd hcc.1 hcc.2 hw
  · by_cases k1 : c = .ret ∧ d.inClosure = true
    · exact key c d mc md k1.1 k1.2
    · by_cases k2 : d = .ret ∧ c.inClosure = true
      · exact key d c md mc k2.1 k2.2
      · have cases' : ∀ (c : PC) (a : Access Loc), a ∈ footprint.acc s c → (∀ k, c ≠ .setKey k) → (∀ t, c ≠ .setTags t) →
            (c = .ret ∧ a = rd .hashKey) ∨ (c.holds = true ∧ c.inClosure = true ∧ 
              (a.loc = .hashKey ∨ a = awr .done ∨ a.loc = .key ∨ a.loc = .tags)) ∨
            (c.holds = true ∧ a = rd .done) ∨ a = ard .done ∨ a = awr .mutex := by
          intro c a ha n1 n2
          cases c with
          | setKey k => exact absurd rfl (n1 k)
          | setTags k => exact absurd rfl (n2 k)
          | loop r =>
            cases r <;> simp only [footprint, List.mem_cons, List.not_mem_nil, or_false] at ha <;> rcases ha with rfl | rfl <;>
              simp [PC.holds, PC.inClosure, awr, wr, rd, ard]
          | _ =>
            simp only [footprint, List.mem_cons, List.not_mem_nil, or_false] at ha <;> first
            | exact absurd ha id
            | (rcases ha with rfl | rfl <;> simp [PC.holds, PC.inClosure, awr, wr, rd, ard])
        rcases cases' c a ha sc.1 sc.2 with ⟨e, rfl⟩ | ⟨hh, ic, hx⟩ | ⟨hh, rfl⟩ | rfl | rfl <;>
          rcases cases' d b hb sd.1 sd.2 with ⟨e', rfl⟩ | ⟨hh', ic', hx'⟩ | ⟨hh', rfl⟩ | rfl | rfl <;>
          first
          | exact hcc ⟨hh, hh'⟩
          | exact k1 ⟨e, ic'⟩
          | exact k2 ⟨e', ic⟩
          | (simp [awr, wr, rd, ard] at h1 h2 h3; done)
          | (rcases hx with hx | hx | hx | hx <;> first | exact h3 ⟨by rw [hx]; rfl, rfl⟩ | (rw [hx] at h1; cases h1))
          | (rcases hx' with hx' | hx' | hx' | hx' <;> first | exact h3 ⟨rfl, by rw [hx']; rfl⟩ | (rw [hx'] at h1; cases h1))

theorem built_run (key : GoStr) (tags : GoMap GoStr GoStr) (es : List (Ev Call (List (GoStr × GoStr))))
    (hes : ∀ a, Ev.spawn a ∈ es → a = .hashKey) :
    ∀ c ∈ (conc.run (Machine.start { key := key, tags := tags }) es).calls, (∀ k, c ≠ .setKey k) ∧ ∀ t, c ≠ .setTags t := by
  induction es using List.reverseRecOn with
  | nil => intro c hc; simp [Machine.run, Machine.start] at hc
  | append_singleton es e ih =>
    have ih := ih (fun a ha => hes a (List.mem_append_left _ ha))
    rw [Machine.run_snoc]
    cases e with
    | spawn a =>
      intro c hc
      have := hes a (by simp)
      subst this
      rcases List.mem_append.1 hc with hc | hc
      · exact ih c hc
      · rw [List.mem_singleton.1 hc]; exact ⟨fun k => by simp [conc, begin], fun t => by simp [conc, begin]⟩
    | step i x =>
      intro c hc
      cases hi : (conc.run (Machine.start { key := key, tags := tags }) es).calls[i]? with
      | none => simp only [Machine.apply, hi] at hc; exact ih c hc
      | some d =>
        simp only [Machine.apply, hi] at hc
        rcases List.mem_or_eq_of_mem_set hc with hc | rfl
        · exact ih c hc
        · have := ih d (List.mem_of_getElem? hi)
          cases d with
          | setKey k => exact absurd rfl (this.1 k)
          | setTags k => exact absurd rfl (this.2 k)
          | loop r => cases r <;> simp [conc, callStep]
          | _ => simp only [conc, callStep] <;> (repeat' split) <;> simp
end MetricName

namespace CompassConc
theorem tickFootprint_honest (I : Int) : tickFootprint.Honest (conc I) (fun _ _ => True) where
  frame s x c l _ _ h := by
    cases c with
    | readOld u | readClock u o | load u n | done u => rfl
    | swap u o n t =>
      simp only [conc, callStep]
      split
      · cases l <;> first | rfl | exact absurd (h (awr .lastTick) (by simp [tickFootprint]) rfl) (by simp [awr])
      · rfl
    | take u n k =>
      simp only [conc, callStep]
      split
      · cases l <;> first | rfl | exact absurd (h (awr .uncounted) (by simp [tickFootprint]) rfl) (by simp [awr])
      · rfl
    | tick1 u n k => cases l <;> first | rfl | exact absurd (h (lwr .m1) (by simp [tickFootprint]) rfl) (by simp [lwr])
    | tick5 u n k => cases l <;> first | rfl | exact absurd (h (lwr .m5) (by simp [tickFootprint]) rfl) (by simp [lwr])
    | tick15 u n k => cases l <;> first | rfl | exact absurd (h (lwr .m15) (by simp [tickFootprint]) rfl) (by simp [lwr])
    | add => cases l <;> first | rfl | exact absurd (h (awr .uncounted) (by simp [tickFootprint]) rfl) (by simp [awr])
  depends s s' x c _ _ _ h := by
    cases c with
    | readOld u =>
      have h1 : s.lastTick = s'.lastTick := h (rd .lastTick) (by simp [tickFootprint])
      exact ⟨by simp only [conc, callStep, h1], fun a ha => h a ha⟩
    | readClock u o => exact ⟨rfl, by simp [tickFootprint]⟩
    | done u => exact ⟨rfl, by simp [tickFootprint]⟩
    | load u n =>
      have h1 : s.uncounted = s'.uncounted := h (ard .uncounted) (by simp [tickFootprint])
      exact ⟨by simp only [conc, callStep, h1], fun a ha => h a ha⟩
    | swap u o n t =>
      have h1 : s.lastTick = s'.lastTick := h (awr .lastTick) (by simp [tickFootprint])
      refine ⟨by simp only [conc, callStep, h1]; split <;> rfl, fun a ha => ?_⟩
      simp only [tickFootprint, List.mem_singleton] at ha
      subst ha
      simp only [conc, callStep, h1]
      split
      · rfl
      · exact h1
    | take u n k =>
      have h1 : s.uncounted = s'.uncounted := h (awr .uncounted) (by simp [tickFootprint])
      refine ⟨by simp only [conc, callStep, h1]; split <;> rfl, fun a ha => ?_⟩
      simp only [tickFootprint, List.mem_singleton] at ha
      subst ha
      simp only [conc, callStep, h1]
      split
      · rfl
      · exact h1
    | tick1 u n k =>
      have h1 : s.fed1 = s'.fed1 := h (lwr .m1) (by simp [tickFootprint])
      refine ⟨rfl, fun a ha => ?_⟩
      simp only [tickFootprint, List.mem_singleton] at ha
      subst ha; exact congrArg (· ++ [k]) h1
    | tick5 u n k =>
      have h1 : s.fed5 = s'.fed5 := h (lwr .m5) (by simp [tickFootprint])
      refine ⟨rfl, fun a ha => ?_⟩
      simp only [tickFootprint, List.mem_singleton] at ha
      subst ha; exact congrArg (· ++ [k]) h1
    | tick15 u n k =>
      have h1 : s.fed15 = s'.fed15 := h (lwr .m15) (by simp [tickFootprint])
      refine ⟨rfl, fun a ha => ?_⟩
      simp only [tickFootprint, List.mem_singleton] at ha
      subst ha; exact congrArg (· ++ [k]) h1
    | add =>
      have h1 : s.uncounted = s'.uncounted := h (awr .uncounted) (by simp [tickFootprint])
      refine ⟨rfl, fun a ha => ?_⟩
      simp only [tickFootprint, List.mem_singleton] at ha
      subst ha; exact congrArg (fun z => i64 (z + 1)) h1

theorem tick_conflict {s : Shared} {c d : PC} {x y : Access TickLoc} (hx : x ∈ tickFootprint.acc s c) (hy : y ∈ tickFootprint.acc s d)
    (h : x.Conflict y) : x.loc = .lastTick := by
  obtain ⟨h1, h2, h3, h4⟩ := h
  cases c <;> simp only [tickFootprint, List.mem_singleton, List.not_mem_nil] at hx <;> subst hx <;>
    cases d <;> simp only [tickFootprint, List.mem_singleton, List.not_mem_nil] at hy <;> subst hy <;>
    simp [awr, rd, ard, lwr] at h1 h2 h3 h4 <;> rfl
end CompassConc

namespace Counter
theorem footprint_honest : footprint.Honest usage (fun _ _ => True) where
  frame s x c l _ _ h := by
    rcases c with (o | _) | v
    · exact absurd (h (awr ()) (by simp [footprint]) rfl) (by simp [awr])
    · rfl
    · rfl
  depends s s' x c _ _ _ h := by
    rcases c with (o | _) | v
    · have h1 : s.count = s'.count := h (awr ()) (by simp [footprint])
      have : s = s' := by cases s; cases s'; simp_all
      subst this; exact ⟨rfl, fun _ _ => rfl⟩
    · have h1 : s.count = s'.count := h (rd ()) (by simp [footprint])
      exact ⟨by simp only [usage, getCount, h1], fun a ha => h a ha⟩
    · exact ⟨rfl, by simp [footprint]⟩
end Counter

namespace EDRConc
theorem rescaleLocked_next (A : EDR.Arith) (r : EDR) (t : Int) : (EDR.rescaleLocked A r t).nextScaleTime = r.nextScaleTime ∧
    (EDR.rescaleLocked A r t).alpha = r.alpha ∧ (EDR.rescaleLocked A r t).size = r.size := by
  unfold EDR.rescaleLocked; dsimp only; split <;> exact ⟨rfl, rfl, rfl⟩

theorem rescaleLocked_dep (A : EDR.Arith) (r r' : EDR) (t : Int) (h1 : r.alpha = r'.alpha) (h2 : r.startTime = r'.startTime) (h3 : r.values = r'.values) :
    (EDR.rescaleLocked A r t).startTime = (EDR.rescaleLocked A r' t).startTime ∧ (EDR.rescaleLocked A r t).values = (EDR.rescaleLocked A r' t).values ∧
      (EDR.rescaleLocked A r t).count = (EDR.rescaleLocked A r' t).count := by
  simp only [EDR.rescaleLocked, h1, h2, EDR.getValues, h3]
  split <;> exact ⟨rfl, rfl, rfl⟩

theorem record_const (r : EDR) (p : F64) (v : Int) (w : F64) : (EDR.record r p v w).state.nextScaleTime = r.nextScaleTime ∧
    (EDR.record r p v w).state.startTime = r.startTime ∧ (EDR.record r p v w).state.alpha = r.alpha ∧ (EDR.record r p v w).state.size = r.size := by
  unfold EDR.record; dsimp only; (repeat' split) <;> exact ⟨rfl, rfl, rfl, rfl⟩

theorem record_dep (r r' : EDR) (p : F64) (v : Int) (w : F64) (h1 : r.count = r'.count) (h2 : r.values = r'.values) (h3 : r.size = r'.size) :
    (EDR.record r p v w).panicked = (EDR.record r' p v w).panicked ∧ (EDR.record r p v w).state.count = (EDR.record r' p v w).state.count ∧
      (EDR.record r p v w).state.values = (EDR.record r' p v w).state.values := by
  simp only [EDR.record, h1, h2, h3, EDR.getValues]
  (repeat' split) <;> simp_all [Res.state, Res.panicked]

theorem lockRecord_step (A : EDR.Arith) (s : Shared) (x : In) (v : Int) (prio w : F64) (ts : Int) (u : F64) (l : Int) :
    callStep A s x (.lockRecord v prio w ts u l) = ({ s with rsv := (EDR.record s.rsv prio v w).state },
      if (EDR.record s.rsv prio v w).panicked then .panicked v else .updated v ts u (s.rsv.startTime - l)) := by
  simp only [callStep]
  cases EDR.record s.rsv prio v w <;> rfl

theorem footprint_honest (A : EDR.Arith) : footprint.Honest (machine A) (fun _ _ => True) where
  frame s x c l _ _ h := by
    cases c with
    | cas act now due next =>
      simp only [machine, callStep]
      split
      · cases l <;> first | rfl | exact absurd (h (awr .nextScaleTime) (by simp [footprint]) rfl) (by simp [awr])
      · rfl
    | lockScale act =>
      have e := rescaleLocked_next A s.rsv x.time
      cases l with
      | nextScaleTime => exact e.1
      | const => exact Prod.ext e.2.1 e.2.2
      | startTime => exact absurd (h (lwr .startTime) (by simp [footprint]) rfl) (by simp [lwr])
      | values => exact absurd (h (lwr .values) (by simp [footprint]) rfl) (by simp [lwr])
      | count => exact absurd (h (lwr .count) (by simp [footprint]) rfl) (by simp [lwr])
    | lockRecord v prio w ts u k =>
      have e := record_const s.rsv prio v w
      change footprint.val l (callStep A s x _).1 = _
      rw [lockRecord_step]
      cases l with
      | nextScaleTime => exact e.1
      | startTime => exact e.2.1
      | const => exact Prod.ext e.2.2.1 e.2.2.2
      | values => exact absurd (h (lwr .values) (by simp [footprint]) rfl) (by simp [lwr])
      | count => exact absurd (h (lwr .count) (by simp [footprint]) rfl) (by simp [lwr])
    | _ => rfl
  depends s s' x c _ _ _ h := by
    cases c with
    | tick act | time v => exact ⟨rfl, by simp [footprint]⟩
    | updated v ts u k | snapshot l | sized n | panicked v => exact ⟨rfl, by simp [footprint]⟩
    | check act now =>
      have h1 : s.rsv.nextScaleTime = s'.rsv.nextScaleTime := h (rd .nextScaleTime) (by simp [footprint])
      exact ⟨by simp only [machine, callStep, h1], fun a ha => h a ha⟩
    | reread act now due =>
      have h1 : s.rsv.nextScaleTime = s'.rsv.nextScaleTime := h (rd .nextScaleTime) (by simp [footprint])
      exact ⟨by simp only [machine, callStep, h1], fun a ha => h a ha⟩
    | cas act now due next =>
      have h1 : s.rsv.nextScaleTime = s'.rsv.nextScaleTime := h (awr .nextScaleTime) (by simp [footprint])
      refine ⟨by simp only [machine, callStep, h1]; split <;> rfl, fun a ha => ?_⟩
      simp only [footprint, List.mem_singleton] at ha
      subst ha
      simp only [machine, callStep, h1]
      split
      · rfl
      · exact h1
    | lockScale act =>
      have h0 : (s.rsv.alpha, s.rsv.size) = (s'.rsv.alpha, s'.rsv.size) := h (rd .const) (by simp [footprint])
      have h1 : s.rsv.startTime = s'.rsv.startTime := h (lwr .startTime) (by simp [footprint])
      have h2 : s.rsv.values = s'.rsv.values := h (lwr .values) (by simp [footprint])
      obtain ⟨h3, h4⟩ := Prod.mk.inj h0
      have e := rescaleLocked_dep A s.rsv s'.rsv x.time h3 h1 h2
      have n := rescaleLocked_next A s.rsv x.time
      have n' := rescaleLocked_next A s'.rsv x.time
      refine ⟨rfl, fun a ha => ?_⟩
      simp only [footprint, List.mem_cons, List.not_mem_nil, or_false] at ha
      rcases ha with rfl | rfl | rfl | rfl
      · exact Prod.ext (n.2.1.trans (h3.trans n'.2.1.symm)) (n.2.2.trans (h4.trans n'.2.2.symm))
      · exact e.1
      · exact e.2.1
      · exact e.2.2
    | weigh v ts =>
      have h0 : (s.rsv.alpha, s.rsv.size) = (s'.rsv.alpha, s'.rsv.size) := h (rd .const) (by simp [footprint])
      have h1 : s.rsv.startTime = s'.rsv.startTime := h (rd .startTime) (by simp [footprint])
      obtain ⟨h3, h4⟩ := Prod.mk.inj h0
      exact ⟨by simp only [machine, callStep, h1, h3], fun a ha => h a ha⟩
    | lockRecord v prio w ts u k =>
      have h0 : (s.rsv.alpha, s.rsv.size) = (s'.rsv.alpha, s'.rsv.size) := h (rd .const) (by simp [footprint])
      have h1 : s.rsv.startTime = s'.rsv.startTime := h (lrd .startTime) (by simp [footprint])
      have h2 : s.rsv.values = s'.rsv.values := h (lwr .values) (by simp [footprint])
      have h5 : s.rsv.count = s'.rsv.count := h (lwr .count) (by simp [footprint])
      obtain ⟨h3, h4⟩ := Prod.mk.inj h0
      have e := record_dep s.rsv s'.rsv prio v w h5 h2 h4
      have n := record_const s.rsv prio v w
      have n' := record_const s'.rsv prio v w
      simp only [machine, lockRecord_step]
      refine ⟨by rw [e.1, h1], fun a ha => ?_⟩
      simp only [footprint, List.mem_cons, List.not_mem_nil, or_false] at ha
      rcases ha with rfl | rfl | rfl | rfl
      · exact Prod.ext (n.2.2.1.trans (h3.trans n'.2.2.1.symm)) (n.2.2.2.trans (h4.trans n'.2.2.2.symm))
      · exact n.2.1.trans (h1.trans n'.2.1.symm)
      · exact e.2.1
      · exact e.2.2
    | lockSnap =>
      have h2 : s.rsv.values = s'.rsv.values := h (lrd .values) (by simp [footprint])
      exact ⟨by simp only [machine, callStep, EDR.getValues, h2], fun a ha => h a ha⟩
    | size1 =>
      have h0 : (s.rsv.alpha, s.rsv.size) = (s'.rsv.alpha, s'.rsv.size) := h (rd .const) (by simp [footprint])
      have h5 : s.rsv.count = s'.rsv.count := h (rd .count) (by simp [footprint])
      obtain ⟨h3, h4⟩ := Prod.mk.inj h0
      exact ⟨by simp only [machine, callStep, h4, h5], fun a ha => h a ha⟩
    | size2 =>
      have h5 : s.rsv.count = s'.rsv.count := h (rd .count) (by simp [footprint])
      exact ⟨by simp only [machine, callStep, h5], fun a ha => h a ha⟩

theorem conflict_where {s : Shared} {c d : PC} {x y : Access Loc} (hx : x ∈ footprint.acc s c) (hy : y ∈ footprint.acc s d)
    (h : x.Conflict y) : x.loc = .nextScaleTime ∨ x.loc = .startTime ∨ x.loc = .count := by
  obtain ⟨h1, h2, h3, h4⟩ := h
  cases c <;> simp only [footprint, List.mem_cons, List.not_mem_nil, or_false] at hx <;>
    cases d <;> simp only [footprint, List.mem_cons, List.not_mem_nil, or_false] at hy <;>
    rcases hx with rfl | rfl | rfl | rfl <;> rcases hy with rfl | rfl | rfl | rfl <;>
    simp [awr, rd, lwr, lrd] at h1 h2 h3 h4 <;> simp [awr, rd, lwr]
end EDRConc

namespace Registry
theorem footprint_honest : footprint.Honest conc (fun _ _ => True) where
  frame s x c l _ hl h := by
    have hset : ∀ (m : Mem) (r : Nat) (v : Reg) (r' : Nat), r' ≠ r → ((m.setReg r v).regs r') = m.regs r' := by
      intro m r v r' hne; simp [Mem.setReg, hne]
    cases c with
    | loadGroup q g => simp only [conc, callStep]; split <;> rfl
    | storeGroup q g =>
      have hne : ∀ r, r < s.nextReg → (s.setReg s.nextReg { maxMetricCount := 5000 }).regs r = s.regs r := by
        intro r hr; exact hset _ _ _ _ (by omega)
      simp only [conc, callStep]
      split
      · cases l with
        | alloc => exact absurd (h (awr .alloc) (by simp [footprint]) rfl) (by simp [awr])
        | map r => exact congrArg Reg.metricsMap (hne r hl)
        | count r => exact congrArg Reg.metricsCount (hne r hl)
        | const r => exact congrArg Reg.maxMetricCount (hne r hl)
        | _ => rfl
      · cases l with
        | alloc => exact absurd (h (awr .alloc) (by simp [footprint]) rfl) (by simp [awr])
        | groups => exact absurd (h (awr .groups) (by simp [footprint]) rfl) (by simp [awr])
        | map r => exact congrArg Reg.metricsMap (hne r hl)
        | count r => exact congrArg Reg.metricsCount (hne r hl)
        | const r => exact congrArg Reg.maxMetricCount (hne r hl)
        | _ => rfl
    | load q r => simp only [conc, callStep]; split <;> rfl
    | create q r =>
      cases l <;> first | rfl | exact absurd (h (awr .alloc) (by simp [footprint]) rfl) (by simp [awr])
    | store q r m =>
      simp only [conc, callStep]
      split
      · rfl
      · cases l with
        | map r' =>
          by_cases e : r' = r
          · subst e; exact absurd (h (awr (.map r')) (by simp [footprint]) rfl) (by simp [awr])
          · exact congrArg Reg.metricsMap (hset _ _ _ _ e)
        | count r' =>
          by_cases e : r' = r
          · subst e; simp [footprint, Mem.setReg]
          · exact congrArg Reg.metricsCount (hset _ _ _ _ e)
        | const r' =>
          by_cases e : r' = r
          · subst e; simp [footprint, Mem.setReg]
          · exact congrArg Reg.maxMetricCount (hset _ _ _ _ e)
        | _ => rfl
    | incr q r m =>
      cases l with
      | count r' =>
        by_cases e : r' = r
        · subst e; exact absurd (h (awr (.count r')) (by simp [footprint]) rfl) (by simp [awr])
        · exact congrArg Reg.metricsCount (hset _ _ _ _ e)
      | map r' =>
        by_cases e : r' = r
        · subst e; simp [footprint, Mem.setReg, conc, callStep]
        · exact congrArg Reg.metricsMap (hset _ _ _ _ e)
      | const r' =>
        by_cases e : r' = r
        · subst e; simp [footprint, Mem.setReg, conc, callStep]
        · exact congrArg Reg.maxMetricCount (hset _ _ _ _ e)
      | _ => rfl
    | setEnable b => cases l <;> first | rfl | exact absurd (h (wr .enable) (by simp [footprint]) rfl) (by simp [wr])
    | _ => rfl
  depends s s' x c _ _ _ h := by
    cases c with
    | readEnable q g =>
      have h1 : s.enable = s'.enable := h (rd .enable) (by simp [footprint])
      exact ⟨by simp only [conc, callStep, h1], fun a ha => h a ha⟩
    | loadGroup q g =>
      have h1 : s.groups = s'.groups := h (ard .groups) (by simp [footprint])
      refine ⟨by simp only [conc, callStep, h1]; split <;> rfl, fun a ha => ?_⟩
      have e1 : ∀ s : Mem, (conc.step s x (.loadGroup q g)).1 = s := by intro s; simp only [conc, callStep]; split <;> rfl
      rw [e1, e1]; exact h a ha
    | storeGroup q g =>
      have h1 : s.groups = s'.groups := h (awr .groups) (by simp [footprint])
      have h2 : (s.nextReg, s.fresh) = (s'.nextReg, s'.fresh) := h (awr .alloc) (by simp [footprint])
      obtain ⟨h3, h4⟩ := Prod.mk.inj h2
      refine ⟨by simp only [conc, callStep, h1, h3]; split <;> rfl, fun a ha => ?_⟩
      simp only [footprint, List.mem_cons, List.not_mem_nil, or_false] at ha
      rcases ha with rfl | rfl
      · simp only [conc, callStep, h1, h3]
        split
        · exact h1
        · rfl
      · simp only [conc, callStep, h1, h3]
        split <;> exact Prod.ext rfl h4
    | load q r =>
      have h1 : (s.regs r).metricsMap = (s'.regs r).metricsMap := h (ard (.map r)) (by simp [footprint])
      refine ⟨by simp only [conc, callStep, h1]; split <;> rfl, fun a ha => ?_⟩
      have e1 : ∀ s : Mem, (conc.step s x (.load q r)).1 = s := by intro s; simp only [conc, callStep]; split <;> rfl
      rw [e1, e1]; exact h a ha
    | create q r =>
      have h2 : (s.nextReg, s.fresh) = (s'.nextReg, s'.fresh) := h (awr .alloc) (by simp [footprint])
      obtain ⟨h3, h4⟩ := Prod.mk.inj h2
      refine ⟨by simp only [conc, callStep, h4], fun a ha => ?_⟩
      simp only [footprint, List.mem_singleton] at ha
      subst ha
      exact Prod.ext h3 (congrArg (· + 1) h4)
    | check q r m =>
      have h1 : (s.regs r).metricsCount = (s'.regs r).metricsCount := h (rd (.count r)) (by simp [footprint])
      have h2 : (s.regs r).maxMetricCount = (s'.regs r).maxMetricCount := h (rd (.const r)) (by simp [footprint])
      exact ⟨by simp only [conc, callStep, h1, h2], fun a ha => h a ha⟩
    | store q r m =>
      have h1 : (s.regs r).metricsMap = (s'.regs r).metricsMap := h (awr (.map r)) (by simp [footprint])
      refine ⟨by simp only [conc, callStep, h1]; split <;> rfl, fun a ha => ?_⟩
      simp only [footprint, List.mem_singleton] at ha
      subst ha
      simp only [conc, callStep, h1]
      split
      · exact h1
      · simp [footprint, awr, Mem.setReg]
    | incr q r m =>
      have h1 : (s.regs r).metricsCount = (s'.regs r).metricsCount := h (awr (.count r)) (by simp [footprint])
      refine ⟨rfl, fun a ha => ?_⟩
      simp only [footprint, List.mem_singleton] at ha
      subst ha
      simp [footprint, awr, Mem.setReg, conc, callStep, h1]
    | setEnable b =>
      refine ⟨rfl, fun a ha => ?_⟩
      simp only [footprint, List.mem_singleton] at ha
      subst ha; rfl
    | _ => exact ⟨rfl, by simp [footprint]⟩

theorem conflict_where {s : Mem} {c d : PC} {x y : Access Loc} (hx : x ∈ footprint.acc s c) (hy : y ∈ footprint.acc s d)
    (h : x.Conflict y) : x.loc = .enable ∨ ∃ r, x.loc = .count r := by
  obtain ⟨h1, h2, h3, h4⟩ := h
  cases c <;> simp only [footprint, List.mem_cons, List.not_mem_nil, or_false] at hx <;>
    cases d <;> simp only [footprint, List.mem_cons, List.not_mem_nil, or_false] at hy <;>
    rcases hx with rfl | rfl <;> rcases hy with rfl | rfl <;>
    simp [awr, rd, ard, wr] at h1 h2 h3 h4 <;> simp [awr, rd, wr]
end Registry
end GoMetrics
