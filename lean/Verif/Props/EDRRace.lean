import Verif.Props.EDRConc
/-! # C69: what a racing rescale does to a decaying reservoir, exactly -/
namespace GoMetrics
open Rounding
namespace EDRConc
open EDR

/-- What a call may hold in its hands. -/
def okS (b : ℚ) : PC → Prop
  | .weigh _ ts => ∃ t, InI64 t ∧ ts = currentTimeInSecond t
  | .lockRecord _ p w ts u l => ∃ q : ℚ, 0 < q ∧ u = .fin q ∧ w = .fin (b ^ (ts - l)) ∧ p = .fin (b ^ (ts - l) / q)
  | .updated _ _ u _ => ∃ q : ℚ, 0 < q ∧ u = .fin q
  | _ => True

theorem after_okS (b : ℚ) (act : Act) : okS b (after act) := by cases act <;> trivial

theorem counted_same {pre post : List PC} {c c' : PC} (h : c.counted = c'.counted) :
    (pre ++ c' :: post).filterMap PC.counted = (pre ++ c :: post).filterMap PC.counted := by
  simp [List.filterMap_cons, h]

theorem counted_after (act : Act) : (after act).counted = none := by cases act <;> rfl

theorem counted_pos {b : ℚ} {cs : List PC} (h : ∀ c ∈ cs, okS b c) : ∀ e ∈ cs.filterMap PC.counted, 0 < e.u := by
  intro e he
  obtain ⟨c, hc, hce⟩ := List.mem_filterMap.1 he
  have := h c hc
  cases c <;> simp only [PC.counted, Option.some.injEq, reduceCtorEq] at hce
  obtain ⟨q, hq, hu⟩ := this
  subst hce
  simp only [hu, rat]; exact hq

/-- Everything that holds after `n` steps, the last clock reading being `T`. -/
structure GoodS (a b : ℚ) (k : Int) (n : Nat) (T : Int) (p : Pool Shared PC) : Prop where
  start : ∃ t, InI64 t ∧ t ≤ T ∧ p.shared.rsv.startTime = currentTimeInSecond t
  calls : ∀ c ∈ p.calls, okS b c
  len : (counted p).length ≤ n
  held : ((counted p).map (Rec.prio b)).Nodup → J a b k p.shared.rsv (counted p)
  alpha : p.shared.rsv.alpha = .fin a
  inv : InvA p.shared.rsv
  rsize : p.shared.rsv.size = k

theorem J.next {a b : ℚ} {k : Int} {r : EDR} {all : List Rec} (h : J a b k r all) (d : Int) : J a b k { r with nextScaleTime := d } all :=
  ⟨h.alpha, h.size, h.held, h.count0, h.countn, h.count⟩

theorem J_rescaleLocked {A : Arith} {a b : ℚ} (hA : A.Exact a b) {size : Int} (hsz : 0 ≤ size) {r : EDR} {all : List Rec} (h : J a b size r all)
    (hu : ∀ e ∈ all, 0 < e.u) (hn : (all.length : Int) < 9223372036854775808) (time : Int)
    (hi : InI64 (currentTimeInSecond time - r.startTime)) (hL : r.startTime ≤ currentTimeInSecond time) :
    J a b size (rescaleLocked A r time) all := by
  have h1 := (J_rescale hA hsz h hu hn r.nextScaleTime time hi hL).1
  unfold rescaleIfNeeded at h1
  rw [if_pos le_rfl] at h1
  obtain ⟨kept, hv, hk⟩ := h.held
  have e1 := rescaleLocked_exact hA (r := r) (time := time) h.alpha hv hk.ascending (fun e he => hu e (hk.mem he)) hi hL
  have e2 := rescaleLocked_exact hA (r := { r with nextScaleTime := i64 (r.nextScaleTime + rescaleThreshold) }) (time := time) h.alpha hv
    hk.ascending (fun e he => hu e (hk.mem he)) hi hL
  rw [e2] at h1
  rw [e1]
  exact J.next h1 r.nextScaleTime

theorem goodS_step {A : Arith} {a b : ℚ} (hA : A.Exact a b) {size : Int} (hsz : 1 ≤ size)
    {n : Nat} (hn : (n : Int) + 1 < 9223372036854775808) {s : Shared} {pre post : List PC} {c : PC} (x : In) (hu : ∃ q : ℚ, x.u = .fin q ∧ 0 < q)
    (hi : InI64 x.time) {T : Int} (hT : T ≤ x.time) (h : GoodS a b size n T ⟨s, pre ++ c :: post⟩) :
    GoodS a b size (n + 1) x.time ⟨(callStep A s x c).1, pre ++ (callStep A s x c).2 :: post⟩ := by
  have hc := h.calls c (by simp)
  obtain ⟨t0, ht0, ht0T, hst⟩ := h.start
  simp only at hst
  have hstart : ∃ t, InI64 t ∧ t ≤ x.time ∧ s.rsv.startTime = currentTimeInSecond t := ⟨t0, ht0, le_trans ht0T hT, hst⟩
  have keep : ∀ c', okS b c' → c.counted = c'.counted → GoodS a b size (n + 1) x.time ⟨s, pre ++ c' :: post⟩ := by
    intro c' hc' he
    refine ⟨hstart, forall_replace h.calls hc', ?_, ?_, h.alpha, h.inv, h.rsize⟩
    · have := h.len
      simp only [counted, counted_same he] at this ⊢
      omega
    · have := h.held
      simp only [counted, counted_same he] at this ⊢
      exact this
  cases c with
  | tick act => exact keep _ trivial rfl
  | check act now =>
    show GoodS a b size (n + 1) x.time ⟨s, pre ++ (if s.rsv.nextScaleTime ≤ now then .reread act now s.rsv.nextScaleTime else after act) :: post⟩
    split
    · exact keep _ trivial rfl
    · exact keep _ (after_okS _ act) (counted_after act).symm
  | reread act now due => exact keep _ trivial rfl
  | cas act now due next =>
    simp only [callStep]
    split
    · have hk := keep (.lockScale act) trivial rfl
      refine ⟨hk.start, hk.calls, hk.len, ?_, hk.alpha, ⟨hk.inv.keys, hk.inv.count, hk.inv.live⟩, hk.rsize⟩
      intro hd
      exact J.next (hk.held hd) _
    · exact keep _ (after_okS _ act) (counted_after act).symm
  | lockScale act =>
    have hk := keep (after act) (after_okS _ act) (counted_after act).symm
    obtain ⟨f1, f2, -⟩ := rescaleLocked_frame (A := A) s.rsv x.time
    have hL : s.rsv.startTime ≤ currentTimeInSecond x.time := by rw [hst]; exact sec_mono (le_trans ht0T hT)
    have hdiff : InI64 (currentTimeInSecond x.time - s.rsv.startTime) := by rw [hst]; exact sec_diff ht0 hi
    have hs0 : (rescaleLocked A s.rsv x.time).startTime = currentTimeInSecond x.time := by
      unfold rescaleLocked; simp only; split <;> rfl
    refine ⟨⟨x.time, hi, le_rfl, hs0⟩, hk.calls, hk.len, ?_, f1.trans h.alpha, ?_, f2.trans h.rsize⟩
    · intro hd
      have hlen := hk.len
      exact J_rescaleLocked hA (by omega) (hk.held hd) (counted_pos hk.calls)
        (by simp only [counted] at hlen ⊢; omega) x.time hdiff hL
    · refine invA_rescaleLocked_of (by rw [hA.rnd]; exact exact_lawful) h.inv x.time ?_
      simp only
      rw [show s.rsv.alpha = _ from h.alpha, factor_exact hA hdiff]
      exact F64.nonNeg_fin (zpow_pos hA.pos _).le
  | time v => exact keep _ ⟨x.time, hi, rfl⟩ rfl
  | weigh v ts =>
    obtain ⟨t, hti, rfl⟩ := hc
    obtain ⟨q, hq, hq0⟩ := hu
    refine keep (.lockRecord v (priority A (weight A s.rsv.alpha (i64 (currentTimeInSecond t - s.rsv.startTime))) x.u)
      (weight A s.rsv.alpha (i64 (currentTimeInSecond t - s.rsv.startTime))) (currentTimeInSecond t) x.u s.rsv.startTime) ?_ rfl
    have hw : weight A s.rsv.alpha (i64 (currentTimeInSecond t - s.rsv.startTime)) = .fin (b ^ (currentTimeInSecond t - s.rsv.startTime)) := by
      rw [show s.rsv.alpha = _ from h.alpha, hst, i64_of_in (sec_diff ht0 hti), weight_exact hA]
    refine ⟨q, hq0, hq, hw, ?_⟩
    rw [hw, hq]
    unfold priority
    rw [hA.rnd]
    simp only [F64.div, hq0.ne', if_false, exact]
  | lockRecord v p w ts u l =>
    obtain ⟨q, hq0, rfl, rfl, rfl⟩ := hc
    have hz : ts - l = ts + (s.rsv.startTime - l) - s.rsv.startTime := by ring
    generalize hslip : s.rsv.startTime - l = slip at hz
    have hperm : (counted ⟨s, pre ++ PC.updated v ts (.fin q) slip :: post⟩).Perm
        (counted ⟨s, pre ++ PC.lockRecord v (.fin (b ^ (ts - l) / q)) (.fin (b ^ (ts - l))) ts (.fin q) l :: post⟩ ++ [⟨ts + slip, q, v⟩]) := by
      simp only [counted, List.filterMap_append, List.filterMap_cons, PC.counted, rat]
      exact (List.perm_middle).trans (List.perm_append_singleton _ _).symm
    set old := counted ⟨s, pre ++ PC.lockRecord v (.fin (b ^ (ts - l) / q)) (.fin (b ^ (ts - l))) ts (.fin q) l :: post⟩ with hold
    have hpos : ∀ e ∈ old, 0 < e.u := counted_pos h.calls
    have hlen : old.length ≤ n := h.len
    obtain ⟨f1, f2, f3, f4⟩ := record_frame s.rsv (.fin (b ^ (ts - l) / q)) v (.fin (b ^ (ts - l)))
    have hJ : (old.map (Rec.prio b)).Nodup → (∀ y ∈ old, y.prio b ≠ Rec.prio b ⟨ts + slip, q, v⟩) →
        J a b size (record s.rsv (.fin (b ^ (ts - l) / q)) v (.fin (b ^ (ts - l)))).state (old ++ [⟨ts + slip, q, v⟩]) := by
      intro hd hne
      have := J_record hA hsz (h.held hd) hpos (show (old.length : Int) + 1 < 9223372036854775808 by omega) ⟨ts + slip, q, v⟩ hne
      simp only at this
      rw [hz]
      exact this.2.1
    have hcalls : ∀ c ∈ pre ++ PC.updated v ts (.fin q) slip :: post, okS b c := forall_replace h.calls ⟨q, hq0, rfl⟩
    have hdist : ((counted ⟨s, pre ++ PC.updated v ts (.fin q) slip :: post⟩).map (Rec.prio b)).Nodup →
        (old.map (Rec.prio b)).Nodup ∧ ∀ y ∈ old, y.prio b ≠ Rec.prio b ⟨ts + slip, q, v⟩ := by
      intro hd
      have hd' := ((hperm.map (Rec.prio b)).nodup_iff).1 hd
      rw [List.map_append] at hd'
      have := List.nodup_append.1 hd'
      exact ⟨this.1, fun y hy => this.2.2 _ (List.mem_map_of_mem hy) _ (by simp)⟩
    have hnn : F64.NonNeg (.fin (b ^ (ts - l) / q)) := F64.nonNeg_fin (div_nonneg (zpow_pos hA.pos _).le hq0.le)
    have hrs : s.rsv.size = size := h.rsize
    have hI := invA_record (w := .fin (b ^ (ts - l))) h.inv (show 1 ≤ s.rsv.size by omega) hnn v
    have hlen' := hperm.length_eq
    rw [List.length_append] at hlen'
    simp only [callStep, hslip]
    cases hr : record s.rsv (.fin (b ^ (ts - l) / q)) v (.fin (b ^ (ts - l))) with
    | ok r =>
      rw [hr] at f1 f2 f3 f4 hJ hI
      refine ⟨⟨t0, ht0, le_trans ht0T hT, f3.trans hst⟩, hcalls, ?_, ?_, f1.trans h.alpha, hI.1, f2.trans h.rsize⟩
      · show (counted ⟨s, pre ++ PC.updated v ts (.fin q) slip :: post⟩).length ≤ n + 1
        rw [hlen']; simp; omega
      · intro hd
        obtain ⟨h1, h2⟩ := hdist hd
        exact J.perm (hJ h1 h2) hperm.symm
    | panic r =>
      rw [hr] at hI
      simp at hI
  | lockSnap => exact keep _ trivial rfl
  | size1 =>
    refine keep (if s.rsv.size > s.rsv.count then .size2 else .sized s.rsv.size) ?_ ?_
    · split <;> trivial
    · split <;> rfl
  | size2 => exact keep _ trivial rfl
  | updated v ts u slip => exact keep _ hc rfl
  | snapshot l => exact keep _ hc rfl
  | sized n => exact keep _ hc rfl
  | panicked v => exact keep _ hc rfl

theorem goodS_mono {a b : ℚ} {k : Int} {n : Nat} {T T' : Int} {p : Pool Shared PC} (h : GoodS a b k n T p) (hT : T ≤ T') : GoodS a b k (n + 1) T' p := by
  obtain ⟨t, h1, h2, h3⟩ := h.start
  exact ⟨⟨t, h1, le_trans h2 hT, h3⟩, h.calls, Nat.le_succ_of_le h.len, h.held, h.alpha, h.inv, h.rsize⟩

theorem goodS_run {A : Arith} {a b : ℚ} (hA : A.Exact a b) {size : Int} (hsz : 1 ≤ size) (es : List (Ev Act In)) :
    ∀ (n : Nat) (T : Int) (p : Pool Shared PC), ((n + es.length : Nat) : Int) < 9223372036854775808 →
      (∀ i x, Ev.step i x ∈ es → (∃ q : ℚ, x.u = .fin q ∧ 0 < q) ∧ InI64 x.time) →
      (T :: times es).Pairwise (· ≤ ·) → GoodS a b size n T p →
      ∃ T', GoodS a b size (n + es.length) T' ((machine A).run p es) := by
  induction es with
  | nil => intro n T p _ _ _ h; exact ⟨T, h⟩
  | cons e es ih =>
    intro n T p hn hu hm h
    have e0 : n + (e :: es).length = n + 1 + es.length := by simp only [List.length_cons]; omega
    rw [e0] at hn ⊢
    rw [Machine.run_cons]
    have hu' : ∀ i x, Ev.step i x ∈ es → (∃ q : ℚ, x.u = .fin q ∧ 0 < q) ∧ InI64 x.time :=
      fun i x hx => hu i x (List.mem_cons_of_mem _ hx)
    cases e with
    | spawn act =>
      refine ih (n + 1) T _ hn hu' hm ?_
      have hcomp : counted ⟨p.shared, p.calls ++ [(machine A).call act]⟩ = counted p := by
        cases act <;> simp [counted, machine, EDRConc.start, PC.counted]
      have h' := goodS_mono h le_rfl
      refine ⟨h'.start, ?_, ?_, ?_, h'.alpha, h'.inv, h'.rsize⟩
      · intro c hc
        rcases List.mem_append.1 hc with hc | hc
        · exact h.calls c hc
        · rw [List.mem_singleton.1 hc]; cases act <;> trivial
      · show (counted ⟨p.shared, p.calls ++ [(machine A).call act]⟩).length ≤ n + 1
        rw [hcomp]; exact h'.len
      · show ((counted ⟨p.shared, p.calls ++ [(machine A).call act]⟩).map (Rec.prio b)).Nodup → J a b size p.shared.rsv
            (counted ⟨p.shared, p.calls ++ [(machine A).call act]⟩)
        rw [hcomp]; exact h'.held
    | step i x =>
      simp only [times] at hm
      obtain ⟨hm1, hm2⟩ := List.pairwise_cons.1 hm
      have hTx : T ≤ x.time := hm1 _ (by simp)
      refine ih (n + 1) x.time _ hn hu' hm2 ?_
      cases hc : p.calls[i]? with
      | none =>
        simp only [Machine.apply, hc]
        exact goodS_mono h hTx
      | some c =>
        obtain ⟨pre, post, h1, _, h2⟩ := (machine A).apply_step_eq (x := x) hc
        rw [h2]
        obtain ⟨s, cs⟩ := p
        simp only at h1
        subst h1
        obtain ⟨hux, hix⟩ := hu i x (by simp)
        exact goodS_step hA hsz (by push_cast at hn; omega) x hux hix hTx h

/-- **C69, exactly.** In every interleaving, rescales included - a clock that does not go backwards, positive draws, exact arithmetic, distinct
priorities - the reservoir holds exactly the top `size` updates by priority, with their weights relative to the landmark in force, when every
update is taken to have been made as many seconds later as the landmark was moved between the computation of its weight and its insertion. -/
theorem C69_exact (A : Arith) (a b : ℚ) (hA : A.Exact a b) (size : Int) (hsz : 1 ≤ size) (time tick : Int) (ht : InI64 time)
    (es : List (Ev Act In)) (hn : (es.length : Int) < 9223372036854775808)
    (hu : ∀ i x, Ev.step i x ∈ es → (∃ q : ℚ, x.u = .fin q ∧ 0 < q) ∧ InI64 x.time)
    (hclock : (time :: times es).Pairwise (· ≤ ·)) :
    let p := (machine A).run (init size (.fin a) time tick) es
    ((counted p).map (Rec.prio b)).Nodup →
      ∃ kept, TopK b size (counted p) kept ∧ p.shared.rsv.getValues = kept.map (relative b p.shared.rsv.startTime) := by
  intro p hd
  obtain ⟨T, h⟩ := goodS_run hA hsz es 0 time (init size (.fin a) time tick) (by push_cast; omega) hu hclock
    ⟨⟨time, ht, le_rfl, rfl⟩, by simp [init, Machine.start], by simp [init, Machine.start, counted],
      fun _ => J_new a b size (by omega) time tick, rfl, invA_new size (.fin a) time tick, rfl⟩
  obtain ⟨kept, hv, hk⟩ := (h.held hd).held
  exact ⟨kept, hk, by rw [getValues_eq h.inv.keys]; exact hv⟩

/-- **C69, when nothing races.** If no completed update had the landmark moved under it, the reservoir holds exactly the top `size` updates by
priority, each with the weight relative to the landmark in force - however many rescales there were. -/
theorem C69_unraced (A : Arith) (a b : ℚ) (hA : A.Exact a b) (size : Int) (hsz : 1 ≤ size) (time tick : Int) (ht : InI64 time)
    (es : List (Ev Act In)) (hn : (es.length : Int) < 9223372036854775808)
    (hu : ∀ i x, Ev.step i x ∈ es → (∃ q : ℚ, x.u = .fin q ∧ 0 < q) ∧ InI64 x.time)
    (hclock : (time :: times es).Pairwise (· ≤ ·)) :
    let p := (machine A).run (init size (.fin a) time tick) es
    (∀ v ts u slip, PC.updated v ts u slip ∈ p.calls → slip = 0) → ((completed p).map (Rec.prio b)).Nodup →
      ∃ kept, TopK b size (completed p) kept ∧ p.shared.rsv.getValues = kept.map (relative b p.shared.rsv.startTime) := by
  intro p h0 hd
  have hcc : counted p = completed p := by
    unfold counted completed
    apply List.filterMap_congr
    intro c hc
    cases c <;> try rfl
    rename_i v ts u slip
    have := h0 v ts u slip hc
    subst this
    simp [PC.counted, PC.completed]
  rw [← hcc] at hd ⊢
  exact C69_exact A a b hA size hsz time tick ht es hn hu hclock hd

/-- The state after the first `m` events. -/
def at' (A : Arith) (size : Int) (alpha : F64) (time tick : Int) (es : List (Ev Act In)) (m : Nat) : Pool Shared PC :=
  (machine A).run (init size alpha time tick) (es.take m)

theorem at'_snoc {A : Arith} {size : Int} {alpha : F64} {time tick : Int} {es : List (Ev Act In)} {m : Nat} (h : m ≤ es.length) (e) :
    at' A size alpha time tick (es ++ [e]) m = at' A size alpha time tick es m := by
  unfold at'; rw [List.take_append_of_le_length h]

/-- Where the landmark `l` was read by call `i`, and where the update was inserted. -/
def slipInv (A : Arith) (size : Int) (alpha : F64) (time tick : Int) (es : List (Ev Act In)) (i : Nat) : PC → Prop
  | .lockRecord v _ _ ts u l => ∃ m x, es[m]? = some (.step i x) ∧ x.u = u ∧ (at' A size alpha time tick es m).calls[i]? = some (.weigh v ts) ∧
      (at' A size alpha time tick es m).shared.rsv.startTime = l
  | .updated v ts u slip => ∃ m m' x x', m < m' ∧ es[m]? = some (.step i x) ∧ es[m']? = some (.step i x') ∧ x.u = u ∧
      (at' A size alpha time tick es m).calls[i]? = some (.weigh v ts) ∧
      (∃ p w, (at' A size alpha time tick es m').calls[i]? = some (.lockRecord v p w ts u (at' A size alpha time tick es m).shared.rsv.startTime)) ∧
      slip = (at' A size alpha time tick es m').shared.rsv.startTime - (at' A size alpha time tick es m).shared.rsv.startTime
  | _ => True

theorem lt_of_get {α : Type} {l : List α} {m : Nat} {x : α} (h : l[m]? = some x) : m < l.length := (List.getElem?_eq_some_iff.1 h).1

theorem slipInv_snoc {A size alpha time tick es i c} (h : slipInv A size alpha time tick es i c) (e : Ev Act In) :
    slipInv A size alpha time tick (es ++ [e]) i c := by
  cases c <;> try trivial
  · obtain ⟨m, x, h1, h2, h3, h4⟩ := h
    have hm := lt_of_get h1
    refine ⟨m, x, by rw [List.getElem?_append_left hm]; exact h1, h2, ?_, ?_⟩
    · rw [at'_snoc hm.le]; exact h3
    · rw [at'_snoc hm.le]; exact h4
  · obtain ⟨m, m', x, x', h0, h1, h2, h3, h4, h5, h6⟩ := h
    have hm := lt_of_get h1
    have hm' := lt_of_get h2
    refine ⟨m, m', x, x', h0, by rw [List.getElem?_append_left hm]; exact h1, by rw [List.getElem?_append_left hm']; exact h2, h3, ?_, ?_, ?_⟩
    · rw [at'_snoc hm.le]; exact h4
    · rw [at'_snoc hm.le, at'_snoc hm'.le]; exact h5
    · rw [at'_snoc hm.le, at'_snoc hm'.le]; exact h6

theorem slipInv_run (A : Arith) (size : Int) (alpha : F64) (time tick : Int) (es : List (Ev Act In)) (i : Nat) (c : PC)
    (hc : ((machine A).run (init size alpha time tick) es).calls[i]? = some c) : slipInv A size alpha time tick es i c := by
  induction es using List.reverseRecOn generalizing c with
  | nil => simp [Machine.run_nil, init, Machine.start] at hc
  | append_singleton es e ih =>
    have hnow : at' A size alpha time tick (es ++ [e]) es.length = (machine A).run (init size alpha time tick) es := by
      unfold at'; rw [List.take_append_of_le_length le_rfl, List.take_length]
    have hget : (es ++ [e])[es.length]? = some e := by simp
    rw [Machine.run_snoc] at hc
    generalize hp : (machine A).run (init size alpha time tick) es = p at *
    cases e with
    | spawn act =>
      simp only [Machine.apply] at hc
      by_cases hi : i < p.calls.length
      · rw [List.getElem?_append_left hi] at hc
        exact slipInv_snoc (ih c hc) _
      · rw [List.getElem?_append_right (by omega)] at hc
        have := List.mem_of_getElem? hc
        rw [List.mem_singleton] at this
        subst this
        cases act <;> trivial
    | step j x =>
      cases hd : p.calls[j]? with
      | none =>
        simp only [Machine.apply, hd] at hc
        exact slipInv_snoc (ih c hc) _
      | some d =>
        simp only [Machine.apply, hd] at hc
        by_cases hji : j = i
        · subst hji
          have hold := slipInv_snoc (ih d hd) (.step j x)
          rw [List.getElem?_set_self (lt_of_get hd), Option.some.injEq] at hc
          subst hc
          show slipInv A size alpha time tick (es ++ [Ev.step j x]) j (callStep A p.shared x d).2
          cases d with
          | check act now => simp only [callStep]; split <;> cases act <;> trivial
          | cas act now due next => simp only [callStep]; split <;> cases act <;> trivial
          | lockScale act => cases act <;> trivial
          | size1 => simp only [callStep]; split <;> trivial
          | weigh v ts =>
            refine ⟨es.length, x, hget, rfl, ?_, ?_⟩
            · rw [hnow]; exact hd
            · rw [hnow]
          | lockRecord v q w ts u l =>
            obtain ⟨m, x1, h1, h2, h3, h4⟩ := hold
            have hml : m < es.length := by
              by_contra hcon
              have hm := lt_of_get h1
              have : m = es.length := by simp at hm; omega
              subst this
              rw [hnow, hd] at h3
              cases h3
            simp only [callStep]
            cases hr : record p.shared.rsv q v w with
            | ok r =>
              refine ⟨m, es.length, x1, x, hml, h1, hget, h2, h3, ⟨q, w, ?_⟩, ?_⟩
              · rw [hnow, h4]; exact hd
              · rw [hnow, h4]
            | panic r => trivial
          | updated v ts u slip => exact hold
          | _ => trivial
        · rw [List.getElem?_set_ne hji] at hc
          exact slipInv_snoc (ih c hc) _

/-- **C69: the slip is the race.** For every completed update of call `i`: it read the landmark in one step, for its weight, and was inserted in a
later step, and its `slip` is exactly by how many seconds the landmark differs between these two moments; so it is zero unless a rescale fell in
between. -/
theorem C69_slip (A : Arith) (size : Int) (alpha : F64) (time tick : Int) (es : List (Ev Act In)) (i : Nat) (v ts : Int) (u : F64) (slip : Int)
    (hc : ((machine A).run (init size alpha time tick) es).calls[i]? = some (.updated v ts u slip)) :
    ∃ m m' x x', m < m' ∧ es[m]? = some (.step i x) ∧ es[m']? = some (.step i x') ∧ x.u = u ∧
      ((machine A).run (init size alpha time tick) (es.take m)).calls[i]? = some (.weigh v ts) ∧
      slip = ((machine A).run (init size alpha time tick) (es.take m')).shared.rsv.startTime -
        ((machine A).run (init size alpha time tick) (es.take m)).shared.rsv.startTime := by
  obtain ⟨m, m', x, x', h0, h1, h2, h3, h4, -, h6⟩ := slipInv_run A size alpha time tick es i _ hc
  exact ⟨m, m', x, x', h0, h1, h2, h3, h4, h6⟩

/-- The racing schedule of `C69_refuted`, with a second update that does not race. -/
def raceSchedule : List (Ev Act In) :=
  [.spawn (.updateN 42), .step 0 {}, .step 0 {}, .step 0 { time := 1000 }, .step 0 { time := 1000, u := .fin (1 / 2) },
   .spawn .getSnapshot, .step 1 { tick := 3600000000000, time := 1000 }, .step 1 { time := 1000 }, .step 1 { time := 1000 }, .step 1 { time := 1000 },
   .step 1 { time := 10000 }, .step 0 { time := 10000 },
   .spawn (.updateN 43), .step 2 { time := 10000 }, .step 2 { time := 10000 }, .step 2 { time := 11000 }, .step 2 { time := 11000, u := .fin (1 / 4) },
   .step 2 { time := 11000 }]

/-- The hypotheses of `C69_exact` are met by `raceSchedule`: the first update slipped by 10 seconds, the second not at all; both are kept. -/
example : let p := (machine demoExact).run (init 2 (.fin 1) 0 0) raceSchedule
    counted p = [⟨1 + 10, 1 / 2, 42⟩, ⟨11, 1 / 4, 43⟩] ∧ completed p = [⟨1, 1 / 2, 42⟩, ⟨11, 1 / 4, 43⟩] ∧
    ((counted p).map (Rec.prio 2)).Nodup ∧ ((0 : Int) :: times raceSchedule).Pairwise (· ≤ ·) ∧ p.shared.rsv.startTime = 10 ∧
    p.shared.rsv.getValues = [⟨11, 1 / 2, 42⟩, ⟨11, 1 / 4, 43⟩].map (relative 2 10) := by
  refine ⟨by decide +kernel, by decide +kernel, by decide +kernel, by decide, by decide +kernel, by decide +kernel⟩

end EDRConc
end GoMetrics
