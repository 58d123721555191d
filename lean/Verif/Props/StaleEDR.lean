import Verif.Proofs.Stale
import Verif.Props.Races
import Verif.Props.EDRConc
/-! # C101, decaying reservoir: what old values cannot break

The landmark, the time of the next rescale and the number of samples are loaded without the lock with any older value. -/
namespace GoMetrics
open Rounding
namespace EDRConc
open EDR

/-- impl/exponentially_decaying_reservoir.go:69, 70, 81, 133, 134: what is loaded while others write (`C88_decaying`). -/
def racy : Loc → Bool
  | .nextScaleTime => true
  | .startTime => true
  | .count => true
  | _ => false

/-- Any number of concurrent calls on a new reservoir, which may load old values of the three. -/
def staleAfter (A : Arith) (size : Int) (alpha : F64) (time tick : Int) (es : List (Ev Act (In × Nat))) : Pool Shared PC :=
  footprint.staleRun (machine A) racy ⟨EDR.new size alpha time tick, []⟩ es

theorem loads_at {s : Shared} {c : PC} (h : footprint.loads racy s c = true) :
    (∃ act now, c = .check act now) ∨ (∃ act now due, c = .reread act now due) ∨ (∃ v ts, c = .weigh v ts) ∨ c = .size1 ∨ c = .size2 := by
  cases c <;> first
    | exact Or.inl ⟨_, _, rfl⟩
    | exact Or.inr (Or.inl ⟨_, _, _, rfl⟩)
    | exact Or.inr (Or.inr (Or.inl ⟨_, _, rfl⟩))
    | exact Or.inr (Or.inr (Or.inr (Or.inl rfl)))
    | exact Or.inr (Or.inr (Or.inr (Or.inr rfl)))
    | (simp [Footprint.loads, footprint, racy, rd, awr, lrd, lwr] at h; done)

theorem covers (A : Arith) : footprint.Covers (machine A) racy := by
  constructor
  · intro s c a ha hr hw hm
    cases c <;> simp only [footprint, List.mem_cons, List.not_mem_nil, or_false] at ha <;> (try casesm* _ ∨ _) <;> subst_vars <;>
      first
      | rfl
      | (simp [racy, rd] at hr; done)
      | (simp [awr, lwr] at hw; done)
      | (simp [lrd] at hm; done)
  · intro s x c h
    rcases loads_at h with ⟨act, now, rfl⟩ | ⟨act, now, due, rfl⟩ | ⟨v, ts, rfl⟩ | rfl | rfl <;> rfl

theorem okA_load {A : Arith} (hA : A.Lawful) {s s' : Shared} {x : In} {c : PC} (hu : IsDraw x.u) (hl : footprint.loads racy s c = true) :
    okA (callStep A s' x c).2 := by
  rcases loads_at hl with ⟨act, now, rfl⟩ | ⟨act, now, due, rfl⟩ | ⟨v, ts, rfl⟩ | rfl | rfl
  · simp only [callStep]; split
    · trivial
    · exact after_okA act
  · trivial
  · obtain ⟨q, hq, hq0, -⟩ := hu
    show F64.NonNeg (priority A _ x.u)
    rw [hq]
    exact F64.nonNeg_div hA.rnd (hA.nonneg _) (F64.nonNeg_fin hq0)
  · simp only [callStep]; split <;> trivial
  · trivial

theorem not_snapshot_load {A : Arith} {s s' : Shared} {x : In} {c : PC} (hl : footprint.loads racy s c = true) (l : List WeightedSample) :
    (callStep A s' x c).2 ≠ .snapshot l := by
  rcases loads_at hl with ⟨act, now, rfl⟩ | ⟨act, now, due, rfl⟩ | ⟨v, ts, rfl⟩ | rfl | rfl
  · simp only [callStep]; split <;> cases act <;> simp [after]
  · simp [callStep]
  · simp [callStep]
  · simp only [callStep]; split <;> simp
  · simp [callStep]

theorem past_load {A : Arith} {s s' : Shared} {x : In} {c : PC} (hl : footprint.loads racy s c = true) (hp : past c = true) :
    past (callStep A s' x c).2 = true := by
  rcases loads_at hl with ⟨act, now, rfl⟩ | ⟨act, now, due, rfl⟩ | ⟨v, ts, rfl⟩ | rfl | rfl
  · simp [past] at hp
  · simp [past] at hp
  · rfl
  · simp only [callStep]; split <;> rfl
  · rfl

/-- **C101.** These three are all that calls of a reservoir race for (C88), and all their unsynchronised loads of them may see old values. -/
theorem C101_covers_decaying (A : Arith) : footprint.Covers (machine A) racy ∧
    ∀ size alpha time tick l, footprint.Races (machine A) ⟨EDR.new size alpha time tick, []⟩ (fun _ => True) l → racy l = true := by
  refine ⟨covers A, fun size alpha time tick l h => ?_⟩
  rcases C88_decaying A size alpha time tick l h with rfl | rfl | rfl <;> rfl

/-- **C101 (C67).** No call panics. -/
theorem C101_decaying_no_panic (A : Arith) (hA : A.Lawful) (size : Int) (hsz : 1 ≤ size) (alpha : F64) (time tick : Int)
    (es : List (Ev Act (In × Nat))) (hu : ∀ i x t, Ev.step i (x, t) ∈ es → IsDraw x.u) :
    ∀ c ∈ (staleAfter A size alpha time tick es).calls, ∀ v, c ≠ .panicked v := by
  have h := footprint.stale_inv (machine A) racy (fun s cs => GoodA size ⟨s, cs⟩) (fun _ _ => True) (fun _ => True) (fun x => IsDraw x.u)
    (fun s cs a _ h => goodA_spawn a h) (fun s pre c post x hq h => goodA_step hA hsz x hq h) (fun _ _ _ => trivial) (fun _ _ _ _ _ _ _ _ _ => trivial)
    (fun s pre c post x s' hq h _ hl => ⟨h.rsv, h.size, forall_replace h.calls (okA_load hA hq hl)⟩)
    _ (goodA_start size alpha time tick) es (fun _ _ => trivial) hu
  intro c hc v hv
  have := h.calls c hc
  rw [hv] at this
  exact this

/-- **C101 (C65).** Each value in the reservoir, or in a snapshot, was passed to some `UpdateN` call. -/
theorem C101_decaying_recorded (A : Arith) (size : Int) (alpha : F64) (time tick : Int) (es : List (Ev Act (In × Nat))) :
    let p := staleAfter A size alpha time tick es
    (∀ s ∈ p.shared.rsv.values, ∃ c ∈ p.calls, c.arg = some s.value) ∧
    ∀ l, PC.snapshot l ∈ p.calls → ∀ s ∈ l, ∃ c ∈ p.calls, c.arg = some s.value := by
  intro p
  have h : GoodV ⟨p.shared, p.calls⟩ := footprint.stale_inv (machine A) racy (fun s cs => GoodV ⟨s, cs⟩) (fun _ _ => True) (fun _ => True) (fun _ => True)
    (fun s cs a _ h => goodV_spawn a h) (fun s pre c post x _ h => goodV_step x h) (fun _ _ _ => trivial) (fun _ _ _ _ _ _ _ _ _ => trivial)
    (fun s pre c post x s' _ h _ hl => by
      have hargs : (pre ++ (callStep A s' x c).2 :: post).map PC.arg = (pre ++ c :: post).map PC.arg := by simp [arg_step]
      refine ⟨by rw [show (machine A).step s' x c = callStep A s' x c from rfl, hargs]; exact h.rsv, ?_⟩
      intro l hm
      rw [show (machine A).step s' x c = callStep A s' x c from rfl] at hm ⊢
      rw [hargs]
      refine h.snaps l ?_
      simp only [List.mem_append, List.mem_cons] at hm ⊢
      rcases hm with hm | hm | hm
      · exact Or.inl hm
      · exact absurd hm.symm (not_snapshot_load hl l)
      · exact Or.inr (Or.inr hm))
    _ ⟨by simp [EDR.new], by simp⟩ es (fun _ _ => trivial) (fun _ _ _ _ => trivial)
  refine ⟨fun s hs => ?_, fun l hl s hs => ?_⟩
  · obtain ⟨c, hc, he⟩ := List.mem_map.1 (h.rsv s hs); exact ⟨c, hc, he⟩
  · obtain ⟨c, hc, he⟩ := List.mem_map.1 (h.snaps l hl s hs); exact ⟨c, hc, he⟩

/-- **C101 (C63).** The reservoir and every snapshot hold at most `size` samples. -/
theorem C101_decaying_capacity (A : Arith) (hA : A.Lawful) (size : Int) (hsz : 1 ≤ size) (a : ℚ) (time tick : Int) (T : Set Int) (h0 : time ∈ T)
    (hT : ∀ s ∈ T, ∀ t ∈ T, scalingFactor A (.fin a) (s.tdiv 1000) (t.tdiv 1000) ≠ .inf false)
    (es : List (Ev Act (In × Nat))) (hn : (es.length : Int) < 9223372036854775808)
    (hu : ∀ i x t, Ev.step i (x, t) ∈ es → (∃ q : ℚ, x.u = .fin q ∧ 0 < q) ∧ x.time ∈ T) :
    let p := staleAfter A size (.fin a) time tick es
    (p.shared.rsv.getValues.length : Int) ≤ min p.shared.rsv.count size ∧ ∀ l, PC.snapshot l ∈ p.calls → (l.length : Int) ≤ size := by
  intro p
  have h := footprint.stale_invN (machine A) racy (fun n s cs => GoodB size a T n ⟨s, cs⟩)
    (fun s' _ => s'.rsv.alpha = .fin a) (fun x => (∃ q : ℚ, x.u = .fin q ∧ 0 < q) ∧ x.time ∈ T) es.length
    (fun n s cs _ h => ⟨InvB.mono h.rsv (by push_cast; omega), h.size, h.alpha, h.start, h.calls⟩)
    (fun n s cs act _ h => goodB_spawn act h)
    (fun n s pre c post x hN hq h => goodB_step hA hsz hT (by omega) x hq.1 hq.2 h)
    (fun _ _ _ h => h.alpha) (fun _ _ _ _ _ _ _ _ _ _ h => h)
    (fun n s pre c post x s' hN hq h ho hl => by
      refine ⟨InvB.mono h.rsv (by push_cast; omega), h.size, h.alpha, h.start, forall_replace h.calls ?_⟩
      show okB size (callStep A s' x c).2
      rcases loads_at hl with ⟨act, now, rfl⟩ | ⟨act, now, due, rfl⟩ | ⟨v, ts, rfl⟩ | rfl | rfl
      · simp only [callStep]; split
        · trivial
        · exact after_okB size act
      · trivial
      · obtain ⟨q, hq', hq0⟩ := hq.1
        show F64.NonNeg (priority A _ x.u) ∧ priority A _ x.u ≠ .nan
        rw [hq', ho]
        exact ⟨F64.nonNeg_div hA.rnd (hA.nonneg _) (F64.nonNeg_fin hq0.le), prio_ne_nan hA a _ hq0⟩
      · simp only [callStep]; split <;> trivial
      · trivial)
    ⟨EDR.new size (.fin a) time tick, []⟩ ⟨invB_new size (by omega) (.fin a) time tick, rfl, rfl, ⟨time, h0, rfl⟩, by simp⟩ es le_rfl hu
  exact h.capacity

/-- **C101 (C68).** A call rescales at most once, and only if its tick had reached a deadline that was set before. -/
theorem C101_decaying_due (A : Arith) (size : Int) (alpha : F64) (time tick : Int) (es : List (Ev Act (In × Nat))) :
    let p := staleAfter A size alpha time tick es
    p.shared.log.length ≤ p.calls.length ∧
    ∀ newer now due older, p.shared.log = newer ++ (now, due) :: older → due ≤ now ∧
      (due = i64 (tick + 3600000000000) ∨ ∃ now' due', (now', due') ∈ older ∧ due = i64 (now' + 3600000000000)) := by
  intro p
  have h : GoodD tick ⟨p.shared, p.calls⟩ := footprint.stale_inv (machine A) racy (fun s cs => GoodD tick ⟨s, cs⟩)
    (fun s' s => s'.rsv.nextScaleTime ∈ deadlines tick s.log) (fun _ => True) (fun _ => True)
    (fun s cs a _ h => goodD_spawn a h) (fun s pre c post x _ h => goodD_step x h) (fun _ _ h => h.next)
    (fun s pre c post x s' _ _ ho => by
      cases c with
      | cas act now due next =>
        simp only [machine, callStep]
        split
        · simp only [deadlines, List.map_cons, List.cons_append, List.mem_cons] at ho ⊢; exact Or.inr ho
        · exact ho
      | lockRecord v p w ts u l => simp only [machine, callStep]; split <;> exact ho
      | _ => exact ho)
    (fun s pre c post x s' _ h ho hl => by
      have hc := h.calls c (by simp)
      refine ⟨h.log, h.next, forall_replace h.calls ?_, le_trans h.wins (countP_replace past _ _ _ _ (past_load hl))⟩
      show okD tick s.log (callStep A s' x c).2
      rcases loads_at hl with ⟨act, now, rfl⟩ | ⟨act, now, due, rfl⟩ | ⟨v, ts, rfl⟩ | rfl | rfl
      · simp only [callStep]; split
        · exact ⟨‹_›, ho⟩
        · exact after_okD _ _ act
      · exact hc
      · trivial
      · simp only [callStep]; split <;> trivial
      · trivial)
    _ (goodD_start size alpha time tick) es (fun _ _ => trivial) (fun _ _ _ _ => trivial)
  exact h.due

/-- **C101 (C69, C64).** While no rescale comes due the reservoir holds exactly the top `size` completed updates by priority. -/
theorem C101_decaying_top (A : Arith) (a b : ℚ) (hA : A.Exact a b) (size : Int) (hsz : 1 ≤ size) (time tick : Int) (ht : InI64 time)
    (es : List (Ev Act (In × Nat))) (hn : (es.length : Int) < 9223372036854775808)
    (hu : ∀ i x t, Ev.step i (x, t) ∈ es → (∃ q : ℚ, x.u = .fin q ∧ 0 < q) ∧ InI64 x.time ∧ x.tick < i64 (tick + 3600000000000)) :
    let p := staleAfter A size (.fin a) time tick es
    ((completed p).map (Rec.prio b)).Nodup →
      ∃ kept, TopK b size (completed p) kept ∧ p.shared.rsv.getValues = kept.map (relative b (time.tdiv 1000)) := by
  intro p hd
  have h := footprint.stale_invN (machine A) racy (fun n s cs => GoodW a b size (currentTimeInSecond time) (i64 (tick + rescaleThreshold)) n ⟨s, cs⟩)
    (fun s' _ => s'.rsv.alpha = .fin a ∧ s'.rsv.startTime = currentTimeInSecond time ∧ s'.rsv.nextScaleTime = i64 (tick + rescaleThreshold))
    (fun x => (∃ q : ℚ, x.u = .fin q ∧ 0 < q) ∧ InI64 x.time ∧ x.tick < i64 (tick + rescaleThreshold)) es.length
    (fun n s cs _ h => ⟨h.start, h.next, h.calls, Nat.le_succ_of_le h.len, h.held, h.alpha, h.inv, h.rsize⟩)
    (fun n s cs act _ h => goodW_spawn act h)
    (fun n s pre c post x hN hq h => goodW_step hA hsz ⟨time, ht, rfl⟩ (by omega) x hq.1 hq.2.1 hq.2.2 h)
    (fun _ _ _ h => ⟨h.alpha, h.start, h.next⟩) (fun _ _ _ _ _ _ _ _ _ _ h => h)
    (fun n s pre c post x s' hN hq h ho hl => by
      -- what the step needs of the memory is as it always was
      obtain ⟨o1, o2, o3⟩ := ho
      have key : ∀ c', okW b (currentTimeInSecond time) (i64 (tick + rescaleThreshold)) c' → c.completed = c'.completed →
          GoodW a b size (currentTimeInSecond time) (i64 (tick + rescaleThreshold)) (n + 1) ⟨s, pre ++ c' :: post⟩ := by
        intro c' hc' he
        refine ⟨h.start, h.next, forall_replace h.calls hc', ?_, ?_, h.alpha, h.inv, h.rsize⟩
        · have := h.len
          simp only [completed, completed_same he] at this ⊢
          omega
        · have := h.held
          simp only [completed, completed_same he] at this ⊢
          exact this
      have hc := h.calls c (by simp)
      rcases loads_at hl with ⟨act, now, rfl⟩ | ⟨act, now, due, rfl⟩ | ⟨v, ts, rfl⟩ | rfl | rfl
      · have hlt : ¬ s'.rsv.nextScaleTime ≤ now := by rw [o3]; exact not_le.2 hc
        rw [show ((machine A).step s' x (.check act now)).2 = after act from if_neg hlt]
        exact key _ (after_okW _ _ _ act) (completed_after act).symm
      · exact hc.elim
      · rw [show ((machine A).step s' x (.weigh v ts)).2 = ((machine A).step s x (.weigh v ts)).2 by
          simp only [machine, callStep, o1, o2, show s.rsv.alpha = _ from h.alpha, show s.rsv.startTime = _ from h.start]]
        exact goodW_step hA hsz ⟨time, ht, rfl⟩ (by omega) x hq.1 hq.2.1 hq.2.2 h
      · refine key _ ?_ ?_
        · simp only [machine, callStep]; split <;> trivial
        · simp only [machine, callStep]; split <;> rfl
      · exact key _ trivial rfl)
    ⟨EDR.new size (.fin a) time tick, []⟩ (goodW_start a b size hsz time tick) es le_rfl hu
  exact h.top hd

/-- A complete `GetSnapshot` as call number `i` at tick `tick` that sees the moment `t` when it first looks at the deadline, and the present afterwards. -/
def wholeSnapshot (i : Nat) (tick : Int) (t : Nat) : List (Ev Act (In × Nat)) :=
  [.spawn .getSnapshot, .step i ({ tick := tick }, 0), .step i ({}, t), .step i ({}, 1000), .step i ({}, 1000), .step i ({}, 1000), .step i ({}, 1000)]

/-- **C101.** Not so for "one rescale per period": of two calls at the same tick, the second beginning after the first has returned, both rescale if the second
still sees the deadline that the first has moved. -/
theorem C101_rescale_once_refuted :
    (staleAfter demoExact 1 (.fin 1) 0 0 (wholeSnapshot 0 3600000000000 0 ++ wholeSnapshot 1 3600000000000 0)).shared.log =
      [(3600000000000, 3600000000000), (3600000000000, 3600000000000)] ∧
    (staleAfter demoExact 1 (.fin 1) 0 0 (wholeSnapshot 0 3600000000000 0 ++ wholeSnapshot 1 3600000000000 1000)).shared.log = [(3600000000000, 3600000000000)] ∧
    ((staleAfter demoExact 1 (.fin 1) 0 0 (wholeSnapshot 0 3600000000000 0)).calls = [.snapshot []]) := by
  decide +kernel

/-- **C101.** Nor for the weights: an update that begins after a rescale has ended may still be weighted with the landmark of before it. Here the landmark moves
from second 0 to second 10; a value recorded in second 11 gets the weight 2^11 instead of 2^1. -/
theorem C101_weight_refuted : ∃ es : List (Ev Act (In × Nat)),
    let p := staleAfter demoExact 1 (.fin 1) 0 0 ([.spawn .getSnapshot, .step 0 ({ tick := 3600000000000 }, 0), .step 0 ({}, 0), .step 0 ({}, 0), .step 0 ({}, 0),
      .step 0 ({ time := 10000 }, 0), .step 0 ({}, 0)] ++ es)
    PC.snapshot [] ∈ p.calls ∧ p.shared.rsv.startTime = 10 ∧ p.shared.rsv.getValues.map (fun s => (s.value, s.weight)) = [(42, .fin (2 ^ 11))] :=
  ⟨[.spawn (.updateN 42), .step 1 ({ tick := 3600000000000 }, 1000), .step 1 ({}, 1000), .step 1 ({ time := 11000 }, 1000), .step 1 ({}, 0), .step 1 ({}, 1000)],
    by decide +kernel⟩

/-- The hypotheses of the theorems are met with old values: the reservoir has room for one, two updates, a `GetSnapshot` and a `Size` that sees no sample. -/
example : let p := staleAfter demoExact 1 (.fin 1) 0 0 ([.spawn (.updateN 10), .spawn (.updateN 20), .spawn .getSnapshot, .spawn .size] ++
      [.step 0 ({}, 0), .step 1 ({}, 0), .step 1 ({}, 0), .step 0 ({}, 0), .step 0 ({}, 0), .step 1 ({}, 0), .step 1 ({ u := .fin (1 / 4) }, 0),
        .step 0 ({}, 0), .step 0 ({}, 0), .step 1 ({}, 0), .step 2 ({}, 0), .step 2 ({}, 0), .step 2 ({}, 0), .step 3 ({}, 0), .step 3 ({}, 0)])
    p.calls.filterMap (fun c => match c with | .snapshot l => some (l.map (·.value)) | .sized n => some [n] | _ => none) = [[20], [0]] := by
  decide +kernel
end EDRConc
end GoMetrics
