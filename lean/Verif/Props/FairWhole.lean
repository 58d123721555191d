import Verif.Props.Fair
import Verif.Props.WholeProgress
import Mathlib.Data.Prod.Lex
/-! # C100 — under a fair scheduler every call of a compass ends -/
namespace GoMetrics
open Machine Whole
open CompassConc (MarkArg Mark Marks marking markRank)

namespace CompassConc

/-- How far a call is from the end of the tick part; one whose swap would fail is further away than one that has not loaded yet. -/
def PC.left (s : Shared) : PC → Nat
  | .readOld _ => 5 * 9223372036854775808 + 4
  | .readClock _ _ => 5 * 9223372036854775808 + 3
  | .swap _ _ _ k => 5 * k + 2
  | .load _ l => 5 * l + 6
  | .take _ l n => if s.uncounted = n then 5 * l + 5 else 5 * l + 7
  | .tick1 _ l _ => 5 * l + 4
  | .tick5 _ l _ => 5 * l + 3
  | .tick15 _ l _ => 5 * l + 2
  | .add => 1
  | .done _ => 0

/-- How often, at most, a call will still change `uncounted`. -/
def PC.changes : PC → Nat
  | .readOld _ | .readClock _ _ => 9223372036854775808 + 1
  | .swap _ _ _ k => k + 1
  | .load _ l | .take _ l _ => l + 2
  | .tick1 _ l _ | .tick5 _ l _ | .tick15 _ l _ => l + 1
  | .add => 1
  | .done _ => 0

theorem left_le (s s' : Shared) (d : PC) : d.left s' ≤ d.left s + 2 := by
  cases d <;> simp only [PC.left] <;> (try split) <;> (try split) <;> omega

theorem left_same {s s' : Shared} (h : s'.uncounted = s.uncounted) (d : PC) : d.left s' ≤ d.left s := by
  cases d <;> simp only [PC.left, h] <;> omega

theorem after_left (s : Shared) (u : Bool) : (after u).left s ≤ 1 ∧ (after u).changes ≤ 1 := by
  cases u <;> simp [after, PC.left, PC.changes]

theorem loop_left (s : Shared) (u : Bool) (k : Nat) : (loop u k).left s ≤ 5 * k + 1 ∧ (loop u k).changes ≤ k + 1 := by
  cases k with
  | zero => exact after_left s u
  | succ k => simp only [loop, PC.left, PC.changes]; omega

theorem ticks_le (a : Int) : ((i64 a).tdiv Compass.tickInterval).toNat ≤ 9223372036854775808 := by
  have h := i64_in a
  unfold InI64 at h
  have : (i64 a).tdiv Compass.tickInterval ≤ 9223372036854775808 := by
    by_cases h0 : 0 ≤ i64 a
    · rw [Int.tdiv_eq_ediv_of_nonneg h0]
      unfold Compass.tickInterval
      omega
    · have h2 : (i64 a).tdiv Compass.tickInterval = -((-(i64 a)).tdiv Compass.tickInterval) := by rw [Int.neg_tdiv]; omega
      rw [h2]
      have : 0 ≤ (-(i64 a)).tdiv Compass.tickInterval := Int.tdiv_nonneg (by omega) (by decide)
      omega
  omega

/-- Why calls get through the tick part: every step brings a call forward. -/
def ranked (bi : Int) (s0 : Shared) : (conc bi).Ranked s0 tickOver (fun _ => True) where
  ok _ _ := True
  ok_run _ _ _ := trivial
  b := 2
  ch := PC.changes
  r := fun s c => c.left s
  help _ c := tickOver c = false
  move s x c _ := by
    cases c with
    | readOld u => exact .on rfl (by simp [PC.changes]) (fun _ => le_refl _) (by simp only [PC.left]; omega)
    | readClock u o =>
      by_cases h : i64 (x - o) > Compass.tickInterval
      · have hk := ticks_le (x - o)
        refine .on (s' := s) (c' := .swap u o (i64 (x - (i64 (x - o)).tmod bi)) ((i64 (x - o)).tdiv Compass.tickInterval).toNat)
          (by simp only [conc, callStep, if_pos h]) ?_ (fun _ => le_refl _) ?_
        · simp only [PC.changes]; omega
        · simp only [PC.left]; omega
      · obtain ⟨h1, h2⟩ := after_left s u
        exact .on (s' := s) (c' := after u) (by simp only [conc, callStep, if_neg h]) (le_trans h2 (by simp only [PC.changes]; omega)) (fun _ => le_refl _)
          (lt_of_le_of_lt h1 (by simp only [PC.left]; omega))
    | swap u o n k =>
      by_cases h : s.lastTick = o
      · obtain ⟨h1, h2⟩ := loop_left { s with lastTick := n, wins := s.wins ++ [(o, n, k)] } u k
        exact .on (s' := { s with lastTick := n, wins := s.wins ++ [(o, n, k)] }) (c' := loop u k) (by simp only [conc, callStep, if_pos h])
          (le_trans h2 (by simp only [PC.changes]; omega)) (left_same rfl) (lt_of_le_of_lt h1 (by simp only [PC.left]; omega))
      · obtain ⟨h1, h2⟩ := after_left s u
        exact .on (s' := s) (c' := after u) (by simp only [conc, callStep, if_neg h]) (le_trans h2 (by simp only [PC.changes]; omega)) (fun _ => le_refl _)
          (lt_of_le_of_lt h1 (by simp only [PC.left]; omega))
    | load u l => exact .on rfl (by simp [PC.changes]) (fun _ => le_refl _) (by simp [PC.left])
    | take u l n =>
      by_cases h : s.uncounted = n
      · refine .change (s' := { s with uncounted := 0, taken := s.taken ++ [n] }) (c' := .tick1 u l n) (by simp only [conc, callStep, if_pos h])
          (by simp [PC.changes]) (fun d => ?_) (by simp [PC.left, h])
        have := left_le s { s with uncounted := 0, taken := s.taken ++ [n] } d
        simp only [PC.changes]; omega
      · exact .on (s' := s) (c' := .load u l) (by simp only [conc, callStep, if_neg h]) (by simp [PC.changes]) (fun _ => le_refl _) (by simp [PC.left, h])
    | tick1 u l n => exact .on rfl (by simp [PC.changes]) (left_same rfl) (by simp [PC.left])
    | tick5 u l n => exact .on rfl (by simp [PC.changes]) (left_same rfl) (by simp [PC.left])
    | tick15 u l n =>
      obtain ⟨h1, h2⟩ := loop_left { s with fed15 := s.fed15 ++ [n] } u l
      exact .on (s' := { s with fed15 := s.fed15 ++ [n] }) (c' := loop u l) rfl (le_trans h2 (by simp only [PC.changes]; omega)) (left_same rfl)
        (lt_of_le_of_lt h1 (by simp only [PC.left]; omega))
    | add =>
      exact .change (s' := { s with uncounted := i64 (s.uncounted + 1) }) (c' := .done true) rfl (by simp [PC.changes])
        (fun d => by simpa [PC.changes] using left_le s _ d) (by simp [PC.left])
    | done u => exact .stay rfl (by simp [tickOver])
  some es := by
    rintro ⟨c, hc, ho⟩
    exact ⟨c, hc, ho, ho⟩
  idle s x c h := by cases c <;> first | rfl | cases h

end CompassConc

/-- **C100.** `tickIfNecessary`, and so what `Update` and the rate getters do of it. -/
theorem C100_ticks (bi : Int) (s : CompassConc.Shared) : (CompassConc.conc bi).FairlyEnds s tickOver (fun _ => True) :=
  (CompassConc.ranked bi s).fairly.ends

namespace Whole
variable {S C A I : Type}

/-- How many parts a call still has before it. -/
def PC.stage : PC → Nat
  | .start => 6
  | .tick _ | .avg _ _ _ => 5
  | .total _ _ => 4
  | .res _ _ _ => 3
  | .rest _ _ _ => 2
  | .rate _ | .snap _ => 1
  | .done _ _ _ | .resPanicked _ _ _ | .crashed _ _ | .got _ _ | .snapped _ => 0

/-- Is the call inside an average? -/
def PC.inAvg : PC → Nat
  | .avg _ _ _ => 1
  | _ => 0

theorem sum_set {α : Type} (f : α → Nat) {l : List α} {i : Nat} {c : α} (c' : α) (h : l[i]? = some c) :
    ((l.set i c').map f).sum + f c = (l.map f).sum + f c' := by
  induction l generalizing i with
  | nil => simp at h
  | cons a l ih =>
    cases i with
    | zero =>
      simp only [List.getElem?_cons_zero, Option.some.injEq] at h
      subst h
      simp only [List.set_cons_zero, List.map_cons, List.sum_cons]; omega
    | succ i =>
      simp only [List.getElem?_cons_succ] at h
      simp only [List.set_cons_succ, List.map_cons, List.sum_cons]
      have := ih h
      omega

section
variable {R : Rounding} {T : Stepped S C A I} {arg : C → Option Int} {bi : Int} {s0 : S} {n : Nat} {maxErr maxAdd now t1 t2 : Int} {good : I → Prop}
  {Ft : (CompassConc.conc bi).Fairly { lastTick := now, uncounted := 0 } tickOver (fun _ => True)}
  {Fe : (EWMA.conc R).Fairly ⟨EWMA.zeroValue, false⟩ EWMA.PC.ended (fun _ => True)}
  {Fr : T.machine.Fairly s0 (fun c => (T.over c).isSome) good}

/-- What is left to do inside the averages, the counters and the reservoir. -/
def within (Fe : (EWMA.conc R).Fairly ⟨EWMA.zeroValue, false⟩ EWMA.PC.ended (fun _ => True)) (Fr : T.machine.Fairly s0 (fun c => (T.over c).isSome) good) (s : Parts S C) : Nat :=
  Fe.μ (s.avg .m1) + Fe.μ (s.avg .m5) +
    Fe.μ (s.avg .m15) + CompassConc.ranks s.marks + Fr.μ s.res

/-- The measure: first the parts still ahead, then what is left of the ticks, then the rest. -/
def measure (Ft : (CompassConc.conc bi).Fairly { lastTick := now, uncounted := 0 } tickOver (fun _ => True))
    (Fe : (EWMA.conc R).Fairly ⟨EWMA.zeroValue, false⟩ EWMA.PC.ended (fun _ => True)) (Fr : T.machine.Fairly s0 (fun c => (T.over c).isSome) good) (p : Pool (Parts S C) Call) : ℕ ×ₗ ℕ ×ₗ ℕ :=
  toLex ((p.calls.map fun c => c.pc.stage).sum, toLex (Ft.μ p.shared.ticks,
    within Fe Fr p.shared + (p.calls.map fun c => c.pc.inAvg).sum))

/-- Calls whose next turn, if it is a good one, makes the measure smaller. -/
def Helpful (Fe : (EWMA.conc R).Fairly ⟨EWMA.zeroValue, false⟩ EWMA.PC.ended (fun _ => True)) (Fr : T.machine.Fairly s0 (fun c => (T.over c).isSome) good) (s : Parts S C) (c : Call) : Prop :=
  match c.pc with
  | .start | .tick _ | .total _ _ | .rate _ => True
  | .avg _ w j => (At (s.avg w) j fun e => avgOver e = true) ∨ Fe.H (s.avg w) j
  | .res _ _ r | .snap r => (At s.res r fun q => (T.over q).isSome = true) ∨ Fr.H s.res r
  | .rest _ m _ => At s.marks m fun k => ∀ w, k.pc = .lock w → (s.marks.shared.lab w).held = false
  | .done _ _ _ | .resPanicked _ _ _ | .crashed _ _ | .got _ _ | .snapped _ => False

theorem measure_lt1 {p : Pool (Parts S C) Call} {i : Nat} {c c' : Call} {s' : Parts S C}
    (hi : p.calls[i]? = some c) (h : c'.pc.stage < c.pc.stage) : measure Ft Fe Fr ⟨s', p.calls.set i c'⟩ < measure Ft Fe Fr p := by
  rw [measure, measure, Prod.Lex.toLex_lt_toLex]
  left
  have := sum_set (fun c : Call => c.pc.stage) c' hi
  simp only at this ⊢
  omega

theorem measure_lt2 {p : Pool (Parts S C) Call} {i : Nat} {c c' : Call} {s' : Parts S C}
    (hi : p.calls[i]? = some c) (h : c'.pc.stage = c.pc.stage)
    (ht : Ft.μ s'.ticks < Ft.μ p.shared.ticks) :
    measure Ft Fe Fr ⟨s', p.calls.set i c'⟩ < measure Ft Fe Fr p := by
  rw [measure, measure, Prod.Lex.toLex_lt_toLex]
  right
  have := sum_set (fun c : Call => c.pc.stage) c' hi
  refine ⟨by simp only at this ⊢; omega, ?_⟩
  rw [Prod.Lex.toLex_lt_toLex]
  exact .inl ht

theorem measure_3 {p : Pool (Parts S C) Call} {i : Nat} {c c' : Call} {s' : Parts S C}
    (hi : p.calls[i]? = some c) (h : c'.pc.stage = c.pc.stage) (ht : s'.ticks = p.shared.ticks) :
    (within Fe Fr s' + c'.pc.inAvg < within Fe Fr p.shared + c.pc.inAvg → measure Ft Fe Fr ⟨s', p.calls.set i c'⟩ < measure Ft Fe Fr p) ∧
    (within Fe Fr s' + c'.pc.inAvg ≤ within Fe Fr p.shared + c.pc.inAvg → measure Ft Fe Fr ⟨s', p.calls.set i c'⟩ ≤ measure Ft Fe Fr p) := by
  have e1 := sum_set (fun c : Call => c.pc.stage) c' hi
  have e2 := sum_set (fun c : Call => c.pc.inAvg) c' hi
  have e3 : ((p.calls.set i c').map fun c => c.pc.stage).sum = (p.calls.map fun c => c.pc.stage).sum := by omega
  constructor
  · intro g
    rw [measure, measure, Prod.Lex.toLex_lt_toLex]
    refine .inr ⟨e3, ?_⟩
    rw [Prod.Lex.toLex_lt_toLex]
    refine .inr ⟨by simp only [ht], ?_⟩
    simp only; omega
  · intro g
    rw [measure, measure, Prod.Lex.toLex_le_toLex]
    refine .inr ⟨e3, ?_⟩
    rw [Prod.Lex.toLex_le_toLex]
    refine .inr ⟨by simp only [ht], ?_⟩
    simp only; omega

theorem within_avg (s : Parts S C) (w : Which) (q : Pool EWMA.Shared EWMA.PC) :
    within Fe Fr (s.setAvg w q) + Fe.μ (s.avg w) = within Fe Fr s + Fe.μ q := by
  cases w <;> simp [within, Parts.setAvg] <;> omega

/-- What a step may do: make the measure smaller; or, if it is no good turn of a helpful call, leave the measure, and all helpful calls helpful. -/
def Out (Ft : (CompassConc.conc bi).Fairly { lastTick := now, uncounted := 0 } tickOver (fun _ => True))
    (Fe : (EWMA.conc R).Fairly ⟨EWMA.zeroValue, false⟩ EWMA.PC.ended (fun _ => True)) (Fr : T.machine.Fairly s0 (fun c => (T.over c).isSome) good)
    (p : Pool (Parts S C) Call) (i : Nat) (c : Call) (g : Prop) (t : Parts S C × Call) : Prop :=
  measure Ft Fe Fr ⟨t.1, p.calls.set i t.2⟩ < measure Ft Fe Fr p ∨
    (¬ (Helpful Fe Fr p.shared c ∧ g) ∧ measure Ft Fe Fr ⟨t.1, p.calls.set i t.2⟩ ≤ measure Ft Fe Fr p ∧ t.2 = c ∧
      ∀ d, Helpful Fe Fr p.shared d → Helpful Fe Fr t.1 d)

theorem Out.stay {p : Pool (Parts S C) Call} {i : Nat} {c : Call} {g : Prop} {t : Parts S C × Call} (hi : p.calls[i]? = some c) (ht : t = (p.shared, c))
    (hn : ¬ Helpful Fe Fr p.shared c) : Out Ft Fe Fr p i c g t := by
  subst ht
  exact .inr ⟨fun h => hn h.1, (measure_3 hi rfl rfl).2 (le_refl _), rfl, fun _ h => h⟩

theorem Out.ahead {p : Pool (Parts S C) Call} {i : Nat} {c : Call} {g : Prop} {t : Parts S C × Call} (hi : p.calls[i]? = some c)
    (h : t.2.pc.stage < c.pc.stage) : Out Ft Fe Fr p i c g t := .inl (measure_lt1 hi h)

theorem Out.marks {p : Pool (Parts S C) Call} {i m : Nat} {c : Call} {k : Mark} {g : Prop} {t : Parts S C × Call} {y : Int} (hi : p.calls[i]? = some c)
    (hk : p.shared.marks.calls[m]? = some k) (ht : t = ({ p.shared with marks := marking.apply p.shared.marks (.step m y) }, c))
    (hr : markRank (marking.step p.shared.marks.shared y k).2.pc < markRank k.pc) : Out Ft Fe Fr p i c g t := by
  subst ht
  have hm := measure_3 (Ft := Ft) (Fe := Fe) (Fr := Fr) (c' := c) (s' := { p.shared with marks := marking.apply p.shared.marks (.step m y) }) hi rfl rfl
  have hs := sum_set (fun m : Mark => markRank m.pc) (marking.step p.shared.marks.shared y k).2 hk
  have ha : CompassConc.ranks (marking.apply p.shared.marks (.step m y)) =
      ((p.shared.marks.calls.set m (marking.step p.shared.marks.shared y k).2).map fun m : Mark => markRank m.pc).sum := by
    simp only [CompassConc.ranks, Machine.apply, hk]
  have hb : CompassConc.ranks p.shared.marks = (p.shared.marks.calls.map fun m : Mark => markRank m.pc).sum := rfl
  have hwi : within Fe Fr { p.shared with marks := marking.apply p.shared.marks (.step m y) } + CompassConc.ranks p.shared.marks =
    within Fe Fr p.shared + CompassConc.ranks (marking.apply p.shared.marks (.step m y)) := by simp only [within]; omega
  exact .inl (hm.1 (by omega))

theorem Out.res {p : Pool (Parts S C) Call} {i r : Nat} {c : Call} {q : C} {t : Parts S C × Call} {x : I} (hi : p.calls[i]? = some c)
    (h1 : ∃ es, p.shared.res = T.machine.run (Machine.start s0) es) (hq : p.shared.res.calls[r]? = some q) (ho : (T.over q).isSome = false)
    (hc : c.pc = .snap r ∨ ∃ i m, c.pc = .res i m r) (ht : t = ({ p.shared with res := T.machine.apply p.shared.res (.step r x) }, c)) :
    Out Ft Fe Fr p i c (good x) t := by
  subst ht
  obtain ⟨es, h1⟩ := h1
  have hs := Fr.step es r x
  have hg := Fr.good_step es r x
  simp only [← h1] at hs hg
  have hwi : within Fe Fr { p.shared with res := T.machine.apply p.shared.res (.step r x) } + Fr.μ p.shared.res =
    within Fe Fr p.shared + Fr.μ (T.machine.apply p.shared.res (.step r x)) := by simp only [within]; omega
  have hm := measure_3 (Ft := Ft) (Fe := Fe) (Fr := Fr) (c' := c) (s' := { p.shared with res := T.machine.apply p.shared.res (.step r x) }) hi rfl rfl
  have lt : Fr.μ (T.machine.apply p.shared.res (.step r x)) < Fr.μ p.shared.res → Out Ft Fe Fr p i c (good x)
      ({ p.shared with res := T.machine.apply p.shared.res (.step r x) }, c) := fun h => .inl (hm.1 (by omega))
  rcases hs with hs | ⟨hs1, hs2⟩
  · exact lt hs
  · by_cases hlt : Fr.μ (T.machine.apply p.shared.res (.step r x)) < Fr.μ p.shared.res
    · exact lt hlt
    refine .inr ⟨?_, hm.2 (by omega), rfl, ?_⟩
    · rintro ⟨h, hx⟩
      have h' : (At p.shared.res r fun q => (T.over q).isSome = true) ∨ Fr.H p.shared.res r := by
        obtain ⟨u, pc⟩ := c
        rcases hc with rfl | ⟨i, m, rfl⟩ <;> exact h
      rcases h' with h | h
      · obtain ⟨q', h2, h3⟩ := h
        rw [hq] at h2
        obtain rfl := Option.some.inj h2
        rw [ho] at h3; cases h3
      · exact hlt (hg h hx)
    · rintro ⟨u, pc⟩ hd
      have key : ∀ r', ((At p.shared.res r' fun q => (T.over q).isSome = true) ∨ Fr.H p.shared.res r') →
          (At (T.machine.apply p.shared.res (.step r x)) r' fun q => (T.over q).isSome = true) ∨ Fr.H (T.machine.apply p.shared.res (.step r x)) r' := by
        rintro r' (hd | hd)
        · exact .inl (At.apply hd (fun s x c hc => Fr.idle s x c hc) _)
        · exact .inr (hs2 _ hd)
      cases pc with
      | res t' m' r' => exact key r' hd
      | snap r' => exact key r' hd
      | _ => exact hd

theorem Out.avg {p : Pool (Parts S C) Call} {i t j : Nat} {w : Which} {use : Use} {g : Prop} {e : EWMA.PC} (hi : p.calls[i]? = some ⟨use, .avg t w j⟩)
    (h1 : ∃ es, p.shared.avg w = (EWMA.conc R).run (Machine.start ⟨EWMA.zeroValue, false⟩) es) (he : (p.shared.avg w).calls[j]? = some e) (ho : ¬ avgOver e = true) :
    Out Ft Fe Fr p i ⟨use, .avg t w j⟩ g (p.shared.setAvg w ((EWMA.conc R).apply (p.shared.avg w) (.step j ())), ⟨use, .avg t w j⟩) := by
  obtain ⟨es, h1⟩ := h1
  have hs := Fe.step es j ()
  have hg := Fe.good_step es j ()
  simp only [← h1] at hs hg
  have hw := within_avg (Fe := Fe) (Fr := Fr) p.shared w ((EWMA.conc R).apply (p.shared.avg w) (.step j ()))
  have hm := measure_3 (Ft := Ft) (Fe := Fe) (Fr := Fr) (c' := ⟨use, .avg t w j⟩)
    (s' := p.shared.setAvg w ((EWMA.conc R).apply (p.shared.avg w) (.step j ()))) hi rfl rfl
  rcases hs with hs | ⟨hs1, hs2⟩
  · exact .inl (hm.1 (by omega))
  · by_cases hlt : Fe.μ ((EWMA.conc R).apply (p.shared.avg w) (.step j ())) < Fe.μ (p.shared.avg w)
    · exact .inl (hm.1 (by omega))
    refine .inr ⟨?_, hm.2 (by omega), rfl, ?_⟩
    · rintro ⟨h | h, -⟩
      · obtain ⟨e', h2, h3⟩ := h
        rw [he] at h2
        obtain rfl := Option.some.inj h2
        exact ho h3
      · exact hlt (hg h trivial)
    · rintro ⟨u, pc⟩ hd
      cases pc with
      | avg t' w' j' =>
        by_cases hww : w' = w
        · subst hww
          have e2 : (p.shared.setAvg w' ((EWMA.conc R).apply (p.shared.avg w') (.step j ()))).avg w' = (EWMA.conc R).apply (p.shared.avg w') (.step j ()) := by
            simp [Parts.setAvg]
          change (At _ _ _) ∨ _
          change (At _ _ _) ∨ _ at hd
          rw [e2]
          rcases hd with hd | hd
          · exact .inl (At.apply hd (fun s x c hc => by cases c <;> first | rfl | cases hc) _)
          · exact .inr (hs2 _ hd)
        · have e2 : (p.shared.setAvg w ((EWMA.conc R).apply (p.shared.avg w) (.step j ()))).avg w' = p.shared.avg w' := by
            simp [Parts.setAvg, hww]
          change (At _ _ _) ∨ _
          change (At _ _ _) ∨ _ at hd
          rw [e2]
          exact hd
      | _ => exact hd

theorem fair_step (hT : T.Ok arg) (hFt : ∀ p t k, p.calls[t]? = some k → tickOver k = false → Ft.H p t) {p : Pool (Parts S C) Call}
    (hp : Rch R T s0 bi n maxErr maxAdd now t1 t2 p) {i : Nat} {c : Call} (hi : p.calls[i]? = some c) (x : In I) :
    Out Ft Fe Fr p i c (good x.res) (callStep R T bi p.shared x c) := by
  have hinv := hp.inv hT
  have hh := hinv.here c (List.mem_of_getElem? hi)
  obtain ⟨use, pc⟩ := c
  cases pc with
  | start =>
    refine .ahead hi ?_
    cases use <;> simp [callStep, PC.stage]
  | tick t =>
    obtain ⟨hu, k, hk, -⟩ := hh
    by_cases ho : tickOver k = true
    · refine .ahead hi ?_
      cases use <;> simp [callStep, hk, ho, PC.stage]
    · obtain ⟨es, h1, -⟩ := hinv.ticks
      change p.shared.ticks = (CompassConc.conc bi).run (Machine.start { lastTick := now, uncounted := 0 }) es at h1
      have hlt := Ft.good_step es t x.tick
      rw [← h1] at hlt
      have hlt := hlt (hFt _ _ _ hk (by simpa using ho)) trivial
      refine .inl ?_
      cases hf : feeds k with
      | none =>
        have e : callStep R T bi p.shared x ⟨use, .tick t⟩ = ({ p.shared with ticks := (CompassConc.conc bi).apply p.shared.ticks (.step t x.tick) }, ⟨use, .tick t⟩) := by
          simp only [callStep, hk, if_neg ho, hf]
        rw [e]
        exact measure_lt2 hi rfl hlt
      | some wn =>
        obtain ⟨w, m⟩ := wn
        have e : callStep R T bi p.shared x ⟨use, .tick t⟩ =
            (({ p.shared with ticks := (CompassConc.conc bi).apply p.shared.ticks (.step t x.tick) } : Parts S C).setAvg w
              ((EWMA.conc R).apply (p.shared.avg w) (.spawn (.tickN m))), ⟨use, .avg t w (p.shared.avg w).calls.length⟩) := by
          simp only [callStep, hk, if_neg ho, hf]
        rw [e]
        exact measure_lt2 hi rfl hlt
  | avg t w j =>
    obtain ⟨-, -, e, he, -⟩ := hh
    by_cases ho : avgOver e = true
    · have e1 : callStep R T bi p.shared x ⟨use, .avg t w j⟩ = (p.shared, ⟨use, .tick t⟩) := by simp only [callStep, he, if_pos ho]
      rw [e1]
      have hm := measure_3 (Ft := Ft) (Fe := Fe) (Fr := Fr) (c' := ⟨use, .tick t⟩) (s' := p.shared) hi rfl rfl
      exact .inl (hm.1 (by simp only [PC.inAvg]; omega))
    · have e1 : callStep R T bi p.shared x ⟨use, .avg t w j⟩ = (p.shared.setAvg w ((EWMA.conc R).apply (p.shared.avg w) (.step j ())), ⟨use, .avg t w j⟩) := by
        simp only [callStep, he, if_neg ho]
      rw [e1]
      obtain ⟨es, h1, -⟩ := hinv.avg w
      exact .avg hi ⟨es, h1⟩ he ho
  | total t m =>
    obtain ⟨d, a, hu, -, k, hk, -⟩ := hh
    simp only at hu
    subst hu
    by_cases ho : pastTotal k = true
    · refine .ahead hi ?_
      by_cases hc : k.pc = .crashed
      · simp [callStep, hk, ho, hc, PC.stage]
      · simp [callStep, hk, ho, hc, PC.stage]
    · refine .marks hi hk (y := x.time) (by simp only [callStep, hk, if_neg ho]) ?_
      exact CompassConc.markStep_rank p.shared.marks.shared x.time k (by obtain ⟨a, pc⟩ := k; cases pc <;> first | rfl | exact absurd rfl ho)
        (by rintro e; apply ho; simp [pastTotal, e]) (by rintro w e; exfalso; apply ho; simp [pastTotal, e])
  | res t m r =>
    obtain ⟨d, a, hu, -, -, q, hq, -⟩ := hh
    cases ho : T.over q with
    | some b =>
      refine .ahead hi ?_
      cases b <;> simp [callStep, hq, ho, PC.stage]
    | none =>
      obtain ⟨es, h1, -⟩ := hinv.res
      exact .res hi ⟨es, h1⟩ hq (by rw [ho]; rfl) (.inr ⟨_, _, rfl⟩) (by simp only [callStep, hq, ho])
  | rest t m r =>
    obtain ⟨d, a, hu, -, ⟨k, hk, -⟩, -⟩ := hh
    by_cases ho : markOver k = true
    · refine .ahead hi ?_
      simp [callStep, hk, ho, PC.stage]
    · obtain ⟨f1, f2⟩ := finished_over k (by simpa using ho)
      have e1 : callStep R T bi p.shared x ⟨use, .rest t m r⟩ = ({ p.shared with marks := marking.apply p.shared.marks (.step m x.time) }, ⟨use, .rest t m r⟩) := by
        simp only [callStep, hk, if_neg ho]
      by_cases hw : ∃ w, k.pc = .lock w ∧ (p.shared.marks.shared.lab w).held = true
      · refine .stay hi ?_ ?_
        · rw [e1]
          have := CompassConc.markStep_stuck p.shared.marks.shared x.time k (.inr (.inr hw))
          have e2 : marking.apply p.shared.marks (.step m x.time) = p.shared.marks := by
            simp only [Machine.apply, hk]
            rw [show marking.step p.shared.marks.shared x.time k = _ from this, set_same hk]
          rw [e2]
        · rintro ⟨k', h1, h2⟩
          rw [hk] at h1
          obtain rfl := Option.some.inj h1
          obtain ⟨w, g1, g2⟩ := hw
          rw [h2 w g1] at g2
          cases g2
      · refine .marks hi hk e1 ?_
        exact CompassConc.markStep_rank p.shared.marks.shared x.time k f1 f2 (fun w h => by by_contra hc; exact hw ⟨w, h, by simpa using hc⟩)
  | rate t =>
    obtain ⟨⟨w, hu⟩, -⟩ := hh
    simp only at hu
    subst hu
    exact .ahead hi (by simp [callStep, PC.stage])
  | snap r =>
    obtain ⟨hu, q, hq, -⟩ := hh
    by_cases ho : (T.over q).isSome = true
    · refine .ahead hi ?_
      simp [callStep, hq, ho, PC.stage]
    · obtain ⟨es, h1, -⟩ := hinv.res
      exact .res hi ⟨es, h1⟩ hq (by simpa using ho) (.inl rfl) (by simp only [callStep, hq, if_neg ho])
  | done _ _ _ => exact .stay hi rfl id
  | resPanicked _ _ _ => exact .stay hi rfl id
  | crashed _ _ => exact .stay hi rfl id
  | got _ _ => exact .stay hi rfl id
  | snapped _ => exact .stay hi rfl id

/-- As long as a call is not over, some call is helpful. -/
theorem fair_some (hT : T.Ok arg) {p : Pool (Parts S C) Call}
    (hp : Rch R T s0 bi n maxErr maxAdd now t1 t2 p) {c : Call} (hc : c ∈ p.calls) (ho : c.ended = false) : ∃ d ∈ p.calls, Helpful Fe Fr p.shared d := by
  have hinv := hp.inv hT
  have hh := hinv.here c hc
  obtain ⟨use, pc⟩ := c
  have hres : ∀ (r : Nat) (q : C), p.shared.res.calls[r]? = some q → (∀ d : Call, (d.pc = .snap r ∨ ∃ i m, d.pc = .res i m r) → d ∈ p.calls →
      ∃ d ∈ p.calls, Helpful Fe Fr p.shared d) := by
    intro r q hq d hd hmem
    by_cases hov : (T.over q).isSome = true
    · refine ⟨d, hmem, ?_⟩
      obtain ⟨u, pc⟩ := d
      rcases hd with rfl | ⟨i, m, rfl⟩ <;> exact .inl ⟨q, hq, hov⟩
    · obtain ⟨es, h1, -⟩ := hinv.res
      change p.shared.res = T.machine.run (Machine.start s0) es at h1
      obtain ⟨r', q', g1, g2, g3⟩ := Fr.some es ⟨q, by rw [← h1]; exact List.mem_of_getElem? hq, by simpa using hov⟩
      rw [← h1] at g1 g3
      obtain ⟨k, c', hk, hpc⟩ := res_owner hT hp g1 (by simpa using g2)
      refine ⟨c', List.mem_of_getElem? hk, ?_⟩
      obtain ⟨u, pc⟩ := c'
      rcases hpc with ⟨i, m, rfl⟩ | rfl <;> exact .inr g3
  cases pc with
  | start => exact ⟨_, hc, trivial⟩
  | tick t => exact ⟨_, hc, trivial⟩
  | total t m => exact ⟨_, hc, trivial⟩
  | rate t => exact ⟨_, hc, trivial⟩
  | avg t w j =>
    obtain ⟨-, -, e, he, -⟩ := hh
    by_cases hov : avgOver e = true
    · exact ⟨_, hc, .inl ⟨e, he, hov⟩⟩
    · have hne : ∀ e', e' ∈ (p.shared.avg w).calls → avgOver e' = false → EWMA.PC.ended e' = false := by
        intro e' hm hov'
        have := List.mem_map_of_mem (f := countOf) hm
        rw [hinv.fed w] at this
        obtain ⟨a, -, g3⟩ := List.mem_map.1 this
        cases e' <;> simp [EWMA.PC.ended, countOf, avgOver] at g3 hov' ⊢
      obtain ⟨es, h1, -⟩ := hinv.avg w
      change p.shared.avg w = (EWMA.conc R).run (Machine.start ⟨EWMA.zeroValue, false⟩) es at h1
      obtain ⟨j', e', g1, g2, g3⟩ := Fe.some es
        ⟨e, by rw [← h1]; exact List.mem_of_getElem? he, hne e (List.mem_of_getElem? he) (by simpa using hov)⟩
      rw [← h1] at g1 g3
      have hov' : ¬ avgOver e' = true := by
        intro h
        cases e' <;> simp [avgOver, EWMA.PC.ended] at h g2
      obtain ⟨c', hc', i, hpc⟩ := (hinv.owned w j' e' g1).resolve_left hov'
      refine ⟨c', hc', ?_⟩
      obtain ⟨u, pc⟩ := c'
      simp only at hpc
      subst hpc
      exact .inr g3
  | res t m r =>
    obtain ⟨-, -, -, -, -, q, hq, -⟩ := hh
    exact hres r q hq _ (.inr ⟨_, _, rfl⟩) hc
  | snap r =>
    obtain ⟨-, q, hq, -⟩ := hh
    exact hres r q hq _ (.inl rfl) hc
  | rest t m r =>
    obtain ⟨-, -, -, -, ⟨k, hk, -⟩, -⟩ := hh
    by_cases hw : ∃ w, k.pc = .lock w ∧ (p.shared.marks.shared.lab w).held = true
    · obtain ⟨w, hw1, hw2⟩ := hw
      obtain ⟨m', k', h1, h2⟩ := holder hT hp hw2
      obtain ⟨c', hc', i', r', hpc⟩ := hp.deep m' k' w h1 h2
      refine ⟨c', hc', ?_⟩
      obtain ⟨u, pc⟩ := c'
      simp only at hpc
      subst hpc
      refine ⟨k', h1, fun w' e => ?_⟩
      rw [e] at h2
      cases w <;> cases w' <;> cases h2
    · exact ⟨_, hc, k, hk, fun w h => by by_contra hne; exact hw ⟨w, h, by simpa using hne⟩⟩
  | done _ _ _ => cases ho
  | resPanicked _ _ _ => cases ho
  | crashed _ _ => cases ho
  | got _ _ => cases ho
  | snapped _ => cases ho

end
end Whole

/-- **C100.** Whatever `Update`, `UpdateWithError`, rate and `GetSnapshot` calls of a compass are under way: if the scheduler is fair and no new ones
start, they all end. -/
theorem C100_compass {S C A I : Type} (R : Rounding) (T : Stepped S C A I) (arg : C → Option Int) (hT : T.Ok arg) (s0 : S) (good : I → Prop)
    (Fr : T.machine.Fairly s0 (fun c => (T.over c).isSome) good) (bi : Int) (n : Nat) (maxErr maxAdd now t1 t2 : Int) :
    (machine R T bi).FairlyEnds (init s0 bi n maxErr maxAdd now t1 t2 : Pool (Parts S C) Call).shared Call.ended (fun x => good x.res) := by
  let Ft := (CompassConc.ranked bi { lastTick := now, uncounted := 0 }).fairly
  let Fe := (EWMA.ranked R EWMA.zeroValue).fairly
  have hFt : ∀ p t k, p.calls[t]? = some k → tickOver k = false → Ft.H p t := fun p t k h1 h2 => ⟨k, h1, h2⟩
  clear_value Ft Fe
  have hr : ∀ es, Rch R T s0 bi n maxErr maxAdd now t1 t2 ((machine R T bi).run (Machine.start (init s0 bi n maxErr maxAdd now t1 t2 : Pool (Parts S C) Call).shared) es) :=
    fun es => ⟨es, rfl⟩
  refine fair_of _ (Whole.measure Ft Fe Fr) (fun p i => ∃ c, p.calls[i]? = some c ∧ Helpful Fe Fr p.shared c) ?_ ?_ ?_ ?_
  · intro es j x p
    cases hj : p.calls[j]? with
    | none => simp only [Machine.apply, hj]; exact .inr ⟨le_refl _, fun _ h => h⟩
    | some c =>
      have happ : (machine R T bi).apply p (.step j x) = ⟨(callStep R T bi p.shared x c).1, p.calls.set j (callStep R T bi p.shared x c).2⟩ := by
        simp only [Machine.apply, hj]; rfl
      rw [happ]
      rcases fair_step (Fe := Fe) (Fr := Fr) hT hFt (hr es) hj x with h | ⟨-, h1, h2, h3⟩
      · exact .inl h
      · refine .inr ⟨h1, ?_⟩
        rintro i ⟨d, g1, g2⟩
        refine ⟨d, ?_, h3 d g2⟩
        rw [h2, set_same hj]
        exact g1
  · rintro es i x ⟨c, g1, g2⟩ hx
    have hre := hr es
    generalize (machine R T bi).run (Machine.start (init s0 bi n maxErr maxAdd now t1 t2 : Pool (Parts S C) Call).shared) es = p at g1 g2 hre ⊢
    have happ : (machine R T bi).apply p (.step i x) = ⟨(callStep R T bi p.shared x c).1, p.calls.set i (callStep R T bi p.shared x c).2⟩ := by
      simp only [Machine.apply, g1]; rfl
    rw [happ]
    rcases fair_step (Fe := Fe) (Fr := Fr) hT hFt hre g1 x with h | ⟨h, -⟩
    · exact h
    · exact absurd ⟨g2, hx⟩ h
  · rintro es ⟨c, hc, ho⟩
    obtain ⟨d, hd, hh⟩ := fair_some (Fe := Fe) (Fr := Fr) hT (hr es) hc ho
    obtain ⟨i, hi, hid⟩ := List.getElem_of_mem hd
    exact ⟨i, hi, d, by rw [List.getElem?_eq_getElem hi, hid], hh⟩
  · rintro s x ⟨u, pc⟩ h
    cases pc <;> first | rfl | cases h

/-! ## The reservoirs a compass can have -/

/-- Why the calls of a uniform reservoir inside a compass end. -/
def Whole.uniform_fairly (u : UniformReservoir) : uniform.machine.Fairly { obj := u } (fun c => (uniform.over c).isSome) (fun w => 0 ≤ w ∧ w ≤ 4611686018427387904) := by
  have h : (fun c => (uniform.over c).isSome) = Guarded.ended := by
    funext c
    cases c <;> rfl
  rw [h]
  exact (UniformConc.ranked u).fairly

/-- **C100.** A compass with a uniform reservoir: the scheduler is fair, no new calls start, and the random source gives every call, again and again, a word of
the lower half (at most 2^62): then all calls end. -/
theorem C100_compass_uniform (R : Rounding) (u : UniformReservoir) (bi : Int) (n : Nat) (maxErr maxAdd now t1 t2 : Int)
    (before : List (Ev Use (In Int))) (f : Nat → Nat × In Int)
    (hf : Fair (fun x => 0 ≤ x.res ∧ x.res ≤ 4611686018427387904) (used R uniform { obj := u } bi n maxErr maxAdd now t1 t2 before).calls.length f) :
    ∃ m, ∀ k, m ≤ k → ∀ c ∈ (used R uniform { obj := u } bi n maxErr maxAdd now t1 t2 (before ++ firstTurns f k)).calls, c.ended = true :=
  C100_compass R uniform uniformArg uniform_ok _ _ (Whole.uniform_fairly u) bi n maxErr maxAdd now t1 t2 before f hf

/-- Why the calls of a decaying reservoir end. -/
def EDRConc.ranked (A : EDR.Arith) (s : EDRConc.Shared) : (EDRConc.machine A).Ranked s (fun c => ((decaying A).over c).isSome) (fun _ => True) where
  ok _ _ := True
  ok_run _ _ _ := trivial
  b := 0
  ch _ := 0
  r _ := EDRConc.PC.rank
  help _ c := ((decaying A).over c).isSome = false
  move s x c _ := by
    by_cases h : ((decaying A).over c).isSome = true
    · exact .stay (by cases c <;> first | rfl | cases h) (by simp [h])
    · have := EDRConc.rank_step A s x c
      generalize (EDRConc.machine A).step s x c = t at this
      refine .on (s' := t.1) (c' := t.2) rfl (le_refl _) (fun _ => le_refl _) ?_
      have h0 : 0 < EDRConc.PC.rank c := by cases c <;> first | (simp [EDRConc.PC.rank]; done) | exact absurd rfl h
      omega
  some es := fun ⟨c, hc, ho⟩ => ⟨c, hc, ho, ho⟩
  idle s x c h := by cases c <;> first | rfl | cases h

/-- **C100.** A compass with a decaying reservoir: if the scheduler is fair and no new calls start, all calls end. -/
theorem C100_compass_decaying (R : Rounding) (A : EDR.Arith) (s : EDRConc.Shared) (bi : Int) (n : Nat) (maxErr maxAdd now t1 t2 : Int)
    (before : List (Ev Use (In EDRConc.In))) (f : Nat → Nat × In EDRConc.In)
    (hf : Fair (fun _ => True) (used R (decaying A) s bi n maxErr maxAdd now t1 t2 before).calls.length f) :
    ∃ m, ∀ k, m ≤ k → ∀ c ∈ (used R (decaying A) s bi n maxErr maxAdd now t1 t2 (before ++ firstTurns f k)).calls, c.ended = true :=
  C100_compass R (decaying A) EDRConc.PC.arg (decaying_ok A) _ _ (EDRConc.ranked A s).fairly bi n maxErr maxAdd now t1 t2 before f hf

/-- Taking turns in a circle is fair, so the hypothesis can be met: two updates with the same error code, of which the first holds the mutex of the error codes
and the second waits for it, end in a circle of turns of 40 rounds. -/
example :
    let before : List (Ev Use (In Int)) := [.spawn (.update 7 ⟨false, "e", ""⟩), .spawn (.update 9 ⟨false, "e", ""⟩)] ++ List.replicate 22 (.step 0 ⟨0, 0, 1⟩) ++
      List.replicate 100 (.step 1 ⟨0, 0, 1⟩)
    let f : Nat → Nat × In Int := fun k => (k % 2, ⟨0, 0, 1⟩)
    let p := used .exact uniform { obj := UniformReservoir.new 2 } 5000000000 3 1 1 0 0 0 before
    let q := used .exact uniform { obj := UniformReservoir.new 2 } 5000000000 3 1 1 0 0 0 (before ++ firstTurns f 80)
    p.calls.length = 2 ∧ (∀ c ∈ p.calls, c.ended = false) ∧ Fair (fun x => 0 ≤ x.res ∧ x.res ≤ 4611686018427387904) 2 f ∧ ∀ c ∈ q.calls, c.ended = true := by
  refine ⟨by decide +kernel, by decide +kernel, ?_, by decide +kernel⟩
  intro i hi m
  exact ⟨2 * m + i, by omega, by simp only; omega, by simp only; decide, by simp only; decide⟩

end GoMetrics
