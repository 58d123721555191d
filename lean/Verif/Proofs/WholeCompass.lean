import Verif.Spec.WholeCompass
import Verif.Proofs.Pool
/-! # A whole compass: invariants -/
namespace GoMetrics

namespace Machine
variable {S C A I : Type} (M : Machine S C A I)

/-- `p` is what some schedule, all of whose inputs satisfy `Q`, makes of `p0`. -/
def Reached (p0 : Pool S C) (Q : I → Prop) (p : Pool S C) : Prop :=
  ∃ es : List (Ev A I), p = M.run p0 es ∧ ∀ i x, Ev.step i x ∈ es → Q x

variable {M}

theorem Reached.refl {p0 : Pool S C} {Q : I → Prop} : M.Reached p0 Q p0 := ⟨[], rfl, by simp⟩

theorem Reached.spawn {p0 p : Pool S C} {Q : I → Prop} (h : M.Reached p0 Q p) (a : A) : M.Reached p0 Q (M.apply p (.spawn a)) := by
  obtain ⟨es, rfl, h2⟩ := h
  refine ⟨es ++ [.spawn a], (M.run_snoc _ _ _).symm, ?_⟩
  intro i x hx
  rcases List.mem_append.1 hx with hx | hx
  · exact h2 i x hx
  · simp at hx

theorem Reached.step {p0 p : Pool S C} {Q : I → Prop} (h : M.Reached p0 Q p) (i : Nat) {x : I} (hx : Q x) :
    M.Reached p0 Q (M.apply p (.step i x)) := by
  obtain ⟨es, rfl, h2⟩ := h
  refine ⟨es ++ [.step i x], (M.run_snoc _ _ _).symm, ?_⟩
  intro j y hy
  rcases List.mem_append.1 hy with hy | hy
  · exact h2 j y hy
  · simp only [List.mem_singleton, Ev.step.injEq] at hy
    exact hy.2 ▸ hx

/-- There is a call of index `i`, and `P` holds of it. -/
def At (p : Pool S C) (i : Nat) (P : C → Prop) : Prop := ∃ c, p.calls[i]? = some c ∧ P c

theorem At.mono {p : Pool S C} {i : Nat} {P P' : C → Prop} (h : At p i P) (hp : ∀ c, P c → P' c) : At p i P' := by
  obtain ⟨c, h1, h2⟩ := h; exact ⟨c, h1, hp c h2⟩

/-- What no step destroys stays true of a call. -/
theorem At.apply {p : Pool S C} {i : Nat} {P : C → Prop} (h : At p i P) (hs : ∀ s x c, P c → P (M.step s x c).2) (e : Ev A I) :
    At (M.apply p e) i P := by
  obtain ⟨c, h1, h2⟩ := h
  obtain ⟨hi, -⟩ := List.getElem?_eq_some_iff.1 h1
  cases e with
  | spawn a => exact ⟨c, by simp only [Machine.apply]; rw [List.getElem?_append_left hi]; exact h1, h2⟩
  | step j x =>
    cases hj : p.calls[j]? with
    | none => simp only [Machine.apply, hj]; exact ⟨c, h1, h2⟩
    | some d =>
      simp only [Machine.apply, hj]
      by_cases hji : j = i
      · subst hji
        rw [h1] at hj
        obtain rfl := Option.some.inj hj
        exact ⟨_, by rw [List.getElem?_set_self hi], hs _ _ _ h2⟩
      · exact ⟨c, by rw [List.getElem?_set_ne hji]; exact h1, h2⟩

theorem apply_length {p : Pool S C} (j : Nat) (x : I) : (M.apply p (.step j x)).calls.length = p.calls.length := by
  simp only [Machine.apply]
  cases p.calls[j]? <;> simp

/-- What a step does not change, and it does not change by calling. -/
theorem map_step {p : Pool S C} {B : Type} (f : C → B) (j : Nat) (x : I)
    (hf : ∀ c, p.calls[j]? = some c → f (M.step p.shared x c).2 = f c) :
    (M.apply p (.step j x)).calls.map f = p.calls.map f := by
  simp only [Machine.apply]
  cases hj : p.calls[j]? with
  | none => rfl
  | some c =>
    simp only [List.map_set, hf c hj]
    obtain ⟨hi, hc⟩ := List.getElem?_eq_some_iff.1 hj
    apply List.ext_getElem
    · simp
    · intro n h1 h2
      rw [List.getElem_set]
      split
      · rename_i h; subst h; simp [hc]
      · rfl

end Machine

namespace Whole
open CompassConc (MarkArg Mark Marks)
open Machine (At Reached)

variable {S C A I : Type}

/-- Whether the call of the tick part is one of an `Update`. -/
def updOf : CompassConc.PC → Bool
  | .readOld u | .readClock u _ | .swap u _ _ _ | .load u _ | .take u _ _ | .tick1 u _ _ | .tick5 u _ _ | .tick15 u _ _ | .done u => u
  | .add => true

theorem updOf_after (u : Bool) : updOf (CompassConc.after u) = u := by cases u <;> rfl
theorem updOf_loop (u : Bool) (n : Nat) : updOf (CompassConc.loop u n) = u := by cases n; exact updOf_after u; rfl

theorem updOf_step (bi : Int) (s : CompassConc.Shared) (x : Int) (c : CompassConc.PC) :
    updOf ((CompassConc.conc bi).step s x c).2 = updOf c := by
  cases c <;> simp only [CompassConc.conc, CompassConc.callStep] <;> (try split) <;> first | rfl | exact updOf_after _ | exact updOf_loop _ _

theorem tickOver_step (bi : Int) (s : CompassConc.Shared) (x : Int) (c : CompassConc.PC) (h : tickOver c = true) :
    tickOver ((CompassConc.conc bi).step s x c).2 = true := by
  cases c <;> simp [tickOver] at h
  rfl

theorem tickOver_eq {c : CompassConc.PC} (h : tickOver c = true) : c = .done (updOf c) := by
  cases c <;> simp [tickOver] at h
  rfl

/-- What an average has been fed, according to the log of the tick part. -/
def fedOf (s : CompassConc.Shared) : Which → List Int
  | .m1 => s.fed1
  | .m5 => s.fed5
  | .m15 => s.fed15

theorem fed_step (bi : Int) (s : CompassConc.Shared) (x : Int) (c : CompassConc.PC) (w : Which) :
    fedOf ((CompassConc.conc bi).step s x c).1 w = fedOf s w ++ (match feeds c with
      | some (v, n) => if v = w then [n] else []
      | none => []) := by
  cases w <;> cases c <;> simp only [CompassConc.conc, CompassConc.callStep, feeds] <;> (try split) <;> simp_all [fedOf]

/-- The count of a `TickN` call. -/
def countOf : EWMA.PC → Option Int
  | .enter false c | .read false c _ | .store false c _ _ | .setInit false c | .unlock false c | .done false c => some c
  | _ => none

theorem countOf_step (R : Rounding) (s : EWMA.Shared) (x : Unit) (c : EWMA.PC) (n : Int) (h : countOf c = some n) :
    countOf ((EWMA.conc R).step s x c).2 = some n := by
  cases c with
  | enter own c => cases own <;> simp [countOf] at h; simp only [EWMA.conc, EWMA.callStep]; split <;> simp [countOf, h]
  | read own c i => cases own <;> simp [countOf] at h; simp [EWMA.conc, EWMA.callStep, countOf, h]
  | store own c ini new => cases own <;> simp [countOf] at h; simp only [EWMA.conc, EWMA.callStep]; split <;> simp [countOf, h]
  | setInit own c => cases own <;> simp [countOf] at h; simp [EWMA.conc, EWMA.callStep, countOf, h]
  | unlock own c => cases own <;> simp [countOf] at h; simp [EWMA.conc, EWMA.callStep, countOf, h]
  | done own c => cases own <;> simp [countOf] at h; simp [EWMA.conc, EWMA.callStep, countOf, h]
  | _ => simp [countOf] at h

theorem avgOver_step (R : Rounding) (s : EWMA.Shared) (x : Unit) (c : EWMA.PC) (h : avgOver c = true) :
    avgOver ((EWMA.conc R).step s x c).2 = true := by
  cases c <;> simp [avgOver] at h
  rfl

theorem markArg_step (s : Marks) (t : Int) (m : Mark) : (CompassConc.marking.step s t m).2.arg = m.arg := by
  simp only [CompassConc.marking, CompassConc.markStep]
  cases m.pc <;> simp only [] <;> (repeat' split) <;> rfl

theorem markOver_step (s : Marks) (t : Int) (m : Mark) (h : markOver m = true) : markOver (CompassConc.marking.step s t m).2 = true := by
  obtain ⟨a, pc⟩ := m
  cases pc <;> simp [markOver] at h <;> rfl

/-- The index of the call in the tick part, if it has got that far. -/
def Call.tickIx (c : Call) : Option Nat :=
  match c.pc with
  | .tick i | .avg i _ _ | .total i _ | .res i _ _ | .rest i _ _ | .rate i | .done i _ _ | .resPanicked i _ _ | .crashed i _ | .got i _ => some i
  | _ => none

/-- The index of the call among the counters. -/
def Call.markIx (c : Call) : Option Nat :=
  match c.pc with
  | .total _ m | .res _ m _ | .rest _ m _ | .done _ m _ | .resPanicked _ m _ | .crashed _ m => some m
  | _ => none

/-- The index of the call in the reservoir. -/
def Call.resIx (c : Call) : Option Nat :=
  match c.pc with
  | .res _ _ r | .rest _ _ r | .done _ _ r | .resPanicked _ _ r | .snap r | .snapped r => some r
  | _ => none

/-- What is true of a call, part by part. -/
def Here (T : Stepped S C A I) (arg : C → Option Int) (s : Parts S C) (c : Call) : Prop :=
  match c.pc with
  | .start => True
  | .tick i => c.use ≠ .snapshot ∧ At s.ticks i fun t => updOf t = c.use.records
  | .avg i w j => c.use ≠ .snapshot ∧ (At s.ticks i fun t => updOf t = c.use.records) ∧ At (s.avg w) j fun _ => True
  | .total i m => ∃ d a, c.use = .update d a ∧ (At s.ticks i fun t => tickOver t = true ∧ updOf t = true) ∧ At s.marks m fun k => k.arg = a
  | .res i m r => ∃ d a, c.use = .update d a ∧ (At s.ticks i fun t => tickOver t = true ∧ updOf t = true) ∧ (At s.marks m fun k => k.arg = a) ∧
      At s.res r fun q => arg q = some d
  | .rest i m r => ∃ d a, c.use = .update d a ∧ (At s.ticks i fun t => tickOver t = true ∧ updOf t = true) ∧ (At s.marks m fun k => k.arg = a) ∧
      At s.res r fun q => arg q = some d ∧ T.over q = some false
  | .done i m r => ∃ d a, c.use = .update d a ∧ (At s.ticks i fun t => tickOver t = true ∧ updOf t = true) ∧
      (At s.marks m fun k => k.arg = a ∧ markOver k = true) ∧ At s.res r fun q => arg q = some d ∧ T.over q = some false
  | .resPanicked i m r => ∃ d a, c.use = .update d a ∧ (At s.ticks i fun t => tickOver t = true ∧ updOf t = true) ∧ (At s.marks m fun k => k.arg = a) ∧
      At s.res r fun q => arg q = some d ∧ T.over q = some true
  | .crashed i m => ∃ d a, c.use = .update d a ∧ (At s.ticks i fun t => tickOver t = true ∧ updOf t = true) ∧
      At s.marks m fun k => k.arg = a ∧ k.pc = .crashed
  | .rate i => (∃ w, c.use = .rate w) ∧ At s.ticks i fun t => tickOver t = true ∧ updOf t = false
  | .got i _ => (∃ w, c.use = .rate w) ∧ At s.ticks i fun t => tickOver t = true ∧ updOf t = false
  | .snap r => c.use = .snapshot ∧ At s.res r fun q => arg q = none
  | .snapped r => c.use = .snapshot ∧ At s.res r fun q => arg q = none ∧ (T.over q).isSome = true

/-- Every part is as it was, or has made one step. -/
structure Later (R : Rounding) (T : Stepped S C A I) (bi : Int) (s s' : Parts S C) : Prop where
  ticks : s'.ticks = s.ticks ∨ ∃ e, s'.ticks = (CompassConc.conc bi).apply s.ticks e
  avg : ∀ w, s'.avg w = s.avg w ∨ ∃ e, s'.avg w = (EWMA.conc R).apply (s.avg w) e
  marks : s'.marks = s.marks ∨ ∃ e, s'.marks = CompassConc.marking.apply s.marks e
  res : s'.res = s.res ∨ ∃ e, s'.res = T.machine.apply s.res e

theorem At.later {M : Machine S C A I} {p p' : Pool S C} {i : Nat} {P : C → Prop} (h : At p i P) (hs : ∀ s x c, P c → P (M.step s x c).2)
    (hp : p' = p ∨ ∃ e, p' = M.apply p e) : At p' i P := by
  rcases hp with rfl | ⟨e, rfl⟩
  · exact h
  · exact h.apply hs e

theorem crashed_step (s : Marks) (t : Int) (m : Mark) (h : m.pc = .crashed) : (CompassConc.marking.step s t m).2.pc = .crashed := by
  obtain ⟨a, pc⟩ := m
  subst h
  rfl

theorem Here.later {R : Rounding} {T : Stepped S C A I} {arg : C → Option Int} (hT : T.Ok arg) {bi : Int} {s s' : Parts S C} (h : Later R T bi s s') {c : Call}
    (hc : Here T arg s c) : Here T arg s' c := by
  have htick : ∀ i b, (At s.ticks i fun t => updOf t = b) → At s'.ticks i fun t => updOf t = b := fun i b h0 =>
    At.later h0 (fun s x c hh => by rw [updOf_step]; exact hh) h.ticks
  have hover : ∀ i b, (At s.ticks i fun t => tickOver t = true ∧ updOf t = b) → At s'.ticks i fun t => tickOver t = true ∧ updOf t = b := fun i b h0 =>
    At.later h0 (fun s x c hh => ⟨tickOver_step _ _ _ _ hh.1, by rw [updOf_step]; exact hh.2⟩) h.ticks
  have hmark : ∀ i a, (At s.marks i fun k => k.arg = a) → At s'.marks i fun k => k.arg = a := fun i a h0 =>
    At.later h0 (fun s x c hh => by rw [markArg_step]; exact hh) h.marks
  have hres : ∀ i a, (At s.res i fun q => arg q = a) → At s'.res i fun q => arg q = a := fun i a h0 =>
    At.later h0 (fun s x c hh => by rw [hT.arg_step]; exact hh) h.res
  have hres2 : ∀ i a b, (At s.res i fun q => arg q = a ∧ T.over q = some b) → At s'.res i fun q => arg q = a ∧ T.over q = some b := fun i a b h0 =>
    At.later h0 (fun s x c hh => ⟨by rw [hT.arg_step]; exact hh.1, hT.over_step _ _ _ _ hh.2⟩) h.res
  unfold Here at hc ⊢
  cases hpc : c.pc with
  | start => trivial
  | tick i => simp only [hpc] at hc; exact ⟨hc.1, htick _ _ hc.2⟩
  | avg i w j =>
    simp only [hpc] at hc
    exact ⟨hc.1, htick _ _ hc.2.1, At.later hc.2.2 (fun _ _ _ _ => trivial) (h.avg w)⟩
  | total i m => simp only [hpc] at hc; obtain ⟨d, a, h1, h2, h3⟩ := hc; exact ⟨d, a, h1, hover _ _ h2, hmark _ _ h3⟩
  | res i m r => simp only [hpc] at hc; obtain ⟨d, a, h1, h2, h3, h4⟩ := hc; exact ⟨d, a, h1, hover _ _ h2, hmark _ _ h3, hres _ _ h4⟩
  | rest i m r => simp only [hpc] at hc; obtain ⟨d, a, h1, h2, h3, h4⟩ := hc; exact ⟨d, a, h1, hover _ _ h2, hmark _ _ h3, hres2 _ _ _ h4⟩
  | done i m r =>
    simp only [hpc] at hc; obtain ⟨d, a, h1, h2, h3, h4⟩ := hc
    exact ⟨d, a, h1, hover _ _ h2,
      At.later h3 (fun s x c hh => ⟨by rw [markArg_step]; exact hh.1, markOver_step _ _ _ hh.2⟩) h.marks, hres2 _ _ _ h4⟩
  | resPanicked i m r => simp only [hpc] at hc; obtain ⟨d, a, h1, h2, h3, h4⟩ := hc; exact ⟨d, a, h1, hover _ _ h2, hmark _ _ h3, hres2 _ _ _ h4⟩
  | crashed i m =>
    simp only [hpc] at hc; obtain ⟨d, a, h1, h2, h3⟩ := hc
    exact ⟨d, a, h1, hover _ _ h2, At.later h3 (fun s x c hh => ⟨by rw [markArg_step]; exact hh.1, crashed_step _ _ _ hh.2⟩) h.marks⟩
  | rate i => simp only [hpc] at hc; exact ⟨hc.1, hover _ _ hc.2⟩
  | got i v => simp only [hpc] at hc; exact ⟨hc.1, hover _ _ hc.2⟩
  | snap r => simp only [hpc] at hc; exact ⟨hc.1, hres _ _ hc.2⟩
  | snapped r =>
    simp only [hpc] at hc
    refine ⟨hc.1, At.later hc.2 (fun s x c hh => ⟨by rw [hT.arg_step]; exact hh.1, ?_⟩) h.res⟩
    obtain ⟨b, hb⟩ := Option.isSome_iff_exists.1 hh.2
    rw [hT.over_step _ _ _ _ hb]; rfl

/-- The invariant: every part is in a state its own machine reaches, and its calls are those of the compass's calls. -/
structure Inv (R : Rounding) (T : Stepped S C A I) (arg : C → Option Int) (bi : Int) (Qt : Int → Prop) (Qr : I → Prop) (p0 p : Pool (Parts S C) Call) : Prop where
  ticks : (CompassConc.conc bi).Reached p0.shared.ticks Qt p.shared.ticks
  avg : ∀ w, (EWMA.conc R).Reached (p0.shared.avg w) (fun _ => True) (p.shared.avg w)
  marks : CompassConc.marking.Reached p0.shared.marks (fun _ => True) p.shared.marks
  res : T.machine.Reached p0.shared.res Qr p.shared.res
  tickIx : (p.calls.filterMap Call.tickIx).Perm (List.range p.shared.ticks.calls.length)
  markIx : (p.calls.filterMap Call.markIx).Perm (List.range p.shared.marks.calls.length)
  resIx : (p.calls.filterMap Call.resIx).Perm (List.range p.shared.res.calls.length)
  here : ∀ c ∈ p.calls, Here T arg p.shared c
  fed : ∀ w, (p.shared.avg w).calls.map countOf = (fedOf p.shared.ticks.shared w).map some
  owned : ∀ w, ∀ j e, (p.shared.avg w).calls[j]? = some e → avgOver e = true ∨ ∃ c ∈ p.calls, ∃ i, c.pc = .avg i w j

theorem perm_new {α : Type} (f : α → Option Nat) (pre post : List α) (c c' : α) (n : Nat) (hc : f c = none) (hc' : f c' = some n)
    (h : ((pre ++ c :: post).filterMap f).Perm (List.range n)) : ((pre ++ c' :: post).filterMap f).Perm (List.range (n + 1)) := by
  simp only [List.filterMap_append, List.filterMap_cons, hc, hc'] at h ⊢
  rw [List.range_succ]
  exact List.perm_middle.trans ((List.Perm.cons n h).trans (List.perm_append_singleton n (List.range n)).symm)

theorem perm_same {α : Type} (f : α → Option Nat) (pre post : List α) (c c' : α) (n : Nat) (hc : f c' = f c)
    (h : ((pre ++ c :: post).filterMap f).Perm (List.range n)) : ((pre ++ c' :: post).filterMap f).Perm (List.range n) := by
  simp only [List.filterMap_append, List.filterMap_cons, hc] at h ⊢
  exact h

theorem Later.rfl' {R : Rounding} {T : Stepped S C A I} {bi : Int} {s : Parts S C} : Later R T bi s s :=
  ⟨.inl rfl, fun _ => .inl rfl, .inl rfl, .inl rfl⟩

/-- How the index of a call in a part may change: not at all, or the call gets the next free one. -/
def Moved (o o' : Option Nat) (n n' : Nat) : Prop := (o' = o ∧ n' = n) ∨ (o = none ∧ o' = some n ∧ n' = n + 1)

theorem Moved.perm {α : Type} (f : α → Option Nat) (pre post : List α) (c c' : α) (n n' : Nat) (hm : Moved (f c) (f c') n n')
    (h : ((pre ++ c :: post).filterMap f).Perm (List.range n)) : ((pre ++ c' :: post).filterMap f).Perm (List.range n') := by
  rcases hm with ⟨h1, rfl⟩ | ⟨h1, h2, rfl⟩
  · exact perm_same f pre post c c' _ h1 h
  · exact perm_new f pre post c c' _ h1 h2 h

/-- One step of a call, given what it does part by part. -/
theorem Inv.next {R : Rounding} {T : Stepped S C A I} {arg : C → Option Int} (hT : T.Ok arg) {bi : Int} {Qt : Int → Prop} {Qr : I → Prop}
    {p0 : Pool (Parts S C) Call} {s s' : Parts S C} {pre post : List Call} {c c' : Call}
    (h : Inv R T arg bi Qt Qr p0 ⟨s, pre ++ c :: post⟩)
    (hl : Later R T bi s s')
    (h1 : (CompassConc.conc bi).Reached p0.shared.ticks Qt s'.ticks)
    (h2 : ∀ w, (EWMA.conc R).Reached (p0.shared.avg w) (fun _ => True) (s'.avg w))
    (h3 : CompassConc.marking.Reached p0.shared.marks (fun _ => True) s'.marks)
    (h4 : T.machine.Reached p0.shared.res Qr s'.res)
    (m1 : Moved c.tickIx c'.tickIx s.ticks.calls.length s'.ticks.calls.length)
    (m2 : Moved c.markIx c'.markIx s.marks.calls.length s'.marks.calls.length)
    (m3 : Moved c.resIx c'.resIx s.res.calls.length s'.res.calls.length)
    (hc : Here T arg s' c')
    (hf : ∀ w, (s'.avg w).calls.map countOf = (fedOf s'.ticks.shared w).map some)
    (ho : ∀ w j e, (s'.avg w).calls[j]? = some e → avgOver e = true ∨ (∃ i, c'.pc = .avg i w j) ∨
      (∃ e', (s.avg w).calls[j]? = some e' ∧ avgOver e' = false ∧ ∀ i, c.pc ≠ .avg i w j)) :
    Inv R T arg bi Qt Qr p0 ⟨s', pre ++ c' :: post⟩ := by
  refine ⟨h1, h2, h3, h4, m1.perm _ _ _ _ _ _ _ h.tickIx, m2.perm _ _ _ _ _ _ _ h.markIx, m3.perm _ _ _ _ _ _ _ h.resIx, ?_, hf, ?_⟩
  · intro d hd
    rcases List.mem_append.1 hd with hd | hd
    · exact Here.later hT hl (h.here d (by simp [hd]))
    · rcases List.mem_cons.1 hd with rfl | hd
      · exact hc
      · exact Here.later hT hl (h.here d (by simp [hd]))
  · intro w j e he
    rcases ho w j e he with ho | ⟨i, ho⟩ | ⟨e', g1, g2, g3⟩
    · exact .inl ho
    · exact .inr ⟨c', by simp, i, ho⟩
    · rcases h.owned w j e' g1 with h' | ⟨d, hd, i, hi⟩
      · rw [g2] at h'; cases h'
      · refine .inr ⟨d, ?_, i, hi⟩
        rcases List.mem_append.1 hd with hd | hd
        · simp [hd]
        · rcases List.mem_cons.1 hd with rfl | hd
          · exact absurd hi (g3 i)
          · simp [hd]

/-- Nothing happens to the averages, and the call was in none. -/
theorem owned_same {s s' : Parts S C} {c c' : Call} (hs : s'.avg = s.avg) (hc : ∀ i w j, c.pc ≠ .avg i w j) :
    ∀ w j e, (s'.avg w).calls[j]? = some e → avgOver e = true ∨ (∃ i, c'.pc = .avg i w j) ∨
      (∃ e', (s.avg w).calls[j]? = some e' ∧ avgOver e' = false ∧ ∀ i, c.pc ≠ .avg i w j) := by
  intro w j e he
  rw [hs] at he
  cases h : avgOver e
  · exact .inr (.inr ⟨e, he, h, fun i => hc i w j⟩)
  · exact .inl rfl

theorem At.new {M : Machine S C A I} {p : Pool S C} {P : C → Prop} (a : A) (h : P (M.call a)) : At (M.apply p (.spawn a)) p.calls.length P :=
  ⟨M.call a, by simp [Machine.apply], h⟩

theorem spawn_length {M : Machine S C A I} {p : Pool S C} (a : A) : (M.apply p (.spawn a)).calls.length = p.calls.length + 1 := by
  simp [Machine.apply]

theorem call_updOf (bi : Int) (b : Bool) : updOf ((CompassConc.conc bi).call b) = b := rfl

theorem inv_step {R : Rounding} {T : Stepped S C A I} {arg : C → Option Int} (hT : T.Ok arg) {bi : Int} {Qt : Int → Prop} {Qr : I → Prop}
    {p0 : Pool (Parts S C) Call} {s : Parts S C} {pre post : List Call} {c : Call} (x : In I) (hx : Qt x.tick) (hr : Qr x.res)
    (h : Inv R T arg bi Qt Qr p0 ⟨s, pre ++ c :: post⟩) :
    Inv R T arg bi Qt Qr p0 ⟨(callStep R T bi s x c).1, pre ++ (callStep R T bi s x c).2 :: post⟩ := by
  obtain ⟨use, pc⟩ := c
  have hc := h.here ⟨use, pc⟩ (by simp)
  have hsame : ∀ {o n}, Moved o o n n := fun {o n} => .inl ⟨rfl, rfl⟩
  cases pc with
  | start =>
    cases use with
    | snapshot =>
      try dsimp only [callStep]
      exact h.next hT ⟨.inl rfl, fun _ => .inl rfl, .inl rfl, .inr ⟨.spawn _, rfl⟩⟩ h.ticks h.avg h.marks (h.res.spawn _) hsame hsame
        (.inr ⟨rfl, rfl, spawn_length _⟩) ⟨rfl, At.new _ hT.arg_snapshot⟩ h.fed (owned_same rfl (by simp))
    | update d a =>
      try dsimp only [callStep]
      exact h.next hT ⟨.inr ⟨.spawn _, rfl⟩, fun _ => .inl rfl, .inl rfl, .inl rfl⟩ (h.ticks.spawn _) h.avg h.marks h.res
        (.inr ⟨rfl, rfl, spawn_length _⟩) hsame hsame ⟨by simp, At.new _ rfl⟩ h.fed (owned_same rfl (by simp))
    | rate w =>
      try dsimp only [callStep]
      exact h.next hT ⟨.inr ⟨.spawn _, rfl⟩, fun _ => .inl rfl, .inl rfl, .inl rfl⟩ (h.ticks.spawn _) h.avg h.marks h.res
        (.inr ⟨rfl, rfl, spawn_length _⟩) hsame hsame ⟨by simp, At.new _ rfl⟩ h.fed (owned_same rfl (by simp))
  | tick i =>
    obtain ⟨hu, t, ht, hb⟩ := hc
    simp only at ht hb hu
    simp only [callStep, ht]
    by_cases hov : tickOver t = true
    · rw [if_pos hov]
      cases use with
      | snapshot => exact absurd rfl hu
      | update d a =>
        try dsimp only [callStep]
        exact h.next hT ⟨.inl rfl, fun _ => .inl rfl, .inr ⟨.spawn _, rfl⟩, .inl rfl⟩ h.ticks h.avg (h.marks.spawn _) h.res hsame
          (.inr ⟨rfl, rfl, spawn_length _⟩) hsame ⟨d, a, rfl, ⟨t, ht, hov, hb⟩, At.new _ rfl⟩ h.fed (owned_same rfl (by simp))
      | rate w =>
        try dsimp only [callStep]
        exact h.next hT .rfl' h.ticks h.avg h.marks h.res hsame hsame hsame ⟨⟨w, rfl⟩, ⟨t, ht, hov, hb⟩⟩ h.fed (owned_same rfl (by simp))
    · rw [if_neg hov]
      have hfed : ∀ w, fedOf ((CompassConc.conc bi).apply s.ticks (.step i x.tick)).shared w = fedOf s.ticks.shared w ++ (match feeds t with
          | some (v, n) => if v = w then [n] else []
          | none => []) := by
        intro w
        simp only [Machine.apply, ht]
        exact fed_step bi s.ticks.shared x.tick t w
      have hlen := Machine.apply_length (M := CompassConc.conc bi) (p := s.ticks) i x.tick
      have hat : At ((CompassConc.conc bi).apply s.ticks (.step i x.tick)) i fun t => updOf t = use.records :=
        Machine.At.apply (M := CompassConc.conc bi) ⟨t, ht, hb⟩ (fun s x c hh => by rw [updOf_step]; exact hh) _
      cases hfe : feeds t with
      | none =>
        try dsimp only [callStep]
        refine h.next hT ⟨.inr ⟨.step i x.tick, rfl⟩, fun _ => .inl rfl, .inl rfl, .inl rfl⟩ (h.ticks.step i hx) h.avg h.marks h.res
          (.inl ⟨rfl, hlen⟩) hsame hsame ⟨hu, hat⟩ ?_ (owned_same rfl (by simp))
        intro w
        have := hfed w
        rw [hfe] at this
        simp only [List.append_nil] at this
        simp only [this]
        exact h.fed w
      | some vn =>
        obtain ⟨w, n⟩ := vn
        try dsimp only [callStep]
        refine h.next hT ⟨.inr ⟨.step i x.tick, rfl⟩, fun v => ?_, .inl rfl, .inl rfl⟩ (h.ticks.step i hx) (fun v => ?_) h.marks h.res
          (.inl ⟨rfl, hlen⟩) hsame hsame ⟨hu, hat, ?_⟩ ?_ ?_
        · by_cases hv : v = w
          · subst hv; exact .inr ⟨.spawn (.tickN n), by simp only [Parts.setAvg, Function.update_self]⟩
          · exact .inl (by simp [Parts.setAvg, Function.update_of_ne hv])
        · by_cases hv : v = w
          · subst hv; simp only [Parts.setAvg, Function.update_self]; exact (h.avg v).spawn _
          · simp only [Parts.setAvg, Function.update_of_ne hv]; exact h.avg v
        · simp only [Parts.setAvg, Function.update_self]; exact At.new _ trivial
        · intro v
          have := hfed v
          rw [hfe] at this
          simp only at this
          change _ = List.map some (fedOf ((CompassConc.conc bi).apply s.ticks (.step i x.tick)).shared v)
          rw [this]
          by_cases hv : v = w
          · subst hv
            simp only [Parts.setAvg, Function.update_self, if_true, List.map_append]
            simp only [Machine.apply, List.map_append]
            rw [h.fed v]; rfl
          · simp only [Parts.setAvg, Function.update_of_ne hv, if_neg (Ne.symm hv), List.append_nil]; exact h.fed v
        · intro v j e he
          by_cases hv : v = w
          · subst hv
            simp only [Parts.setAvg, Function.update_self, Machine.apply] at he
            by_cases hj : j < (s.avg v).calls.length
            · rw [List.getElem?_append_left hj] at he
              cases hov' : avgOver e
              · exact .inr (.inr ⟨e, he, hov', by simp⟩)
              · exact .inl rfl
            · have hj' : j = (s.avg v).calls.length := by
                obtain ⟨hj2, -⟩ := List.getElem?_eq_some_iff.1 he
                simp only [List.length_append, List.length_cons, List.length_nil] at hj2
                omega
              exact .inr (.inl ⟨i, by rw [hj']⟩)
          · simp only [Parts.setAvg, Function.update_of_ne hv] at he
            cases hov' : avgOver e
            · exact .inr (.inr ⟨e, he, hov', by simp⟩)
            · exact .inl rfl
  | avg i w j =>
    obtain ⟨hu, hti, e, he, -⟩ := hc
    simp only at he hti hu
    simp only [callStep, he]
    by_cases hov : avgOver e = true
    · rw [if_pos hov]
      try dsimp only [callStep]
      refine h.next hT .rfl' h.ticks h.avg h.marks h.res hsame hsame hsame ⟨hu, hti⟩ h.fed ?_
      intro v k e' he'
      cases hov' : avgOver e'
      · refine .inr (.inr ⟨e', he', hov', ?_⟩)
        rintro i' hi
        simp only [PC.avg.injEq] at hi
        obtain ⟨rfl, rfl, rfl⟩ := hi
        rw [he] at he'
        obtain rfl := Option.some.inj he'
        rw [hov] at hov'; cases hov'
      · exact .inl rfl
    · rw [if_neg hov]
      have hlen := Machine.apply_length (M := EWMA.conc R) (p := s.avg w) j ()
      have hmap : ((EWMA.conc R).apply (s.avg w) (.step j ())).calls.map countOf = (s.avg w).calls.map countOf := by
        apply Machine.map_step
        intro e' he'
        have hsome : (countOf e').isSome := by
          have h1 : countOf e' ∈ (s.avg w).calls.map countOf := List.mem_map.2 ⟨e', List.mem_of_getElem? he', rfl⟩
          rw [h.fed w] at h1
          obtain ⟨n, -, hn⟩ := List.mem_map.1 h1
          rw [← hn]; rfl
        obtain ⟨n, hn⟩ := Option.isSome_iff_exists.1 hsome
        rw [countOf_step R _ _ _ _ hn, hn]
      try dsimp only [callStep]
      refine h.next hT ⟨.inl rfl, fun v => ?_, .inl rfl, .inl rfl⟩ h.ticks (fun v => ?_) h.marks h.res hsame hsame hsame ⟨hu, hti, ?_⟩ ?_ ?_
      · by_cases hv : v = w
        · subst hv; exact .inr ⟨.step j (), by simp only [Parts.setAvg, Function.update_self]⟩
        · exact .inl (by simp [Parts.setAvg, Function.update_of_ne hv])
      · by_cases hv : v = w
        · subst hv; simp only [Parts.setAvg, Function.update_self]; exact (h.avg v).step j trivial
        · simp only [Parts.setAvg, Function.update_of_ne hv]; exact h.avg v
      · simp only [Parts.setAvg, Function.update_self]
        exact Machine.At.apply (M := EWMA.conc R) ⟨e, he, trivial⟩ (fun _ _ _ _ => trivial) _
      · intro v
        by_cases hv : v = w
        · subst hv; simp only [Parts.setAvg, Function.update_self]; rw [hmap]; exact h.fed v
        · simp only [Parts.setAvg, Function.update_of_ne hv]; exact h.fed v
      · intro v k e' he'
        by_cases hv : v = w
        · subst hv
          by_cases hk : k = j
          · subst hk; exact .inr (.inl ⟨i, rfl⟩)
          · simp only [Parts.setAvg, Function.update_self, Machine.apply, he] at he'
            rw [List.getElem?_set_ne (Ne.symm hk)] at he'
            cases hov' : avgOver e'
            · exact .inr (.inr ⟨e', he', hov', fun i' hi => by simp only [PC.avg.injEq] at hi; exact hk hi.2.2.symm⟩)
            · exact .inl rfl
        · simp only [Parts.setAvg, Function.update_of_ne hv] at he'
          cases hov' : avgOver e'
          · exact .inr (.inr ⟨e', he', hov', fun i' hi => by simp only [PC.avg.injEq] at hi; exact hv hi.2.1.symm⟩)
          · exact .inl rfl
  | total i m =>
    obtain ⟨d, a, hu, hti, k, hk, hka⟩ := hc
    simp only at hu hti hk
    subst hu
    simp only [callStep, hk]
    by_cases hp : pastTotal k = true
    · rw [if_pos hp]
      by_cases hcr : k.pc = .crashed
      · rw [if_pos hcr]
        try dsimp only [callStep]
        exact h.next hT .rfl' h.ticks h.avg h.marks h.res hsame hsame hsame ⟨d, a, rfl, hti, k, hk, hka, hcr⟩ h.fed (owned_same rfl (by simp))
      · rw [if_neg hcr]
        try dsimp only [callStep]
        exact h.next hT ⟨.inl rfl, fun _ => .inl rfl, .inl rfl, .inr ⟨.spawn _, rfl⟩⟩ h.ticks h.avg h.marks (h.res.spawn _) hsame hsame
          (.inr ⟨rfl, rfl, spawn_length _⟩) ⟨d, a, rfl, hti, ⟨k, hk, hka⟩, At.new _ (hT.arg_update _)⟩ h.fed (owned_same rfl (by simp))
    · rw [if_neg hp]
      try dsimp only [callStep]
      exact h.next hT ⟨.inl rfl, fun _ => .inl rfl, .inr ⟨.step m x.time, rfl⟩, .inl rfl⟩ h.ticks h.avg (h.marks.step m trivial) h.res hsame
        (.inl ⟨rfl, Machine.apply_length _ _⟩) hsame ⟨d, a, rfl, hti,
          Machine.At.apply (M := CompassConc.marking) ⟨k, hk, hka⟩ (fun s x c hh => by rw [markArg_step]; exact hh) _⟩ h.fed (owned_same rfl (by simp))
  | res i m r =>
    obtain ⟨d, a, hu, hti, hm, q, hq, hqa⟩ := hc
    simp only at hu hti hm hq
    subst hu
    simp only [callStep, hq]
    cases hov : T.over q with
    | none =>
      try dsimp only [callStep]
      exact h.next hT ⟨.inl rfl, fun _ => .inl rfl, .inl rfl, .inr ⟨.step r x.res, rfl⟩⟩ h.ticks h.avg h.marks (h.res.step r hr) hsame hsame
        (.inl ⟨rfl, Machine.apply_length _ _⟩) ⟨d, a, rfl, hti, hm,
          Machine.At.apply (M := T.machine) ⟨q, hq, hqa⟩ (fun s x c hh => by rw [hT.arg_step]; exact hh) _⟩ h.fed (owned_same rfl (by simp))
    | some b =>
      cases b
      · try dsimp only [callStep]
        exact h.next hT .rfl' h.ticks h.avg h.marks h.res hsame hsame hsame ⟨d, a, rfl, hti, hm, q, hq, hqa, hov⟩ h.fed (owned_same rfl (by simp))
      · try dsimp only [callStep]
        exact h.next hT .rfl' h.ticks h.avg h.marks h.res hsame hsame hsame ⟨d, a, rfl, hti, hm, q, hq, hqa, hov⟩ h.fed (owned_same rfl (by simp))
  | rest i m r =>
    obtain ⟨d, a, hu, hti, ⟨k, hk, hka⟩, hq⟩ := hc
    simp only at hu hti hk hq
    subst hu
    simp only [callStep, hk]
    by_cases hp : markOver k = true
    · rw [if_pos hp]
      try dsimp only [callStep]
      exact h.next hT .rfl' h.ticks h.avg h.marks h.res hsame hsame hsame ⟨d, a, rfl, hti, ⟨k, hk, hka, hp⟩, hq⟩ h.fed (owned_same rfl (by simp))
    · rw [if_neg hp]
      try dsimp only [callStep]
      exact h.next hT ⟨.inl rfl, fun _ => .inl rfl, .inr ⟨.step m x.time, rfl⟩, .inl rfl⟩ h.ticks h.avg (h.marks.step m trivial) h.res hsame
        (.inl ⟨rfl, Machine.apply_length _ _⟩) hsame ⟨d, a, rfl, hti,
          Machine.At.apply (M := CompassConc.marking) ⟨k, hk, hka⟩ (fun s x c hh => by rw [markArg_step]; exact hh) _, hq⟩ h.fed
        (owned_same rfl (by simp))
  | rate i =>
    obtain ⟨⟨w, hu⟩, hti⟩ := hc
    simp only at hu
    subst hu
    try dsimp only [callStep]
    exact h.next hT .rfl' h.ticks h.avg h.marks h.res hsame hsame hsame ⟨⟨w, rfl⟩, hti⟩ h.fed (owned_same rfl (by simp))
  | snap r =>
    obtain ⟨hu, q, hq, hqa⟩ := hc
    simp only at hu hq
    subst hu
    simp only [callStep, hq]
    by_cases hov : (T.over q).isSome = true
    · rw [if_pos hov]
      try dsimp only [callStep]
      exact h.next hT .rfl' h.ticks h.avg h.marks h.res hsame hsame hsame ⟨rfl, q, hq, hqa, hov⟩ h.fed (owned_same rfl (by simp))
    · rw [if_neg hov]
      try dsimp only [callStep]
      exact h.next hT ⟨.inl rfl, fun _ => .inl rfl, .inl rfl, .inr ⟨.step r x.res, rfl⟩⟩ h.ticks h.avg h.marks (h.res.step r hr) hsame hsame
        (.inl ⟨rfl, Machine.apply_length _ _⟩) ⟨rfl,
          Machine.At.apply (M := T.machine) ⟨q, hq, hqa⟩ (fun s x c hh => by rw [hT.arg_step]; exact hh) _⟩ h.fed (owned_same rfl (by simp))
  | done i m r => exact h
  | resPanicked i m r => exact h
  | crashed i m => exact h
  | got i v => exact h
  | snapped r => exact h

/-- A list of calls, each of which has at most one call of a part: what the calls of the part are about is what the calls are about. -/
theorem perm_calls {α β : Type} (ix : α → Option Nat) (f : α → Option β) (g : C → Option β) (l : List α) (cs : List C)
    (hp : (l.filterMap ix).Perm (List.range cs.length))
    (h : ∀ c ∈ l, match ix c with
      | some m => ∃ k, cs[m]? = some k ∧ f c = g k
      | none => f c = none) : (cs.filterMap g).Perm (l.filterMap f) := by
  have h1 : ∀ l : List α, (∀ c ∈ l, match ix c with
      | some m => ∃ k, cs[m]? = some k ∧ f c = g k
      | none => f c = none) → l.filterMap f = (l.filterMap ix).filterMap (fun m => cs[m]?.bind g) := by
    intro l h
    induction l with
    | nil => rfl
    | cons c l ih =>
      have hc := h c (by simp)
      have ih := ih (fun d hd => h d (by simp [hd]))
      cases hi : ix c with
      | none =>
        rw [hi] at hc
        simp only [List.filterMap_cons, hi]
        rw [show f c = none from hc]; exact ih
      | some m =>
        rw [hi] at hc
        obtain ⟨k, k1, k2⟩ := hc
        simp only [List.filterMap_cons, hi, k1, k2, Option.bind_some]
        cases g k <;> simp [ih]
  have h2 : ∀ cs : List C, (List.range cs.length).filterMap (fun m => cs[m]?.bind g) = cs.filterMap g := by
    intro cs
    induction cs using List.reverseRecOn with
    | nil => rfl
    | append_singleton cs c ih =>
      simp only [List.length_append, List.length_cons, List.length_nil, Nat.zero_add, List.range_succ, List.filterMap_append]
      have e1 : (List.range cs.length).filterMap (fun m => (cs ++ [c])[m]?.bind g) = (List.range cs.length).filterMap (fun m => cs[m]?.bind g) := by
        apply List.filterMap_congr
        intro m hm
        rw [List.mem_range] at hm
        rw [List.getElem?_append_left hm]
      rw [e1, ih]
      simp [List.filterMap_cons]
  rw [h1 l h, ← h2 cs]
  exact (hp.symm.filterMap _)

theorem filterMap_sublist {α β : Type} (f h : α → Option β) (l : List α) (hf : ∀ c ∈ l, f c = none ∨ f c = h c) :
    (l.filterMap f).Sublist (l.filterMap h) := by
  induction l with
  | nil => exact List.Sublist.refl _
  | cons c l ih =>
    have ih := ih (fun d hd => hf d (by simp [hd]))
    rcases hf c (by simp) with hc | hc
    · rw [List.filterMap_cons_none hc]
      cases hh : h c with
      | none => rw [List.filterMap_cons_none hh]; exact ih
      | some b => rw [List.filterMap_cons_some hh]; exact ih.cons _
    · cases hh : h c with
      | none => rw [List.filterMap_cons_none hh, List.filterMap_cons_none (hc.trans hh)]; exact ih
      | some b => rw [List.filterMap_cons_some hh, List.filterMap_cons_some (hc.trans hh)]; exact ih.cons_cons _

theorem perm_bind {α β : Type} (ix : α → Option Nat) (g : C → Option β) (l : List α) (cs : List C)
    (hp : (l.filterMap ix).Perm (List.range cs.length)) :
    (cs.filterMap g).Perm (l.filterMap fun c => (ix c).bind fun m => cs[m]?.bind g) := by
  refine perm_calls ix _ g l cs hp ?_
  intro c hc
  cases hi : ix c with
  | none => rfl
  | some m =>
    have : m ∈ l.filterMap ix := List.mem_filterMap.2 ⟨c, hc, hi⟩
    have hm := List.mem_range.1 (hp.mem_iff.1 this)
    exact ⟨cs[m], List.getElem?_eq_getElem hm, by simp [hm]⟩

/-- What the calls have got done in a part is there. -/
theorem sub_calls {α β : Type} (ix : α → Option Nat) (f : α → Option β) (g : C → Option β) (l : List α) (cs : List C)
    (hp : (l.filterMap ix).Perm (List.range cs.length))
    (h : ∀ c ∈ l, ∀ b, f c = some b → ∃ m k, ix c = some m ∧ cs[m]? = some k ∧ g k = some b) :
    (l.filterMap f).Subperm (cs.filterMap g) := by
  refine List.Subperm.trans (List.Sublist.subperm (filterMap_sublist f _ l ?_)) (perm_bind ix g l cs hp).symm.subperm
  intro c hc
  cases hf : f c with
  | none => exact .inl rfl
  | some b =>
    obtain ⟨m, k, h1, h2, h3⟩ := h c hc b hf
    exact .inr (by simp [h1, h2, h3])

/-- What is in a part has come from the calls. -/
theorem sup_calls {α β : Type} (ix : α → Option Nat) (f : α → Option β) (g : C → Option β) (l : List α) (cs : List C)
    (hp : (l.filterMap ix).Perm (List.range cs.length))
    (h : ∀ c ∈ l, ∀ m k, ix c = some m → cs[m]? = some k → g k = none ∨ g k = f c) :
    (cs.filterMap g).Subperm (l.filterMap f) := by
  refine List.Subperm.trans (perm_bind ix g l cs hp).subperm (List.Sublist.subperm (filterMap_sublist _ f l ?_))
  intro c hc
  cases hi : ix c with
  | none => exact .inl rfl
  | some m =>
    cases hk : cs[m]? with
    | none => exact .inl (by simp [hk])
    | some k => rcases h c hc m k hi hk with h | h <;> simp [hk, h]

theorem inv_all {R : Rounding} {T : Stepped S C A I} {arg : C → Option Int} (hT : T.Ok arg) {bi : Int} {Qt : Int → Prop} {Qr : I → Prop}
    (s0 : S) (n : Nat) (maxErr maxAdd now t1 t2 : Int) (es : List (Ev Use (In I)))
    (hes : ∀ i x, Ev.step i x ∈ es → Qt x.tick ∧ Qr x.res) :
    Inv R T arg bi Qt Qr (init s0 bi n maxErr maxAdd now t1 t2) ((machine R T bi).run (init s0 bi n maxErr maxAdd now t1 t2) es) := by
  refine (machine R T bi).inv_runE (fun _ p => Inv R T arg bi Qt Qr (init s0 bi n maxErr maxAdd now t1 t2) p)
    (fun e => ∀ i x, e = .step i x → Qt x.tick ∧ Qr x.res) (fun _ _ h => h) ?_ ?_ _ 0 ?_ es (fun e he i x hx => hes i x (hx ▸ he))
  · intro _ s cs a _ h
    refine ⟨h.ticks, h.avg, h.marks, h.res, ?_, ?_, ?_, ?_, h.fed, ?_⟩
    · have hn : [(machine R T bi).call a].filterMap Call.tickIx = [] := rfl
      simp only [List.filterMap_append, hn, List.append_nil]
      exact h.tickIx
    · have hn : [(machine R T bi).call a].filterMap Call.markIx = [] := rfl
      simp only [List.filterMap_append, hn, List.append_nil]
      exact h.markIx
    · have hn : [(machine R T bi).call a].filterMap Call.resIx = [] := rfl
      simp only [List.filterMap_append, hn, List.append_nil]
      exact h.resIx
    · intro c hc
      rcases List.mem_append.1 hc with hc | hc
      · exact h.here c hc
      · rw [List.mem_singleton.1 hc]; trivial
    · intro w j e he
      rcases h.owned w j e he with h' | ⟨c, hc, hi⟩
      · exact .inl h'
      · exact .inr ⟨c, by simp [hc], hi⟩
  · intro _ s pre c post x i hq h
    exact inv_step hT x (hq i x rfl).1 (hq i x rfl).2 h
  · refine ⟨.refl, fun _ => .refl, .refl, .refl, by simp [init, Machine.start], by simp [init, Machine.start], by simp [init, Machine.start],
      by simp [init, Machine.start], ?_, by simp [init, Machine.start]⟩
    intro w
    cases w <;> simp [init, Machine.start, fedOf]

end Whole
end GoMetrics
