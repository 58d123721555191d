import Verif.Proofs.WholeWild
import Verif.Proofs.TickWild
import Verif.Props.CompassWild
import Verif.Props.WholeCompass
import Verif.Props.WholeCompassRes
/-! # C110 — a whole compass whatever unsynchronised loads return -/
namespace GoMetrics
namespace WholeWild
open Whole
open CompassConc (MarkArg Mark Marks TickSeen)
open BucketCounter (Seen)

variable {S C A I : Type}

/-- A compass after the schedule `es` of calls, whose plain loads return what the schedule says. -/
def wildlyUsed (R : Rounding) (T : Stepped S C A I) (s0 : S) (bi : Int) (n : Nat) (maxErr maxAdd now t1 t2 : Int)
    (es : List (Ev Use (InBy TickSeen Seen I))) : Pool (Parts S C) Call := (wildMachine R T bi).run (init s0 bi n maxErr maxAdd now t1 t2) es

/-- The calls of the counter part are those of the updates that have got there. -/
theorem marks_perm {R : Rounding} {T : Stepped S C A I} {arg : C → Option Int} {bi : Int} {Qt : TickSeen → Prop} {Qr : I → Prop}
    {p0 p : Pool (Parts S C) Call} (h : Inv R T arg bi Qt Qr p0 p) (hq : ∀ c ∈ p.calls, c.over = true) :
    (p.shared.marks.calls.map Mark.arg).Perm ((recorded p).map Prod.snd) := by
  have := perm_calls Call.markIx (fun c => c.recorded?.map Prod.snd) (fun k => some (Mark.arg k)) p.calls p.shared.marks.calls h.markIx ?_
  · rw [← List.filterMap_eq_map]
    refine this.trans ?_
    rw [recorded, List.map_filterMap]
  · intro c hc
    have hh := h.here c hc
    have ho := hq c hc
    obtain ⟨use, pc⟩ := c
    cases pc <;> simp only [Call.over] at ho <;> try cases ho
    · obtain ⟨d, a, hu, -, ⟨k, k1, k2, -⟩, -⟩ := hh
      simp only at hu
      subst hu
      exact ⟨k, k1, by simp [Call.recorded?, k2]⟩
    · obtain ⟨⟨w, hu⟩, -⟩ := hh
      simp only at hu
      subst hu; rfl
    · obtain ⟨hu, -⟩ := hh
      simp only at hu
      subst hu; rfl

/-- The calls of the reservoir are the updates and snapshots that have got there. -/
theorem res_perm {R : Rounding} {T : Stepped S C A I} {arg : C → Option Int} {bi : Int} {Qt : TickSeen → Prop} {Qr : I → Prop}
    {p0 p : Pool (Parts S C) Call} (h : Inv R T arg bi Qt Qr p0 p) (hq : ∀ c ∈ p.calls, c.over = true) :
    (p.shared.res.calls.filterMap arg).Perm ((recorded p).map Prod.fst) := by
  have := perm_calls Call.resIx (fun c => c.recorded?.map Prod.fst) arg p.calls p.shared.res.calls h.resIx ?_
  · refine this.trans ?_
    rw [recorded, List.map_filterMap]
  · intro c hc
    have hh := h.here c hc
    have ho := hq c hc
    obtain ⟨use, pc⟩ := c
    cases pc <;> simp only [Call.over] at ho <;> try cases ho
    · obtain ⟨d, a, hu, -, -, k, k1, k2, -⟩ := hh
      simp only at hu
      subst hu
      exact ⟨k, k1, by simp [Call.recorded?, k2]⟩
    · obtain ⟨⟨w, hu⟩, -⟩ := hh
      simp only at hu
      subst hu; rfl
    · obtain ⟨hu, k, k1, k2, -⟩ := hh
      simp only at hu
      subst hu; exact ⟨k, k1, by simp [Call.recorded?, k2]⟩

theorem ticks_done {R : Rounding} {T : Stepped S C A I} {arg : C → Option Int} {bi : Int} {Qt : TickSeen → Prop} {Qr : I → Prop}
    {p0 p : Pool (Parts S C) Call} (h : Inv R T arg bi Qt Qr p0 p) (hq : ∀ c ∈ p.calls, c.over = true) :
    (∀ t ∈ p.shared.ticks.calls, ∃ upd, t = .done upd) ∧ p.shared.ticks.calls.count (.done true) = (recorded p).length := by
  have hd : ∀ t ∈ p.shared.ticks.calls, ∃ upd, t = .done upd := by
    intro t ht
    obtain ⟨i, hi, ht⟩ := List.getElem_of_mem ht
    obtain ⟨c, hc, hi'⟩ := owner h.tickIx hi
    have hh := h.here c hc
    have ho := hq c hc
    have key : Machine.At p.shared.ticks i (fun t => tickOver t = true) → ∃ upd, t = .done upd := by
      rintro ⟨t', g1, g2⟩
      rw [List.getElem?_eq_getElem hi, ht] at g1
      obtain rfl := Option.some.inj g1
      exact ⟨_, tickOver_eq g2⟩
    obtain ⟨use, pc⟩ := c
    cases pc <;> simp only [Call.over] at ho <;> (try cases ho) <;> simp only [Call.tickIx, Option.some.injEq, reduceCtorEq] at hi'
    · obtain ⟨d, a, hu, g, -⟩ := hh
      subst hi'
      exact key (g.mono fun _ hg => hg.1)
    · obtain ⟨-, g⟩ := hh
      subst hi'
      exact key (g.mono fun _ hg => hg.1)
  refine ⟨hd, ?_⟩
  have := perm_calls Call.tickIx (fun c => if c.use.records then some () else none) (fun t => if updOf t then some () else none)
    p.calls p.shared.ticks.calls h.tickIx ?_
  · have hl := this.length_eq
    have e1 : ∀ l : List CompassConc.PC, (∀ t ∈ l, ∃ upd, t = .done upd) →
        (l.filterMap (fun t => if updOf t then some () else none)).length = l.count (.done true) := by
      intro l hl
      induction l with
      | nil => rfl
      | cons t l ih =>
        obtain ⟨upd, rfl⟩ := hl t (by simp)
        have ih := ih (fun t ht => hl t (by simp [ht]))
        have u : ∀ b, updOf (.done b) = b := fun _ => rfl
        cases upd <;> simp [u, ih]
    have e2 : ∀ l : List Call, (l.filterMap (fun c => if c.use.records then some () else none)).length = (l.filterMap Call.recorded?).length := by
      intro l
      induction l with
      | nil => rfl
      | cons c l ih =>
        obtain ⟨use, pc⟩ := c
        have u1 : ∀ d a, (Use.update d a).records = true := fun _ _ => rfl
        have u2 : ∀ w, (Use.rate w).records = false := fun _ => rfl
        have u3 : Use.snapshot.records = false := rfl
        have v1 : ∀ d a, Call.recorded? ⟨.update d a, pc⟩ = some (d, a) := fun _ _ => rfl
        have v2 : ∀ w, Call.recorded? ⟨.rate w, pc⟩ = none := fun _ => rfl
        have v3 : Call.recorded? ⟨.snapshot, pc⟩ = none := rfl
        cases use <;> simp [u1, u2, u3, v1, v2, v3, ih]
    rw [e1 _ hd, e2] at hl
    exact hl
  · intro c hc
    have hh := h.here c hc
    have ho := hq c hc
    obtain ⟨use, pc⟩ := c
    cases pc <;> simp only [Call.over] at ho <;> try cases ho
    · obtain ⟨d, a, hu, ⟨k, k1, -, k2⟩, -⟩ := hh
      simp only at hu
      subst hu
      exact ⟨k, k1, by simp [Use.records, k2]⟩
    · obtain ⟨⟨w, hu⟩, ⟨k, k1, -, k2⟩⟩ := hh
      simp only at hu
      subst hu
      exact ⟨k, k1, by simp [Use.records, k2]⟩
    · obtain ⟨hu, -⟩ := hh
      simp only at hu
      subst hu; rfl

theorem marks_done {R : Rounding} {T : Stepped S C A I} {arg : C → Option Int} {bi : Int} {Qt : TickSeen → Prop} {Qr : I → Prop}
    {p0 p : Pool (Parts S C) Call} (h : Inv R T arg bi Qt Qr p0 p) (hq : ∀ c ∈ p.calls, c.over = true) :
    ∀ k ∈ p.shared.marks.calls, markOver k = true := by
  intro k hk
  obtain ⟨i, hi, hk⟩ := List.getElem_of_mem hk
  obtain ⟨c, hc, hi'⟩ := owner h.markIx hi
  have hh := h.here c hc
  have ho := hq c hc
  obtain ⟨use, pc⟩ := c
  cases pc <;> simp only [Call.over] at ho <;> (try cases ho) <;> simp only [Call.markIx, Option.some.injEq, reduceCtorEq] at hi'
  obtain ⟨d, a, hu, -, ⟨k', g1, -, g2⟩, -⟩ := hh
  subst hi'
  rw [List.getElem?_eq_getElem hi, hk] at g1
  obtain rfl := Option.some.inj g1
  exact g2

theorem res_done {R : Rounding} {T : Stepped S C A I} {arg : C → Option Int} {bi : Int} {Qt : TickSeen → Prop} {Qr : I → Prop}
    {p0 p : Pool (Parts S C) Call} (h : Inv R T arg bi Qt Qr p0 p) (hq : ∀ c ∈ p.calls, c.over = true) :
    ∀ k ∈ p.shared.res.calls, (T.over k).isSome = true := by
  intro k hk
  obtain ⟨i, hi, hk⟩ := List.getElem_of_mem hk
  obtain ⟨c, hc, hi'⟩ := owner h.resIx hi
  have hh := h.here c hc
  have ho := hq c hc
  obtain ⟨use, pc⟩ := c
  cases pc <;> simp only [Call.over] at ho <;> (try cases ho) <;> simp only [Call.resIx, Option.some.injEq, reduceCtorEq] at hi'
  · obtain ⟨d, a, hu, -, -, k', g1, -, g2⟩ := hh
    subst hi'
    rw [List.getElem?_eq_getElem hi, hk] at g1
    obtain rfl := Option.some.inj g1
    rw [g2]; rfl
  · obtain ⟨hu, k', g1, -, g2⟩ := hh
    subst hi'
    rw [List.getElem?_eq_getElem hi, hk] at g1
    obtain rfl := Option.some.inj g1
    exact g2

theorem avg_done {R : Rounding} {T : Stepped S C A I} {arg : C → Option Int} {bi : Int} {Qt : TickSeen → Prop} {Qr : I → Prop}
    {p0 p : Pool (Parts S C) Call} (h : Inv R T arg bi Qt Qr p0 p) (hq : ∀ c ∈ p.calls, c.over = true) (w : Which) :
    (∀ e ∈ (p.shared.avg w).calls, e.crit = false) ∧ (p.shared.avg w).calls.filterMap EWMA.PC.folded = fedOf p.shared.ticks.shared w := by
  have hov : ∀ e ∈ (p.shared.avg w).calls, avgOver e = true := by
    intro e he
    obtain ⟨j, hj, he⟩ := List.getElem_of_mem he
    rcases h.owned w j e (by rw [List.getElem?_eq_getElem hj, he]) with g | ⟨c, hc, i, hi⟩
    · exact g
    · have := hq c hc
      rw [Call.over, hi] at this
      cases this
  refine ⟨fun e he => ?_, ?_⟩
  · have := hov e he
    cases e <;> simp [avgOver] at this
    rfl
  · have hf := h.fed w
    have : ∀ (cs : List EWMA.PC) (l : List Int), (∀ e ∈ cs, avgOver e = true) → cs.map countOf = l.map some → cs.filterMap EWMA.PC.folded = l := by
      intro cs
      induction cs with
      | nil => intro l _ hl; cases l with
        | nil => rfl
        | cons a l => simp at hl
      | cons e cs ih =>
        intro l ho hl
        cases l with
        | nil => simp at hl
        | cons a l =>
          simp only [List.map_cons, List.cons.injEq] at hl
          have h1 := ho e (by simp)
          have h2 := ih l (fun e he => ho e (by simp [he])) hl.2
          cases e <;> simp [avgOver] at h1
          rename_i own c
          cases own <;> simp [countOf] at hl
          simp [EWMA.PC.folded, h2, hl.1]
    exact this _ _ hov hf

/-- What the updates that are over have recorded. -/
theorem finished_marks {R : Rounding} {T : Stepped S C A I} {arg : C → Option Int} {bi : Int} {Qt : TickSeen → Prop} {Qr : I → Prop}
    {p0 p : Pool (Parts S C) Call} (h : Inv R T arg bi Qt Qr p0 p) (hal : ∀ k ∈ p.shared.marks.calls, k.pc ≠ .crashed) :
    ((finished p).map Prod.snd).Subperm ((p.shared.marks.calls.filter Mark.finished).map Mark.arg) := by
  have := sub_calls Call.markIx (fun c => if c.over then c.recorded?.map Prod.snd else none)
    (fun k => if k.finished then some (Mark.arg k) else none) p.calls p.shared.marks.calls h.markIx ?_
  · have e1 : (finished p).map Prod.snd = p.calls.filterMap (fun c => if c.over then c.recorded?.map Prod.snd else none) := by
      unfold finished
      rw [List.map_filterMap, List.filterMap_filter]
    have e2 : (p.shared.marks.calls.filter Mark.finished).map Mark.arg =
        p.shared.marks.calls.filterMap (fun k => if k.finished then some (Mark.arg k) else none) := by
      rw [← List.filterMap_eq_map, List.filterMap_filter]; rfl
    rw [e1, e2]; exact this
  · intro c hc b hb
    have hh := h.here c hc
    obtain ⟨use, pc⟩ := c
    cases pc <;> simp only [Call.over, if_true, Bool.false_eq_true, if_false, reduceCtorEq] at hb
    · obtain ⟨d, a, hu, -, ⟨k, k1, k2, k3⟩, -⟩ := hh
      simp only at hu
      subst hu
      simp only [Call.recorded?, Option.map_some, Option.some.injEq] at hb
      refine ⟨_, k, rfl, k1, ?_⟩
      have hk := hal k (List.mem_of_getElem? k1)
      have hf : k.finished = true := by
        obtain ⟨a', pc'⟩ := k
        cases pc' <;> simp [markOver] at k3 <;> first | rfl | exact absurd rfl hk
      rw [hf, if_pos rfl, k2, hb]
    · obtain ⟨⟨w, hu⟩, -⟩ := hh
      simp only at hu
      subst hu; simp [Call.recorded?] at hb
    · obtain ⟨hu, -⟩ := hh
      simp only at hu
      subst hu; simp [Call.recorded?] at hb

theorem started_marks {R : Rounding} {T : Stepped S C A I} {arg : C → Option Int} {bi : Int} {Qt : TickSeen → Prop} {Qr : I → Prop}
    {p0 p : Pool (Parts S C) Call} (h : Inv R T arg bi Qt Qr p0 p) :
    (p.shared.marks.calls.map Mark.arg).Subperm ((recorded p).map Prod.snd) := by
  have := sup_calls Call.markIx (fun c => c.recorded?.map Prod.snd) (fun k => some (Mark.arg k)) p.calls p.shared.marks.calls h.markIx ?_
  · rw [← List.filterMap_eq_map]
    rw [recorded, List.map_filterMap]
    exact this
  · intro c hc m k hm hk
    have hh := h.here c hc
    refine .inr ?_
    have key : ∀ a d, c.use = .update d a → (Machine.At p.shared.marks m fun k => k.arg = a) → some k.arg = c.recorded?.map Prod.snd := by
      rintro a d hu ⟨k', g1, g2⟩
      rw [hk] at g1
      obtain rfl := Option.some.inj g1
      simp [Call.recorded?, hu, g2]
    obtain ⟨use, pc⟩ := c
    cases pc <;> simp only [Call.markIx, Option.some.injEq, reduceCtorEq] at hm
    · subst hm; obtain ⟨d, a, hu, -, g⟩ := hh; exact key a d hu g
    · subst hm; obtain ⟨d, a, hu, -, g, -⟩ := hh; exact key a d hu g
    · subst hm; obtain ⟨d, a, hu, -, g, -⟩ := hh; exact key a d hu g
    · subst hm; obtain ⟨d, a, hu, -, g, -⟩ := hh; exact key a d hu (g.mono fun _ hg => hg.1)
    · subst hm; obtain ⟨d, a, hu, -, g, -⟩ := hh; exact key a d hu g
    · subst hm; obtain ⟨d, a, hu, -, g⟩ := hh; exact key a d hu (g.mono fun _ hg => hg.1)

theorem finished_ticks {R : Rounding} {T : Stepped S C A I} {arg : C → Option Int} {bi : Int} {Qt : TickSeen → Prop} {Qr : I → Prop}
    {p0 p : Pool (Parts S C) Call} (h : Inv R T arg bi Qt Qr p0 p) :
    (finished p).length ≤ p.shared.ticks.calls.count (.done true) ∧ p.shared.ticks.calls.count (.done true) ≤ (recorded p).length := by
  have e2 : ∀ l : List CompassConc.PC, l.count (.done true) = (l.filterMap fun t => if t = .done true then some () else none).length := by
    intro l
    induction l with
    | nil => rfl
    | cons t l ih =>
      by_cases ht : t = .done true
      · subst ht; simp [ih]
      · simp [ht, ih]
  constructor
  · have := sub_calls Call.tickIx (fun c => if c.over then c.recorded?.map (fun _ => ()) else none)
      (fun t => if t = .done true then some () else none) p.calls p.shared.ticks.calls h.tickIx ?_
    · have hl := this.length_le
      rw [← e2] at hl
      have e3 : (finished p).length = (p.calls.filterMap (fun c => if c.over then c.recorded?.map (fun _ => ()) else none)).length := by
        rw [show (finished p).length = ((finished p).map (fun _ => ())).length from (List.length_map _).symm]
        unfold finished
        rw [List.map_filterMap, List.filterMap_filter]
      rw [e3]; exact hl
    · intro c hc b hb
      have hh := h.here c hc
      obtain ⟨use, pc⟩ := c
      cases pc <;> simp only [Call.over, if_true, Bool.false_eq_true, if_false, reduceCtorEq] at hb
      · obtain ⟨d, a, hu, ⟨t, t1, t2, t3⟩, -⟩ := hh
        refine ⟨_, t, rfl, t1, ?_⟩
        have := tickOver_eq t2
        rw [t3] at this
        rw [if_pos this]
      · obtain ⟨⟨w, hu⟩, -⟩ := hh
        simp only at hu
        subst hu; simp [Call.recorded?] at hb
      · obtain ⟨hu, -⟩ := hh
        simp only at hu
        subst hu; simp [Call.recorded?] at hb
  · have := sup_calls Call.tickIx (fun c => c.recorded?.map (fun _ => ()))
      (fun t => if t = .done true then some () else none) p.calls p.shared.ticks.calls h.tickIx ?_
    · have hl := this.length_le
      rw [← e2] at hl
      have e3 : (recorded p).length = (p.calls.filterMap (fun c => c.recorded?.map (fun _ => ()))).length := by
        rw [show (recorded p).length = ((recorded p).map (fun _ => ())).length from (List.length_map _).symm]
        unfold recorded
        rw [List.map_filterMap]
      rw [e3]; exact hl
    · intro c hc m t hm ht
      have hh := h.here c hc
      by_cases hd : t = .done true
      · refine .inr ?_
        rw [if_pos hd]
        have key : ∀ {b}, (Machine.At p.shared.ticks m fun t => updOf t = b) → b = true := by
          rintro b ⟨t', g1, g2⟩
          rw [ht] at g1
          obtain rfl := Option.some.inj g1
          rw [← g2, hd]; rfl
        have hrec : c.use.records = true → some () = c.recorded?.map (fun _ => ()) := by
          intro hr
          obtain ⟨use, pc⟩ := c
          cases use <;> first | rfl | cases hr
        obtain ⟨use, pc⟩ := c
        cases pc <;> simp only [Call.tickIx, Option.some.injEq, reduceCtorEq] at hm
        · subst hm; exact hrec (key hh.2)
        · subst hm; exact hrec (key hh.2.1)
        · obtain ⟨d, a, hu, -⟩ := hh; simp only at hu; subst hu; exact hrec rfl
        · obtain ⟨d, a, hu, -⟩ := hh; simp only at hu; subst hu; exact hrec rfl
        · obtain ⟨d, a, hu, -⟩ := hh; simp only at hu; subst hu; exact hrec rfl
        · subst hm; exact absurd (key (hh.2.mono fun _ hg => hg.2)) (by simp)
        · obtain ⟨d, a, hu, -⟩ := hh; simp only at hu; subst hu; exact hrec rfl
        · obtain ⟨d, a, hu, -⟩ := hh; simp only at hu; subst hu; exact hrec rfl
        · obtain ⟨d, a, hu, -⟩ := hh; simp only at hu; subst hu; exact hrec rfl
        · subst hm; exact absurd (key (hh.2.mono fun _ hg => hg.2)) (by simp)
      · exact .inl (if_neg hd)


/-- **C110.** At every moment, for every schedule: the total count is the number of some of the calls that record, at least those that are over; the
success count and the count of an error code likewise among the calls with `isSuccess` and those with that code; and what the averages have
been fed and what is pending add up to a number of calls between the same bounds. -/
theorem _root_.GoMetrics.C110_whole_anytime {S C A I : Type} (R : Rounding) (T : Stepped S C A I) (arg : C → Option Int) (hT : T.Ok arg) (s0 : S) (bi : Int)
    (hbi : 1000000000 ≤ bi) (n : Nat) (maxErr maxAdd now t1 t2 : Int) (es : List (Ev Use (InBy TickSeen Seen I))) :
    let p := wildlyUsed R T s0 bi n maxErr maxAdd now t1 t2 es
    let m := p.shared.marks.shared
    (∃ j : Nat, m.total.getCount = i64 j ∧ (finished p).length ≤ j ∧ j ≤ (recorded p).length) ∧
    (∃ j : Nat, m.success.getCount = i64 j ∧ (finished p).countP (fun e => e.2.isSuccess) ≤ j ∧ j ≤ (recorded p).countP (fun e => e.2.isSuccess)) ∧
    (∀ code b, (m.lab false).counters.get? code = some b → ∃ j : Nat, b.getCount = i64 j ∧
      (finished p).countP (fun e => e.2.errorCode = code) ≤ j ∧ j ≤ (recorded p).countP (fun e => e.2.errorCode = code)) ∧
    (∀ addon b, (m.lab true).counters.get? addon = some b → ∃ j : Nat, b.getCount = i64 j ∧ j ≤ (recorded p).countP (fun e => e.2.addon = addon)) ∧
    (∃ j : Nat, i64 (p.shared.ticks.shared.taken.sum + p.shared.ticks.shared.uncounted) = i64 j ∧
      (finished p).length ≤ j ∧ j ≤ (recorded p).length) := by
  intro p m
  have h : Inv R T arg bi (fun _ => True) (fun _ => True) (init s0 bi n maxErr maxAdd now t1 t2) p :=
    inv_all hT s0 n maxErr maxAdd now t1 t2 es (fun _ _ _ => ⟨trivial, trivial⟩)
  obtain ⟨es1, he1, -⟩ := h.marks
  have hm : p.shared.marks = CompassWild.wildMarked bi n maxErr maxAdd t1 t2 es1 := he1
  have hal : ∀ k ∈ p.shared.marks.calls, k.pc ≠ .crashed := by
    have g2 := CompassWild.alive_run bi hbi n maxErr maxAdd t1 t2 es1
    change ∀ m ∈ (CompassWild.wildMarked bi n maxErr maxAdd t1 t2 es1).calls, m.pc.alive at g2
    rw [← hm] at g2
    intro k hk e
    have := g2 k hk
    rw [e] at this; exact this
  have hc := C110_counts bi hbi n maxErr maxAdd t1 t2 es1
  rw [← hm] at hc
  obtain ⟨⟨j1, a1, a2, a3⟩, ⟨j2, b1, b2, b3⟩, c, d⟩ := hc
  have hlo : ∀ f : MarkArg → Bool, (finished p).countP (fun e => f e.2) ≤ p.shared.marks.calls.countP (fun k => k.finished && f k.arg) := by
    intro f
    have := (finished_marks h hal).countP_le f
    rw [List.countP_map, List.countP_map, List.countP_filter] at this
    refine le_trans this (le_of_eq ?_)
    apply List.countP_congr
    intro k _
    simp [and_comm]
  have hhi : ∀ f : MarkArg → Bool, p.shared.marks.calls.countP (fun k => f k.arg) ≤ (recorded p).countP (fun e => f e.2) := by
    intro f
    have := (started_marks h).countP_le f
    rw [List.countP_map, List.countP_map] at this
    exact this
  refine ⟨⟨j1, a1, le_trans ?_ a2, le_trans a3 ?_⟩, ⟨j2, b1, le_trans (hlo (fun a => a.isSuccess)) b2, le_trans b3 (hhi (fun a => a.isSuccess))⟩, ?_, ?_, ?_⟩
  · have := (finished_marks h hal).length_le
    rw [List.length_map, List.length_map, ← List.countP_eq_length_filter] at this
    exact this
  · have := (started_marks h).length_le
    rw [List.length_map, List.length_map] at this
    exact this
  · intro code b hb
    obtain ⟨j, g1, g2, g3⟩ := c code b hb
    exact ⟨j, g1, le_trans (hlo (fun a => decide (a.errorCode = code))) g2, le_trans g3 (hhi (fun a => decide (a.errorCode = code)))⟩
  · intro addon b hb
    obtain ⟨j, g1, -, g3⟩ := d addon b hb
    refine ⟨j, g1, le_trans g3 (le_trans ?_ (hhi (fun a => decide (a.addon = addon))))⟩
    apply List.countP_mono_left
    intro k _ hk
    simp only [decide_eq_true_eq] at hk ⊢
    exact hk.1
  · obtain ⟨es2, he2, -⟩ := h.ticks
    have hx := (CompassConc.wild_inv_all bi now es2).conservation
    rw [show (CompassConc.wildConc bi).run (Machine.start { lastTick := now, uncounted := 0 }) es2 = p.shared.ticks from he2.symm] at hx
    have ht := finished_ticks h
    refine ⟨p.shared.ticks.calls.count (.done true), ?_, ht.1, ht.2⟩
    rw [hx]; unfold i64; omega

/-- **C110.** When every call is over: the total count is the number of recorded events, the success count the number of those with `isSuccess`;
every error code and addon that has a counter is counted exactly as often as it was recorded (an addon: with a call that did not panic for its
error code); and each of the three averages is what ticking it with some list of counts, one after the other, gives, where the same counts went
into all three, and together with the events still pending they sum up to the number of recorded events. -/
theorem _root_.GoMetrics.C110_whole {S C A I : Type} (R : Rounding) (T : Stepped S C A I) (arg : C → Option Int) (hT : T.Ok arg) (s0 : S) (bi : Int)
    (hbi : 1000000000 ≤ bi) (n : Nat) (maxErr maxAdd now t1 t2 : Int) (es : List (Ev Use (InBy TickSeen Seen I)))
    (hq : ∀ c ∈ (wildlyUsed R T s0 bi n maxErr maxAdd now t1 t2 es).calls, c.over = true) :
    let p := wildlyUsed R T s0 bi n maxErr maxAdd now t1 t2 es
    let m := p.shared.marks.shared
    m.total.getCount = i64 (recorded p).length ∧
    m.success.getCount = i64 ((recorded p).countP fun e => e.2.isSuccess) ∧
    (∀ code b, (m.lab false).counters.get? code = some b → b.getCount = i64 ((recorded p).countP fun e => e.2.errorCode = code)) ∧
    (∀ addon b, (m.lab true).counters.get? addon = some b → b.getCount = i64 ((recorded p).countP fun e =>
      e.2.addon = addon ∧ (e.2.errorCode = "" ∨ e.2.errorCode ∈ (m.lab false).counters.keys))) ∧
    ∃ counts : List Int, i64 (counts.sum + p.shared.ticks.shared.uncounted) = i64 (recorded p).length ∧
      ∀ w, ∃ order : List Int, order.Perm counts ∧
        (p.shared.avg w).shared.e.rate = (EWMA.run R EWMA.zeroValue (order.map EWMA.Op.tickN)).rate := by
  intro p m
  have h : Inv R T arg bi (fun _ => True) (fun _ => True) (init s0 bi n maxErr maxAdd now t1 t2) p :=
    inv_all hT s0 n maxErr maxAdd now t1 t2 es (fun _ _ _ => ⟨trivial, trivial⟩)
  change ∀ c ∈ p.calls, c.over = true at hq
  obtain ⟨es1, he1, -⟩ := h.marks
  have hm : p.shared.marks = CompassWild.wildMarked bi n maxErr maxAdd t1 t2 es1 := he1
  have hperm := marks_perm h hq
  have hover := marks_done h hq
  have hcr : ∀ k ∈ p.shared.marks.calls, k.finished = true := by
    intro k hk
    have g1 := hover k hk
    have g2 := CompassWild.alive_run bi hbi n maxErr maxAdd t1 t2 es1
    change ∀ m ∈ (CompassWild.wildMarked bi n maxErr maxAdd t1 t2 es1).calls, m.pc.alive at g2
    rw [← hm] at g2
    have g2 := g2 k hk
    obtain ⟨a, pc⟩ := k
    cases pc <;> simp [markOver] at g1 <;> first | rfl | exact absurd g2 id
  have hc := C110_quiescent bi hbi n maxErr maxAdd t1 t2 es1 (by rw [← hm]; exact hcr)
  rw [← hm] at hc
  obtain ⟨c1, c2, c3, c4⟩ := hc
  have hcount : ∀ f : MarkArg → Bool, p.shared.marks.calls.countP (fun k => f k.arg) = (recorded p).countP (fun e => f e.2) := by
    intro f
    have e1 : p.shared.marks.calls.countP (fun k => f k.arg) = (p.shared.marks.calls.map Mark.arg).countP f := by
      rw [List.countP_map]; rfl
    have e2 : (recorded p).countP (fun e => f e.2) = ((recorded p).map Prod.snd).countP f := by
      rw [List.countP_map]; rfl
    rw [e1, e2, hperm.countP_eq]
  refine ⟨?_, ?_, ?_, ?_, ?_⟩
  · rw [c1]
    have := hperm.length_eq
    simp only [List.length_map] at this
    rw [this]
  · rw [c2, hcount (fun a => a.isSuccess)]
  · intro code b hb
    rw [c3 code b hb, hcount (fun a => decide (a.errorCode = code))]
  · intro addon b hb
    rw [c4 addon b hb, hcount (fun a => decide (a.addon = addon ∧ (a.errorCode = "" ∨ a.errorCode ∈ (m.lab false).counters.keys)))]
  · obtain ⟨es2, he2, -⟩ := h.ticks
    have ht := ticks_done h hq
    have hdone : ∀ c ∈ ((CompassConc.wildConc bi).run (Machine.start { lastTick := now, uncounted := 0 }) es2).calls, ∃ upd, c = .done upd := by
      rw [show (CompassConc.wildConc bi).run (Machine.start { lastTick := now, uncounted := 0 }) es2 = p.shared.ticks from he2.symm]
      exact ht.1
    have hx := (CompassConc.wild_inv_all bi now es2).exactly_once hdone
    rw [show (CompassConc.wildConc bi).run (Machine.start { lastTick := now, uncounted := 0 }) es2 = p.shared.ticks from he2.symm] at hx
    obtain ⟨⟨x1, x5, x15⟩, y1, -, -⟩ := hx
    refine ⟨p.shared.ticks.shared.fed1, by rw [y1, ht.2], ?_⟩
    intro w
    obtain ⟨es3, he3, -⟩ := h.avg w
    have ha := avg_done h hq w
    have hs := C22_serialisable R EWMA.zeroValue es3
    have he3' : p.shared.avg w = (EWMA.conc R).run (Machine.start ⟨EWMA.zeroValue, false⟩) es3 := he3
    rw [← he3'] at hs
    obtain ⟨order, o1, o2, -⟩ := hs ha.1
    refine ⟨order, o1.trans ?_, o2⟩
    rw [ha.2]
    cases w
    · exact List.Perm.refl _
    · exact x5.trans x1.symm
    · exact x15.trans x1.symm

/-- **C110.** And the reservoir, when every call is over, is as its own calls leave it, one `UpdateN` for each recorded event, with its duration. -/
theorem _root_.GoMetrics.C110_reservoir {S C A I : Type} (R : Rounding) (T : Stepped S C A I) (arg : C → Option Int) (hT : T.Ok arg) (s0 : S) (bi : Int)
    (n : Nat) (maxErr maxAdd now t1 t2 : Int) (es : List (Ev Use (InBy TickSeen Seen I)))
    (hq : ∀ c ∈ (wildlyUsed R T s0 bi n maxErr maxAdd now t1 t2 es).calls, c.over = true) :
    let p := wildlyUsed R T s0 bi n maxErr maxAdd now t1 t2 es
    (∃ es', p.shared.res = T.machine.run (Machine.start s0) es' ∧ ∀ i x, Ev.step i x ∈ es' → ∃ j y, Ev.step j y ∈ es ∧ y.res = x) ∧
    (p.shared.res.calls.filterMap arg).Perm ((recorded p).map Prod.fst) ∧ ∀ q ∈ p.shared.res.calls, (T.over q).isSome = true := by
  intro p
  have h : Inv R T arg bi (fun _ => True) (fun x => ∃ j y, Ev.step j y ∈ es ∧ y.res = x) (init s0 bi n maxErr maxAdd now t1 t2) p :=
    inv_all hT s0 n maxErr maxAdd now t1 t2 es (fun i x hx => ⟨trivial, i, x, hx, rfl⟩)
  obtain ⟨es', e1, e2⟩ := h.res
  exact ⟨⟨es', e1, e2⟩, res_perm h hq, res_done h hq⟩

/-! ## The executions of C86 are among these -/

/-- The counters are all right. -/
structure FreshOk (n : Nat) (s : Marks) : Prop where
  total : BucketCounter.SharedOk n s.total
  success : BucketCounter.SharedOk n s.success
  lab : ∀ w k b, (s.lab w).counters.get? k = some b → BucketCounter.SharedOk n b

theorem sim_ok {I n t0 sel view b ms} (h : CompassConc.Sim I n t0 sel view b ms) : BucketCounter.SharedOk n b := by
  obtain ⟨es, rfl, -⟩ := h
  exact (BucketCounter.cinv_run n _ (BucketCounter.sharedOk_new I n t0 true) es).shared

theorem freshOk_run (I : Int) (n : Nat) (maxErr maxAdd t1 t2 : Int) (es : List (Ev MarkArg Int)) :
    FreshOk n (CompassConc.marking.run (Machine.start (Marks.new I n maxErr maxAdd t1 t2)) es).shared := by
  have h := CompassConc.minv_run I n maxErr maxAdd t1 t2 es
  refine ⟨sim_ok h.total, sim_ok h.success, fun w k b hb => ?_⟩
  obtain ⟨t0, g⟩ := (h.lab w).sim k b hb
  exact sim_ok g

theorem mark_fresh {n : Nat} {s : Marks} (h : FreshOk n s) (t : Int) (m : Mark) :
    ∃ e : Seen, CompassConc.markStepBy BucketCounter.wildStep Seen.clock s e m = CompassConc.markStep s t m := by
  unfold CompassConc.markStepBy CompassConc.markStep
  cases m.pc with
  | total c => exact ⟨⟨t, s.total.latestBucket, false, s.total.buckets.current⟩, by simp only [BucketCounter.wild_fresh h.total c t]⟩
  | success c => exact ⟨⟨t, s.success.latestBucket, false, s.success.buckets.current⟩, by simp only [BucketCounter.wild_fresh h.success c t]⟩
  | hit w c =>
    cases hg : (s.lab w).counters.get? (m.arg.label w) with
    | none => exact ⟨⟨t, 0, false, 0⟩, by simp only [hg]⟩
    | some b => exact ⟨⟨t, b.latestBucket, false, b.buckets.current⟩, by simp only [hg, BucketCounter.wild_fresh (h.lab w _ b hg) c t]⟩
  | _ => exact ⟨⟨t, 0, false, 0⟩, rfl⟩

theorem tick_fresh (bi : Int) (s : CompassConc.Shared) (t : Int) (c : CompassConc.PC) :
    CompassConc.wildTickStep bi s ⟨t, s.lastTick⟩ c = CompassConc.callStep bi s t c := by cases c <;> rfl

theorem ticks_fresh (bi : Int) (p : Pool CompassConc.Shared CompassConc.PC) (i : Nat) (t : Int) :
    (CompassConc.wildConc bi).apply p (.step i ⟨t, p.shared.lastTick⟩) = (CompassConc.conc bi).apply p (.step i t) := by
  cases hc : p.calls[i]? with
  | none => simp only [Machine.apply, hc]
  | some c =>
    simp only [Machine.apply, hc, CompassConc.wildConc, CompassConc.conc, tick_fresh]

theorem marks_fresh {n : Nat} {p : Pool Marks Mark} (h : FreshOk n p.shared) (i : Nat) (t : Int) :
    ∃ e, CompassConc.wildMarking.apply p (.step i e) = CompassConc.marking.apply p (.step i t) := by
  cases hc : p.calls[i]? with
  | none => exact ⟨⟨t, 0, false, 0⟩, by simp only [Machine.apply, hc]⟩
  | some c =>
    obtain ⟨e, he⟩ := mark_fresh h t c
    exact ⟨e, by simp only [Machine.apply, hc, CompassConc.wildMarking, CompassConc.marking, he]⟩

theorem step_fresh {n : Nat} (R : Rounding) (T : Stepped S C A I) (bi : Int) (s : Parts S C) (h : FreshOk n s.marks.shared) (x : In I) (c : Call) :
    ∃ y, y.res = x.res ∧ callStepBy R T (CompassConc.wildConc bi) CompassConc.wildMarking (fun any r => any.getD r) s y c = callStep R T bi s x c := by
  obtain ⟨use, pc⟩ := c
  cases pc with
  | total i m =>
    obtain ⟨e, he⟩ := marks_fresh h m x.time
    refine ⟨⟨⟨0, 0⟩, e, x.res, none⟩, rfl, ?_⟩
    simp only [callStepBy, callStep, he]; rfl
  | rest i m r =>
    obtain ⟨e, he⟩ := marks_fresh h m x.time
    refine ⟨⟨⟨0, 0⟩, e, x.res, none⟩, rfl, ?_⟩
    simp only [callStepBy, callStep, he]; rfl
  | tick i =>
    refine ⟨⟨⟨x.tick, s.ticks.shared.lastTick⟩, ⟨0, 0, false, 0⟩, x.res, none⟩, rfl, ?_⟩
    simp only [callStepBy, callStep, ticks_fresh]; rfl
  | _ => exact ⟨⟨⟨0, 0⟩, ⟨0, 0, false, 0⟩, x.res, none⟩, rfl, rfl⟩

/-- **C110.** The executions of C86, in which every load returns the last value stored, are among these. -/
theorem _root_.GoMetrics.C110_covers {S C A I : Type} (R : Rounding) (T : Stepped S C A I) (arg : C → Option Int) (hT : T.Ok arg) (s0 : S) (bi : Int)
    (n : Nat) (maxErr maxAdd now t1 t2 : Int) (es : List (Ev Use (In I))) :
    ∃ es', wildlyUsed R T s0 bi n maxErr maxAdd now t1 t2 es' = used R T s0 bi n maxErr maxAdd now t1 t2 es := by
  induction es using List.reverseRecOn with
  | nil => exact ⟨[], rfl⟩
  | append_singleton es e ih =>
    obtain ⟨es', h'⟩ := ih
    have hi : Whole.Inv R T arg bi (fun _ => True) (fun _ => True) (init s0 bi n maxErr maxAdd now t1 t2) (used R T s0 bi n maxErr maxAdd now t1 t2 es) :=
      Whole.inv_all hT s0 n maxErr maxAdd now t1 t2 es (fun _ _ _ => ⟨trivial, trivial⟩)
    have hok : FreshOk n (used R T s0 bi n maxErr maxAdd now t1 t2 es).shared.marks.shared := by
      obtain ⟨es1, e1, -⟩ := hi.marks
      rw [e1]; exact freshOk_run bi n maxErr maxAdd t1 t2 es1
    unfold wildlyUsed used at *
    cases e with
    | spawn a =>
      refine ⟨es' ++ [.spawn a], ?_⟩
      rw [Machine.run_snoc, Machine.run_snoc, h']; rfl
    | step i x =>
      generalize hp : (machine R T bi).run (init s0 bi n maxErr maxAdd now t1 t2) es = p at *
      cases hc : p.calls[i]? with
      | none =>
        refine ⟨es' ++ [.step i ⟨⟨0, 0⟩, ⟨0, 0, false, 0⟩, x.res, none⟩], ?_⟩
        rw [Machine.run_snoc, Machine.run_snoc, h', hp]
        simp only [Machine.apply, hc]
      | some c =>
        obtain ⟨y, -, hy⟩ := step_fresh R T bi p.shared hok x c
        refine ⟨es' ++ [.step i y], ?_⟩
        rw [Machine.run_snoc, Machine.run_snoc, h', hp]
        simp only [Machine.apply, hc, wildMachine, machine, hy]

/-- **C110.** The load of the tick clock really may return anything, and so may that of a rate: whatever `old` and `r` are, there is an input with which a call of
`tickIfNecessary` loads `old`, and one with which a rate getter returns `r`. (Those of the bucket counters: `C107_any_value`.) -/
theorem _root_.GoMetrics.C110_any_value {S C A I : Type} (R : Rounding) (T : Stepped S C A I) (bi : Int) (s : Parts S C) (i : Nat) (w : Which) (x : I) (upd : Bool) (old : Int) (r : F64) :
    (∃ e, ∀ m : CompassConc.Shared, (CompassConc.wildConc bi).step m e (.readOld upd) = (m, .readClock upd old)) ∧
    (∃ e, (wildMachine R T bi).step s e ⟨.rate w, .rate i⟩ = (s, ⟨.rate w, .got i r⟩)) :=
  ⟨⟨⟨0, old⟩, fun _ => rfl⟩, ⟨⟨⟨0, 0⟩, ⟨0, 0, false, 0⟩, x, some r⟩, rfl⟩⟩

/-- **C110.** If the bucket interval divides 5 s and clock readings are non-negative, no value of the tick clock is replaced by two calls: the replaced values are strictly increasing. -/
theorem _root_.GoMetrics.C110_one_winner (I : Int) (hI : 0 < I) (hd : I ∣ 5000000000) (t0 : Int) (h0 : 0 ≤ t0 ∧ t0 < 2 ^ 63)
    (es : List (Ev Bool TickSeen)) (hes : ∀ i x, Ev.step i x ∈ es → 0 ≤ x.clock ∧ x.clock < 2 ^ 63) :
    (((CompassConc.wildConc I).run (Machine.start { lastTick := t0, uncounted := 0 }) es).shared.wins.map Prod.fst).Pairwise (· < ·) :=
  (CompassConc.chain_good (CompassConc.wild_chain_all I t0 es) (CompassConc.wild_good_all hI hd t0 h0 es hes).wins).2.2.1

/-- **C110.** Then, if all calls are over, each average has ticked at most once per 5 s the tick clock advanced, and exactly once if the bucket interval is 5 s. -/
theorem _root_.GoMetrics.C110_schedule (I : Int) (hI : 0 < I) (hd : I ∣ 5000000000) (t0 : Int) (h0 : 0 ≤ t0 ∧ t0 < 2 ^ 63)
    (es : List (Ev Bool TickSeen)) (hes : ∀ i x, Ev.step i x ∈ es → 0 ≤ x.clock ∧ x.clock < 2 ^ 63)
    (hdone : ∀ c ∈ ((CompassConc.wildConc I).run (Machine.start { lastTick := t0, uncounted := 0 }) es).calls, ∃ upd, c = .done upd) :
    let s := ((CompassConc.wildConc I).run (Machine.start { lastTick := t0, uncounted := 0 }) es).shared
    5000000000 * (s.fed1.length : Int) ≤ s.lastTick - t0 ∧
      (I = 5000000000 → 5000000000 * (s.fed1.length : Int) = s.lastTick - t0) :=
  (CompassConc.wild_inv_all I t0 es).schedule (CompassConc.wild_chain_all I t0 es) (CompassConc.wild_good_all hI hd t0 h0 es hes).wins hdone

/-- **C110.** The two parametrised steps are those of C84 and C86 when loads return what is stored. -/
theorem _root_.GoMetrics.C110_same_code {S C A I : Type} (R : Rounding) (T : Stepped S C A I) (bi : Int) (s : Parts S C) (c : Call) (x : In I)
    (m : Marks) (k : Mark) (now : Int) :
    CompassConc.markStepBy BucketCounter.callStep id m now k = CompassConc.markStep m now k ∧
    callStepBy R T (CompassConc.conc bi) CompassConc.marking (fun _ r => r) s ⟨x.tick, x.time, x.res, none⟩ c = callStep R T bi s x c := by
  refine ⟨?_, ?_⟩
  · obtain ⟨a, pc⟩ := k; cases pc <;> rfl
  · obtain ⟨u, pc⟩ := c; cases u <;> cases pc <;> rfl

/-- Two rate reads at 12 s. One loads 7 s (never stored) as the last tick and one loads a negative number: neither swap can succeed; a third, that loads what is there, ticks twice. -/
example :
    let es : List (Ev Bool TickSeen) := [.spawn false, .spawn false, .spawn true, .step 0 ⟨0, 7000000000⟩, .step 1 ⟨0, -5⟩, .step 2 ⟨0, 0⟩,
      .step 0 ⟨12000000000, 0⟩, .step 1 ⟨12000000000, 0⟩, .step 2 ⟨12000000000, 0⟩] ++
      (List.range 12).flatMap (fun _ => [.step 0 ⟨0, 0⟩, .step 1 ⟨0, 0⟩, .step 2 ⟨0, 0⟩])
    let p := (CompassConc.wildConc 5000000000).run (Machine.start { lastTick := 0, uncounted := 0 }) es
    p.calls = [.done false, .done false, .done true] ∧ p.shared.fed1 = [0, 0] ∧ p.shared.lastTick = 10000000000 := by decide

/-- Two updates in turn and, after a while, a rate read, on a compass; every load of the tick clock returns 3 s unless it is divisible by 7 s, loads of the pointer to the
latest bucket and of the position of the queue run through all values, and timestamps are visible only now and then. -/
def busy (k : Nat) : List (Ev Use (InBy TickSeen Seen Int)) :=
  [.spawn (.update 7 ⟨true, "", ""⟩), .spawn (.update 9 ⟨false, "e", "x"⟩), .spawn (.rate .m5)] ++
  (List.range k).flatMap (fun t => (List.range 3).map fun i =>
    .step i ⟨⟨400000000 * t, if t % 7 = 0 then 0 else 3000000000⟩, ⟨1500 * t, t, t % 2 = 0, t / 3⟩, 1, some (.fin t)⟩)

/-- All calls finish, and the counts are as they should be. -/
example :
    let p := wildlyUsed .exact uniform { obj := UniformReservoir.new 2 } 5000000000 3 1 1 0 0 0 (busy 200)
    (∀ c ∈ p.calls, c.over = true) ∧ p.calls.length = 3 ∧ p.shared.marks.shared.total.getCount = 2 ∧
      p.shared.marks.shared.success.getCount = 1 ∧ (p.shared.marks.shared.lab false).counters.keys = ["e"] ∧ p.shared.res.shared.obj.values = [7, 9] := by
  decide +kernel

end WholeWild
end GoMetrics
