import Verif.Proofs.UniformConcGhost
import Verif.Props.UniformFair
/-! # The reservoir under concurrent updates, in terms of the positions drawn -/
namespace GoMetrics.UniformConc
open UniformReservoir UniformFair

/-- The reservoir after the values `vs`, the updates after the first `c` of which draw the positions `tr`. -/
def filled (c : Nat) (vs : List Int) (tr : List Nat) : UniformReservoir :=
  (UniformReservoir.new c).run (List.zip vs (List.replicate c [] ++ tr.map fun k : Nat => [(k : Int)]))

/-- Positions that can be drawn. -/
def Valid (c : Nat) (tr : List Nat) : Prop := ∀ j k, tr[j]? = some k → k < c + 1 + j

theorem zip_snoc {α β : Type} (l : List α) (a : α) (m : List β) (b : β) (h : m[l.length]? = some b) : List.zip (l ++ [a]) m = List.zip l m ++ [(a, b)] := by
  induction l generalizing m with
  | nil =>
    cases m with
    | nil => simp at h
    | cons x m => simp at h; simp [h]
  | cons x l ih =>
    cases m with
    | nil => simp at h
    | cons y m => simp only [List.cons_append, List.zip_cons_cons]; rw [ih m (by simpa using h)]

theorem length_filled (c : Nat) (vs : List Int) (tr : List Nat) : (filled c vs tr).values.length = c := by
  unfold filled; rw [length_run]; simp [UniformReservoir.new]

theorem count_filled (c : Nat) (vs : List Int) (tr : List Nat) (h : vs.length ≤ c + tr.length) (hl : vs.length < 9223372036854775808) :
    (filled c vs tr).count = vs.length := by
  have e : (List.zip vs (List.replicate c [] ++ tr.map fun k : Nat => [(k : Int)])).length = vs.length := by
    rw [List.length_zip, List.length_append, List.length_replicate, List.length_map]; omega
  unfold filled
  rw [count_run c _ (by rw [e]; exact hl), e]

theorem filled_fill (c : Nat) (vs : List Int) (tr : List Nat) (v : Int) (h : vs.length < c) (hl : vs.length + 1 < 9223372036854775808) :
    filled c (vs ++ [v]) tr = ⟨vs.length + 1, (filled c vs tr).values.set vs.length v⟩ := by
  have h1 := count_filled c vs tr (by omega) (by omega)
  have h2 := length_filled c vs tr
  have e : filled c (vs ++ [v]) tr = ((filled c vs tr).updateN [] v).state := by
    unfold filled
    rw [zip_snoc vs v _ [] (by rw [List.getElem?_append_left (by simpa using h), List.getElem?_replicate, if_pos h]), run_snoc]
  rw [e, updateN_fill h1 (by omega) hl]; rfl

theorem filled_draw (c : Nat) (vs : List Int) (tr : List Nat) (v : Int) (k : Nat) (h : vs.length = c + tr.length) (hk : k < vs.length + 1)
    (hl : vs.length + 1 < 9223372036854775808) :
    filled c (vs ++ [v]) (tr ++ [k]) = ⟨vs.length + 1, if k < c then (filled c vs tr).values.set k v else (filled c vs tr).values⟩ := by
  have h1 := count_filled c vs tr (by omega) (by omega)
  have h2 := length_filled c vs tr
  have e : filled c (vs ++ [v]) (tr ++ [k]) = ((filled c vs tr).updateN [(k : Int)] v).state := by
    unfold filled
    rw [List.map_append, ← List.append_assoc, List.zip_append (by simp [h]), List.map_singleton, List.zip_cons_cons, List.zip_nil_left, run_snoc]
  have hw := word_is_position (vs.length + 1) k hk (by norm_num; omega)
  rw [e]
  rcases updateN_full h1 (by omega) hl (w := [(k : Int)]) (by simp) v with ⟨g, _⟩ | ⟨p, g1, g2, g3⟩
  · rw [show ((vs.length : Int) + 1) = ((vs.length + 1 : Nat) : Int) by push_cast; rfl, hw] at g; simp at g
  · rw [show ((vs.length : Int) + 1) = ((vs.length + 1 : Nat) : Int) by push_cast; rfl, hw] at g1
    simp only [Option.some.injEq, Int.natCast_inj] at g1
    subst g1
    rw [g3, h2]; rfl

/-- Where an update is, in terms of the values recorded before and the positions drawn. -/
def At (c : Nat) (vs : List Int) (tr : List Nat) (a : Int) (u : UniformReservoir) : WPC → Prop
  | .inc v => v = a ∧ u = filled c vs tr ∧ tr.length = vs.length - c
  | .cmp v => v = a ∧ u = ⟨vs.length + 1, (filled c vs tr).values⟩ ∧ tr.length = vs.length - c
  | .fill v => v = a ∧ u = ⟨vs.length + 1, (filled c vs tr).values⟩ ∧ tr.length = vs.length - c ∧ vs.length < c
  | .draw v n => v = a ∧ u = ⟨vs.length + 1, (filled c vs tr).values⟩ ∧ vs.length = c + tr.length ∧ n = (vs.length + 1 : Nat)
  | .store v idx => ∃ tr0 k, tr = tr0 ++ [k] ∧ idx = (k : Nat) ∧ k < vs.length + 1 ∧ v = a ∧ u = ⟨vs.length + 1, (filled c vs tr0).values⟩ ∧ vs.length = c + tr0.length

/-- The invariant: `tr` are the positions drawn so far. -/
structure J (c : Nat) (p : P) (tr : List Nat) : Prop where
  base : Guarded.Inv guarded (UniformReservoir.new c) p
  valid : Valid c tr
  idle : (∀ a ins l, GuardPC.wIn a ins l ∉ p.calls) → p.shared.obj = filled c (p.shared.log.map Prod.fst) tr ∧ tr.length = p.shared.log.length - c
  busy : ∀ a ins l, GuardPC.wIn a ins l ∈ p.calls → At c (p.shared.log.map Prod.fst) tr a p.shared.obj l

theorem j_start (c : Nat) : J c (Guarded.init (UniformReservoir.new c)) [] := by
  refine ⟨Guarded.inv_init _, fun j k h => by simp at h, fun _ => ⟨?_, ?_⟩, fun a ins l h => ?_⟩
  · rfl
  · simp [Guarded.init, Machine.start]
  · simp [Guarded.init, Machine.start] at h

theorem j_spawn {c : Nat} {p : P} {tr : List Nat} (h : J c p tr) (a : Int ⊕ Query) : J c (guarded.machine.apply p (.spawn a)) tr := by
  have hmem : ∀ a' ins l, GuardPC.wIn a' ins l ∈ p.calls ++ [guarded.machine.call a] → GuardPC.wIn a' ins l ∈ p.calls := by
    intro a' ins l hm
    rcases List.mem_append.1 hm with hm | hm
    · exact hm
    · rw [List.mem_singleton] at hm
      cases a <;> simp [Guarded.machine] at hm
  refine ⟨Guarded.inv_spawn _ _ _ _ h.base, h.valid, fun hno => h.idle fun a' ins l hm => hno a' ins l (List.mem_append_left _ hm), fun a' ins l hm => h.busy a' ins l (hmem a' ins l hm)⟩

/-- The position that a step draws. -/
def posOf (p : P) : Ev (Int ⊕ Query) Int → Option Nat
  | .spawn _ => none
  | .step i x => match (p.calls[i]?).bind drawsAt with
    | some n => if accepts n x then some (x.tmod n).toNat else none
    | none => none

/-- If one call holds the lock, no other does. -/
theorem alone {w : Bool} {pre post : List (GuardPC Int WPC Int Bool Query RPC Answer)} {c : GuardPC Int WPC Int Bool Query RPC Answer}
    (h : ((pre ++ c :: post).filter Guarded.wHolds).length = if w then 1 else 0) (hc : Guarded.wHolds c = true) :
    ∀ d ∈ pre ++ post, Guarded.wHolds d = false := by
  intro d hd
  by_contra hn
  have hd' : Guarded.wHolds d = true := by simpa using hn
  have : 1 ≤ ((pre ++ post).filter Guarded.wHolds).length := List.length_pos_of_mem (List.mem_filter.2 ⟨hd, hd'⟩)
  rw [List.filter_append, List.filter_cons_of_pos hc, List.length_append, List.length_cons] at h
  rw [List.filter_append, List.length_append] at this
  split at h <;> omega

theorem log_lt {c : Nat} {p : P} {tr : List Nat} (h : J c p tr) {a ins l} (hm : GuardPC.wIn a ins l ∈ p.calls) : p.shared.log.length + 1 ≤ p.calls.length := by
  have h1 := h.base.logged.length_eq
  rw [List.length_map] at h1
  have h2 : (p.calls.filterMap Guarded.wEntry).length + 1 ≤ p.calls.length := by
    obtain ⟨x, y, e⟩ := List.append_of_mem hm
    rw [e, List.filterMap_append, List.filterMap_cons]
    simp only [Guarded.wEntry, List.length_append, List.length_cons]
    have := List.length_filterMap_le (Guarded.wEntry (A := Int) (L := WPC) (I := Int) (R := Bool) (Q := Query) (K := RPC) (V := Answer)) x
    have := List.length_filterMap_le (Guarded.wEntry (A := Int) (L := WPC) (I := Int) (R := Bool) (Q := Query) (K := RPC) (V := Answer)) y
    omega
  omega

theorem valid_snoc {c : Nat} {tr : List Nat} (h : Valid c tr) {k : Nat} (hk : k < c + 1 + tr.length) : Valid c (tr ++ [k]) := by
  intro j x hx
  by_cases hj : j < tr.length
  · rw [List.getElem?_append_left hj] at hx; exact h j x hx
  · rw [List.getElem?_append_right (by omega)] at hx
    have hj' : j = tr.length := by
      by_contra hne
      rw [List.getElem?_eq_none (by simp; omega)] at hx; simp at hx
    subst hj'
    simp at hx; omega

/-- Keeping the invariant when reservoir, log and the calls inside do not change. -/
theorem j_same {c : Nat} {s s' : Guard UniformReservoir Int Int Bool} {pre post} {c0 c1 : GuardPC Int WPC Int Bool Query RPC Answer} {tr : List Nat}
    (h : J c ⟨s, pre ++ c0 :: post⟩ tr) (hb : Guarded.Inv guarded (UniformReservoir.new c) ⟨s', pre ++ c1 :: post⟩) (ho : s'.obj = s.obj) (hl : s'.log = s.log)
    (h0 : ∀ a ins l, c0 ≠ .wIn a ins l) (h1 : ∀ a ins l, c1 ≠ .wIn a ins l) : J c ⟨s', pre ++ c1 :: post⟩ tr := by
  have hmem : ∀ a ins l, GuardPC.wIn a ins l ∈ pre ++ c1 :: post ↔ GuardPC.wIn a ins l ∈ pre ++ c0 :: post := by
    intro a ins l
    simp only [List.mem_append, List.mem_cons]
    constructor
    · rintro (h | h | h)
      · exact .inl h
      · exact absurd h.symm (h1 a ins l)
      · exact .inr (.inr h)
    · rintro (h | h | h)
      · exact .inl h
      · exact absurd h.symm (h0 a ins l)
      · exact .inr (.inr h)
  refine ⟨hb, h.valid, fun hno => ?_, fun a ins l hm => ?_⟩
  · have := h.idle fun a ins l hm => hno a ins l ((hmem a ins l).2 hm)
    simp only [ho, hl]; exact this
  · have := h.busy a ins l ((hmem a ins l).1 hm)
    simp only [ho, hl]; exact this

theorem j_step {c : Nat} {p : P} {tr : List Nat} (h : J c p tr) (hlen : p.calls.length < 9223372036854775808) (i : Nat) (w : Nat) :
    J c (guarded.machine.apply p (.step i (w : Int))) (tr ++ (posOf p (.step i (w : Int))).toList) := by
  cases hc : p.calls[i]? with
  | none => simp only [Machine.apply, posOf, hc, Option.bind_none, Option.toList_none, List.append_nil]; exact h
  | some c0 =>
    obtain ⟨pre, post, e1, -, e2⟩ := guarded.machine.apply_step_eq (x := (w : Int)) hc
    have hpos : posOf p (.step i (w : Int)) = match drawsAt c0 with
      | some n => if accepts n (w : Int) then some ((w : Int).tmod n).toNat else none
      | none => none := by simp only [posOf, hc, Option.bind_some]
    rw [e2, hpos]
    obtain ⟨s, cs⟩ := p
    simp only at e1 hlen
    subst e1
    have hb := Guarded.inv_step (G := guarded) (UniformReservoir.new c) s pre c0 post (w : Int) h.base
    have hm0 : c0 ∈ pre ++ c0 :: post := by simp
    cases c0 with
    | wWait a =>
      simp only [drawsAt, Option.toList_none, List.append_nil]
      simp only [Guarded.machine, Guarded.callStep] at hb ⊢
      by_cases hbl : s.writer = true ∨ 0 < s.readers
      · rw [if_pos hbl]; exact h
      · rw [if_neg hbl] at hb ⊢
        have hw : s.writer = false := by
          by_contra hn; exact hbl (.inl (by simpa using hn))
        have hno : ∀ a' ins l, GuardPC.wIn a' ins l ∉ pre ++ GuardPC.wWait a :: post := by
          intro a' ins l hm
          have h1 : 0 < ((pre ++ GuardPC.wWait a :: post).filter Guarded.wHolds).length := List.length_pos_of_mem (List.mem_filter.2 ⟨hm, rfl⟩)
          have h2 := h.base.writer
          simp only [hw, Bool.false_eq_true, if_false] at h2
          omega
        obtain ⟨g1, g2⟩ := h.idle hno
        refine ⟨hb, h.valid, fun hn => absurd (show GuardPC.wIn a [] (guarded.enter a) ∈ pre ++ GuardPC.wIn a [] (guarded.enter a) :: post by simp) (hn _ _ _), fun a' ins l hm => ?_⟩
        have : (GuardPC.wIn a' ins l : GuardPC Int WPC Int Bool Query RPC Answer) = GuardPC.wIn a [] (guarded.enter a) := by
          by_contra hne
          apply hno a' ins l
          simp only [List.mem_append, List.mem_cons, hne, false_or] at hm ⊢
          tauto
        simp only [GuardPC.wIn.injEq] at this
        obtain ⟨rfl, -, rfl⟩ := this
        exact ⟨rfl, g1, by simpa using g2⟩
    | wOut a r =>
      simp only [drawsAt, Option.toList_none, List.append_nil]
      exact j_same h hb rfl rfl (by simp) (by simp [Guarded.machine, Guarded.callStep])
    | wDone a r =>
      simp only [drawsAt, Option.toList_none, List.append_nil]
      exact j_same h hb rfl rfl (by simp) (by simp [Guarded.machine, Guarded.callStep])
    | rWait q =>
      simp only [drawsAt, Option.toList_none, List.append_nil]
      simp only [Guarded.machine, Guarded.callStep] at hb ⊢
      by_cases hbl : s.writer = true
      · rw [if_pos hbl]; exact h
      · rw [if_neg hbl] at hb ⊢
        exact j_same h hb rfl rfl (by simp) (by simp)
    | rOut q v =>
      simp only [drawsAt, Option.toList_none, List.append_nil]
      exact j_same h hb rfl rfl (by simp) (by simp [Guarded.machine, Guarded.callStep])
    | rDone q v =>
      simp only [drawsAt, Option.toList_none, List.append_nil]
      exact j_same h hb rfl rfl (by simp) (by simp [Guarded.machine, Guarded.callStep])
    | rIn q k =>
      simp only [drawsAt, Option.toList_none, List.append_nil]
      simp only [Guarded.machine, Guarded.callStep] at hb ⊢
      cases hr : guarded.rstep s.obj k with
      | inl k' => simp only [hr] at hb ⊢; exact j_same h hb rfl rfl (by simp) (by simp)
      | inr v => simp only [hr] at hb ⊢; exact j_same h hb rfl rfl (by simp) (by simp)
    | wIn a ins l =>
      have hL : s.log.length + 1 < 9223372036854775808 := by
        have := log_lt h hm0
        simp only at this; omega
      have hal := alone h.base.writer (c := GuardPC.wIn a ins l) rfl
      have hat := h.busy a ins l hm0
      have hvl : (s.log.map Prod.fst).length = s.log.length := by simp
      -- what remains when the call is still inside
      have stay : ∀ (o : UniformReservoir) (l' : WPC) (ins' : List Int) (tr' : List Nat) (s' : Guard UniformReservoir Int Int Bool), s'.log = s.log → s'.obj = o →
          Guarded.Inv guarded (UniformReservoir.new c) ⟨s', pre ++ GuardPC.wIn a ins' l' :: post⟩ → Valid c tr' →
          At c (s.log.map Prod.fst) tr' a o l' → J c ⟨s', pre ++ GuardPC.wIn a ins' l' :: post⟩ tr' := by
        intro o l' ins' tr' s' q1 q2 hb' hv' hat'
        refine ⟨hb', hv', fun hn => absurd (show GuardPC.wIn a ins' l' ∈ pre ++ GuardPC.wIn a ins' l' :: post by simp) (hn _ _ _), fun a1 ins1 l1 hm => ?_⟩
        simp only [List.mem_append, List.mem_cons] at hm
        have : (GuardPC.wIn a1 ins1 l1 : GuardPC Int WPC Int Bool Query RPC Answer) = GuardPC.wIn a ins' l' := by
          by_contra hne
          have := hal (GuardPC.wIn a1 ins1 l1) (by simp only [List.mem_append]; tauto)
          simp [Guarded.wHolds] at this
        simp only [GuardPC.wIn.injEq] at this
        obtain ⟨rfl, -, rfl⟩ := this
        show At c (s'.log.map Prod.fst) tr' _ s'.obj _
        rw [q1, q2]; exact hat'
      have leave : ∀ (o : UniformReservoir) (r : Bool) (ins' : List Int) (tr' : List Nat) (s' : Guard UniformReservoir Int Int Bool),
          s'.log = s.log ++ [(a, ins', r)] → s'.obj = o →
          Guarded.Inv guarded (UniformReservoir.new c) ⟨s', pre ++ GuardPC.wOut a r :: post⟩ → Valid c tr' → tr'.length = s.log.length + 1 - c →
          o = filled c (s.log.map Prod.fst ++ [a]) tr' → J c ⟨s', pre ++ GuardPC.wOut a r :: post⟩ tr' := by
        intro o r ins' tr' s' e1 e2 hb' hv' hl' ho'
        refine ⟨hb', hv', fun _ => ?_, fun a1 ins1 l1 hm => ?_⟩
        · simp only [e1, e2, List.map_append, List.map_singleton, List.length_append, List.length_singleton]
          exact ⟨ho', hl'⟩
        · simp only [List.mem_append, List.mem_cons, reduceCtorEq, false_or] at hm
          have := hal (GuardPC.wIn a1 ins1 l1) (by simp only [List.mem_append]; tauto)
          simp [Guarded.wHolds] at this
      cases l with
      | inc v =>
        obtain ⟨rfl, hu, ht⟩ := hat
        simp only [drawsAt, Option.toList_none, List.append_nil]
        have hu' : s.obj = filled c (s.log.map Prod.fst) tr := hu
        have ht' : tr.length = (s.log.map Prod.fst).length - c := ht
        have e : (guarded.wstep s.obj (w : Int) (.inc v)) = (⟨(s.log.map Prod.fst).length + 1, (filled c (s.log.map Prod.fst) tr).values⟩, .inl (.cmp v)) := by
          simp only [guarded, wstep, hu']
          rw [count_filled c _ tr (by omega) (by omega), i64_of_in (by unfold InI64; rw [hvl]; omega)]
        simp only [Guarded.machine, Guarded.callStep, e] at hb ⊢
        exact stay _ (.cmp v) _ tr _ rfl rfl hb h.valid ⟨rfl, rfl, ht⟩
      | cmp v =>
        obtain ⟨rfl, hu, ht⟩ := hat
        have hu' : s.obj = ⟨(s.log.map Prod.fst).length + 1, (filled c (s.log.map Prod.fst) tr).values⟩ := hu
        have ht' : tr.length = (s.log.map Prod.fst).length - c := ht
        simp only [drawsAt, Option.toList_none, List.append_nil]
        have hlf := length_filled c (s.log.map Prod.fst) tr
        by_cases hcmp : s.obj.count ≤ (s.obj.values.length : Int)
        · have e : (guarded.wstep s.obj (w : Int) (.cmp v)) = (s.obj, .inl (.fill v)) := by simp only [guarded, wstep, if_pos hcmp]
          simp only [Guarded.machine, Guarded.callStep, e] at hb ⊢
          refine stay _ (.fill v) _ tr _ rfl rfl hb h.valid ⟨rfl, hu', ht, ?_⟩
          rw [hu'] at hcmp; simp only [hlf] at hcmp; omega
        · have e : (guarded.wstep s.obj (w : Int) (.cmp v)) = (s.obj, .inl (.draw v s.obj.count)) := by simp only [guarded, wstep, if_neg hcmp]
          simp only [Guarded.machine, Guarded.callStep, e] at hb ⊢
          refine stay _ (.draw v s.obj.count) _ tr _ rfl rfl hb h.valid ⟨rfl, hu', ?_, ?_⟩
          · rw [hu'] at hcmp; simp only [hlf] at hcmp; omega
          · rw [hu']; push_cast; rfl
      | fill v =>
        obtain ⟨rfl, hu, ht, hlt⟩ := hat
        have hu' : s.obj = ⟨(s.log.map Prod.fst).length + 1, (filled c (s.log.map Prod.fst) tr).values⟩ := hu
        have hlt' : (s.log.map Prod.fst).length < c := hlt
        have ht' : tr.length = (s.log.map Prod.fst).length - c := ht
        simp only [drawsAt, Option.toList_none, List.append_nil]
        have hlf := length_filled c (s.log.map Prod.fst) tr
        have hi : i64 (s.obj.count - 1) = (s.log.map Prod.fst).length := by
          rw [hu']; simp only [add_sub_cancel_right]; exact i64_of_in (by unfold InI64; rw [hvl]; omega)
        have hg : ¬ (i64 (s.obj.count - 1) < 0 ∨ (s.obj.values.length : Int) ≤ i64 (s.obj.count - 1)) := by
          rw [hi, hu']; simp only [hlf]; omega
        have e : (guarded.wstep s.obj (w : Int) (.fill v)) = ({ s.obj with values := s.obj.values.set (s.log.map Prod.fst).length v }, .inr false) := by
          simp only [guarded, wstep, if_neg hg]; rw [hi]; simp
        simp only [Guarded.machine, Guarded.callStep, e] at hb ⊢
        refine leave _ false _ tr _ rfl rfl hb h.valid ?_ ?_
        · rw [hvl] at ht' hlt'; omega
        · rw [filled_fill c _ tr v hlt' (by rw [hvl]; exact hL)]; simp only [hu']
      | draw v n =>
        obtain ⟨rfl, hu, ht, hn⟩ := hat
        have hn' : n = (((s.log.map Prod.fst).length + 1 : Nat) : Int) := hn
        clear hn
        subst hn'
        have hu' : s.obj = ⟨(s.log.map Prod.fst).length + 1, (filled c (s.log.map Prod.fst) tr).values⟩ := hu
        have ht' : (s.log.map Prod.fst).length = c + tr.length := ht
        by_cases ha : accepts (((s.log.map Prod.fst).length + 1 : Nat) : Int) (w : Int) = true
        · have e : (guarded.wstep s.obj (w : Int) (.draw v (((s.log.map Prod.fst).length + 1 : Nat) : Int))) =
              (s.obj, .inl (.store v ((w : Int).tmod (((s.log.map Prod.fst).length + 1 : Nat) : Int)))) := by simp only [guarded, wstep, if_pos ha]
          have hk : ((w : Int).tmod (((s.log.map Prod.fst).length + 1 : Nat) : Int)) = ((w % ((s.log.map Prod.fst).length + 1) : Nat) : Int) := by
            rw [Int.tmod_eq_emod_of_nonneg (by omega)]; push_cast; rfl
          have hklt : w % ((s.log.map Prod.fst).length + 1) < (s.log.map Prod.fst).length + 1 := Nat.mod_lt _ (by omega)
          simp only [Guarded.machine, Guarded.callStep, e] at hb ⊢
          simp only [drawsAt, if_pos ha, Option.toList_some]
          refine stay _ _ _ _ _ rfl rfl hb ?_ ⟨tr, w % ((s.log.map Prod.fst).length + 1), ?_, hk, hklt, rfl, hu', ht'⟩
          · rw [hk, Int.toNat_natCast]
            exact valid_snoc h.valid (by omega)
          · rw [hk, Int.toNat_natCast]
        · have e : (guarded.wstep s.obj (w : Int) (.draw v (((s.log.map Prod.fst).length + 1 : Nat) : Int))) =
              (s.obj, .inl (.draw v (((s.log.map Prod.fst).length + 1 : Nat) : Int))) := by simp only [guarded, wstep, if_neg ha]
          simp only [Guarded.machine, Guarded.callStep, e] at hb ⊢
          simp only [drawsAt, if_neg ha, Option.toList_none, List.append_nil]
          exact stay _ _ _ _ _ rfl rfl hb h.valid ⟨rfl, hu', ht', rfl⟩
      | store v idx =>
        obtain ⟨tr0, k, rfl, rfl, hk, rfl, hu, ht⟩ := hat
        have hu' : s.obj = ⟨(s.log.map Prod.fst).length + 1, (filled c (s.log.map Prod.fst) tr0).values⟩ := hu
        have ht' : (s.log.map Prod.fst).length = c + tr0.length := ht
        have hk' : k < (s.log.map Prod.fst).length + 1 := hk
        have hlf := length_filled c (s.log.map Prod.fst) tr0
        simp only [drawsAt, Option.toList_none, List.append_nil]
        have hfd := filled_draw c (s.log.map Prod.fst) tr0 v k ht' hk' (by rw [hvl]; exact hL)
        have hll : (tr0 ++ [k]).length = s.log.length + 1 - c := by rw [hvl] at ht'; simp; omega
        by_cases hkc : k < c
        · have e : (guarded.wstep s.obj (w : Int) (.store v (k : Int))) = ({ s.obj with values := s.obj.values.set k v }, .inr false) := by
            have g1 : (k : Int) < (s.obj.values.length : Int) := by rw [hu']; simp only [hlf]; omega
            have g2 : ¬ (k : Int) < 0 := by omega
            simp only [guarded, wstep, if_pos g1, if_neg g2, Int.toNat_natCast]
          simp only [Guarded.machine, Guarded.callStep, e] at hb ⊢
          refine leave _ false _ _ _ rfl rfl hb h.valid hll ?_
          rw [hfd, if_pos hkc]; simp only [hu']
        · have e : (guarded.wstep s.obj (w : Int) (.store v (k : Int))) = (s.obj, .inr false) := by
            have g1 : ¬ (k : Int) < (s.obj.values.length : Int) := by rw [hu']; simp only [hlf]; omega
            simp only [guarded, wstep, if_neg g1]
          simp only [Guarded.machine, Guarded.callStep, e] at hb ⊢
          refine leave _ false _ _ _ rfl rfl hb h.valid hll ?_
          rw [hfd, if_neg hkc]; exact hu'

end GoMetrics.UniformConc
