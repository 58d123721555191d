import Verif.Proofs.UniformConcTrace
import Verif.Props.UniformWords
/-! # Counting the words that lead to given positions -/
namespace GoMetrics.UniformConc
open UniformReservoir UniformFair UniformWords

/-- The positions drawn during a schedule. -/
def tracing (p : P) : List (Ev (Int ⊕ Query) Int) → List Nat
  | [] => []
  | e :: es => (posOf p e).toList ++ tracing (guarded.machine.apply p e) es

/-- The number of calls a schedule starts. -/
def spawns : Schedule → Nat
  | [] => 0
  | .spawn _ :: es => spawns es + 1
  | .step _ _ :: es => spawns es

theorem calls_apply (p : P) (e : Ev (Int ⊕ Query) Int) : (guarded.machine.apply p e).calls.length = match e with
    | .spawn _ => p.calls.length + 1
    | .step _ _ => p.calls.length := by
  cases e with
  | spawn a => simp [Machine.apply]
  | step i x =>
    cases hc : p.calls[i]? with
    | none => simp only [Machine.apply, hc]
    | some c0 => simp only [Machine.apply, hc, List.length_set]

theorem j_run {c : Nat} (sched : Schedule) : ∀ (p : P) (tr : List Nat) (ws : List Nat), J c p tr → p.calls.length + spawns sched < 9223372036854775808 →
    J c (guarded.machine.run p (supplied sched ws)) (tr ++ tracing p (supplied sched ws)) := by
  induction sched with
  | nil => intro p tr ws h _; simpa [supplied, tracing, Machine.run] using h
  | cons e es ih =>
    intro p tr ws h hl
    cases e with
    | spawn a =>
      have := ih (guarded.machine.apply p (.spawn a)) tr ws (j_spawn h a) (by rw [calls_apply]; simp only [spawns] at hl ⊢; omega)
      simpa [supplied, tracing, posOf, Machine.run] using this
    | step i u =>
      have := ih (guarded.machine.apply p (.step i (ws.headD 0 : Nat))) _ ws.tail (j_step h (by omega) i (ws.headD 0))
        (by rw [calls_apply]; simp only [spawns] at hl ⊢; omega)
      simpa only [supplied, tracing, Machine.run, List.foldl_cons, List.append_assoc] using this

/-- How many words lead to a control flow as described by `B` and to the positions `s`. -/
def cnt (M : Nat) (p : P) (sched : Schedule) (B : P → Bool) (s : List Nat) : Nat :=
  (wordLists M (turns sched)).countP fun ws => B (ghost (guarded.machine.run p (supplied sched ws))) && decide (tracing p (supplied sched ws) = s)

theorem cnt_spawn (M : Nat) (p : P) (a : Int ⊕ Query) (es : Schedule) (B : P → Bool) (s : List Nat) :
    cnt M p (.spawn a :: es) B s = cnt M (guarded.machine.apply p (.spawn a)) es B s := by
  simp only [cnt, turns, supplied, tracing, posOf, Option.toList_none, List.nil_append, Machine.run, List.foldl_cons]

/-- What is left of the positions after a turn. -/
def rest (o : Option Nat) (s : List Nat) : Option (List Nat) :=
  match o with
  | none => some s
  | some k => match s with
    | [] => none
    | k' :: t => if k = k' then some t else none

theorem cnt_step (M : Nat) (p : P) (i : Nat) (u : Unit) (es : Schedule) (B : P → Bool) (s : List Nat) :
    cnt M p (.step i u :: es) B s = ((List.range M).map fun r : Nat => match rest (posOf p (.step i (r : Int))) s with
      | none => 0
      | some t => cnt M (guarded.machine.apply p (.step i (r : Int))) es B t).sum := by
  simp only [cnt, turns, wordLists]
  rw [countP_flatMap_map]
  congr 1
  refine List.map_congr_left fun r _ => ?_
  simp only [supplied, tracing, Machine.run, List.foldl_cons, List.headD_cons, List.tail_cons]
  cases posOf p (.step i (r : Int)) with
  | none => simp only [rest, Option.toList_none, List.nil_append]; rfl
  | some k =>
    cases s with
    | nil => simp [rest]
    | cons k' t =>
      by_cases hk : k = k'
      · subst hk; simp [rest]
      · simp [rest, hk]

/-- Of the words below `M`, the same number leads to each position. -/
def Uniform (M : Nat) : Prop := ∀ n k k' : Nat, k < n → k' < n → n < 9223372036854775808 →
  (List.range M).countP (fun r : Nat => accepts n r && decide (r % n = k)) = (List.range M).countP (fun r : Nat => accepts n r && decide (r % n = k'))

theorem uniform_words : Uniform (2 ^ 63) := by
  intro n k k' hk hk' hn
  have key : ∀ M k : Nat, (List.range M).countP (fun r : Nat => accepts n r && decide (r % n = k)) =
      ((Finset.range M).filter (fun r : Nat => nextRandomPos n [(r : Int)] = some (k : Int))).card := by
    intro M k
    rw [countP_range_filter]
    congr 1
    refine Finset.filter_congr fun r _ => ?_
    have hm : ((r : Int)).tmod (n : Int) = ((r % n : Nat) : Int) := by
      rw [Int.tmod_eq_emod_of_nonneg (by omega)]; simp
    rw [nextRandomPos, nextRandomPos, hm]
    by_cases h : accepts n r = true
    · rw [if_pos h]; simp only [h, Bool.true_and, decide_eq_true_eq, Option.some.injEq, Int.natCast_inj]
    · rw [if_neg h]; simp [h]
  exact ((key _ k).trans (C51_uniform n (by omega) (by norm_num; omega) k hk)).trans ((key _ k').trans (C51_uniform n (by omega) (by norm_num; omega) k' hk')).symm

theorem valid_split {c : Nat} {a : List Nat} {k : Nat} {t : List Nat} (h : Valid c (a ++ k :: t)) : k < c + 1 + a.length := by
  refine h a.length k ?_
  rw [List.getElem?_append_right (by omega)]; simp

theorem ghost_spawn {p p' : P} (h : ghost p = ghost p') (a : Int ⊕ Query) :
    ghost (guarded.machine.apply p (.spawn a)) = ghost (guarded.machine.apply p' (.spawn a)) := by
  simp only [ghost, Pool.mk.injEq] at h
  simp only [Machine.apply, ghost, List.map_append, h.1, h.2]

theorem ghost_calls {p p' : P} (h : ghost p = ghost p') : p.calls.length = p'.calls.length := by
  simp only [ghost, Pool.mk.injEq] at h
  have := congrArg List.length h.2
  simpa using this

theorem ghost_draws {p p' : P} (h : ghost p = ghost p') (i : Nat) : (p.calls[i]?).bind drawsAt = (p'.calls[i]?).bind drawsAt := by
  have key : ∀ q : P, (q.calls[i]?).bind drawsAt = ((ghost q).calls[i]?).bind drawsAt := by
    intro q
    simp only [ghost, List.getElem?_map]
    cases q.calls[i]? with
    | none => rfl
    | some x => simp only [Option.map_some, Option.bind_some, drawsAt_ghost]
  rw [key p, key p', h]

/-- The argument of a draw is the number of values. -/
theorem j_draws {c : Nat} {p : P} {tr : List Nat} (h : J c p tr) {i : Nat} {n : Int} (hd : (p.calls[i]?).bind drawsAt = some n) :
    n = ((c + tr.length + 1 : Nat) : Int) ∧ c + tr.length + 1 ≤ p.calls.length := by
  cases hc : p.calls[i]? with
  | none => rw [hc] at hd; simp at hd
  | some c0 =>
    rw [hc] at hd
    simp only [Option.bind_some] at hd
    cases c0 with
    | wIn a ins l =>
      cases l with
      | draw v m =>
        have hm := List.mem_of_getElem? hc
        have h1 := log_lt h hm
        obtain ⟨-, -, g1, g2⟩ := h.busy _ _ _ hm
        rw [List.length_map] at g1 g2
        simp only [drawsAt, Option.some.injEq] at hd
        subst hd
        constructor
        · rw [g2, g1]
        · omega
      | _ => simp [drawsAt] at hd
    | _ => simp [drawsAt] at hd

/-- Every possible sequence of positions comes from the same number of words. -/
theorem cnt_eq {c M : Nat} (hM : Uniform M) (B : P → Bool) (sched : Schedule) : ∀ (p p' : P) (tr tr' s s' : List Nat), J c p tr → J c p' tr' →
    tr.length = tr'.length → ghost p = ghost p' → s.length = s'.length → Valid c (tr ++ s) → Valid c (tr' ++ s') →
    p.calls.length + spawns sched < 9223372036854775808 → cnt M p sched B s = cnt M p' sched B s' := by
  induction sched with
  | nil =>
    intro p p' tr tr' s s' _ _ _ hg hs _ _ _
    have e : ∀ (q : P) (t : List Nat), cnt M q [] B t = if B (ghost q) && decide (t.length = 0) then 1 else 0 := by
      intro q t
      have : (decide (([] : List Nat) = t)) = decide (t.length = 0) := by cases t <;> simp
      simp only [cnt, turns, wordLists, supplied, tracing, Machine.run, List.foldl_nil, List.countP_singleton, this]
    rw [e, e, hg, hs]
  | cons e es ih =>
    intro p p' tr tr' s s' hj hj' htr hg hs hv hv' hl
    have hcl := ghost_calls hg
    cases e with
    | spawn a =>
      rw [cnt_spawn, cnt_spawn]
      exact ih _ _ tr tr' s s' (j_spawn hj a) (j_spawn hj' a) htr (ghost_spawn hg a) hs hv hv' (by rw [calls_apply]; simp only [spawns] at hl ⊢; omega)
    | step i u =>
      have hl' : p.calls.length < 9223372036854775808 := by omega
      have hl1 : ∀ x, (guarded.machine.apply p (.step i x)).calls.length + spawns es < 9223372036854775808 := by
        intro x; rw [calls_apply]; simpa [spawns] using hl
      rw [cnt_step, cnt_step]
      have hd := ghost_draws hg i
      cases hdr : (p.calls[i]?).bind drawsAt with
      | none =>
        rw [hdr] at hd
        congr 1
        refine List.map_congr_left fun r _ => ?_
        have e1 : posOf p (.step i (r : Int)) = none := by simp only [posOf, hdr]
        have e2 : posOf p' (.step i (r : Int)) = none := by simp only [posOf, ← hd]
        have j1 := j_step hj hl' i r
        have j2 := j_step hj' (by omega) i r
        rw [e1, Option.toList_none, List.append_nil] at j1
        rw [e2, Option.toList_none, List.append_nil] at j2
        simp only [e1, e2, rest]
        refine ih _ _ tr tr' s s' j1 j2 htr (ghost_apply p p' i _ _ hg ?_) hs hv hv' (hl1 _)
        intro c0 n h1 h2
        rw [h1, Option.bind_some, h2] at hdr
      | some n0 =>
        rw [hdr] at hd
        obtain ⟨rfl, hnl⟩ := j_draws hj hdr
        generalize hn : c + tr.length + 1 = n at *
        have hmod : ∀ r : Nat, (((r : Int)).tmod (n : Int)).toNat = r % n := by
          intro r; rw [Int.tmod_eq_emod_of_nonneg (by omega)]; exact_mod_cast rfl
        have e1 : ∀ r : Nat, posOf p (.step i (r : Int)) = if accepts n r then some (r % n) else none := by
          intro r; simp only [posOf, hdr, hmod]
        have e2 : ∀ r : Nat, posOf p' (.step i (r : Int)) = if accepts n r then some (r % n) else none := by
          intro r; simp only [posOf, ← hd, hmod]
        have hga : ∀ r r' : Nat, accepts n r = accepts n r' →
            ghost (guarded.machine.apply p (.step i (r : Int))) = ghost (guarded.machine.apply p' (.step i (r' : Int))) := by
          intro r r' h
          refine ghost_apply p p' i _ _ hg ?_
          intro c0 m h1 h2
          rw [h1] at hdr; simp only [Option.bind_some, h2, Option.some.injEq] at hdr
          subst hdr; exact h
        have j1 := fun r : Nat => j_step hj hl' i r
        have j2 := fun r : Nat => j_step hj' (by omega) i r
        -- the words rejected
        have hrej : ∀ r : Nat, accepts n r = false → cnt M (guarded.machine.apply p (.step i (r : Int))) es B s =
            cnt M (guarded.machine.apply p' (.step i (r : Int))) es B s' := by
          intro r h
          have a1 := j1 r
          have a2 := j2 r
          simp only [e1, e2, h, Bool.false_eq_true, if_false, Option.toList_none, List.append_nil] at a1 a2
          exact ih _ _ tr tr' s s' a1 a2 htr (hga r r rfl) hs hv hv' (hl1 _)
        cases s with
        | nil =>
          have hs' : s' = [] := List.length_eq_zero_iff.1 (by simpa using hs.symm)
          subst hs'
          congr 1
          refine List.map_congr_left fun r _ => ?_
          rw [e1, e2]
          cases h : accepts n r with
          | true => simp [rest]
          | false => simpa [rest] using hrej r h
        | cons k t =>
          cases s' with
          | nil => simp at hs
          | cons k' t' =>
            have hk : k < n := by have := valid_split hv; omega
            have hk' : k' < n := by have := valid_split hv'; omega
            have hsp := word_is_position n k hk (by norm_num; omega)
            have hak : ∀ q : Nat, q < n → accepts n q = true := by
              intro q hq
              have := word_is_position n q hq (by norm_num; omega)
              rw [nextRandomPos, nextRandomPos] at this
              by_contra hne
              rw [if_neg hne] at this; simp at this
            have hkm : k % n = k := Nat.mod_eq_of_lt hk
            have hkm' : k' % n = k' := Nat.mod_eq_of_lt hk'
            -- the words accepted
            have hacc : ∀ r r' : Nat, accepts n r = true → accepts n r' = true → r % n = k → r' % n = k' →
                cnt M (guarded.machine.apply p (.step i (r : Int))) es B t = cnt M (guarded.machine.apply p' (.step i (r' : Int))) es B t' := by
              intro r r' h h' hr hr'
              have a1 := j1 r
              have a2 := j2 r'
              simp only [e1, e2, h, h', if_true, Option.toList_some, hr, hr'] at a1 a2
              refine ih _ _ (tr ++ [k]) (tr' ++ [k']) t t' a1 a2 (by simpa using htr) (hga r r' (by rw [h, h'])) (by simpa using hs)
                (by simpa using hv) (by simpa using hv') (hl1 _)
            have split : ∀ (q : P) (j : Nat) (w : List Nat) (D : Nat), (∀ r : Nat, posOf q (.step i (r : Int)) = if accepts n r then some (r % n) else none) →
                (∀ r : Nat, accepts n r = true → r % n = j → cnt M (guarded.machine.apply q (.step i (r : Int))) es B w = D) →
                ((List.range M).map fun r : Nat => match rest (posOf q (.step i (r : Int))) (j :: w) with
                  | none => 0
                  | some t => cnt M (guarded.machine.apply q (.step i (r : Int))) es B t).sum =
                ((List.range M).map fun r : Nat => if accepts n r then 0 else cnt M (guarded.machine.apply q (.step i (r : Int))) es B (j :: w)).sum +
                (List.range M).countP (fun r : Nat => accepts n r && decide (r % n = j)) * D := by
              intro q j w D hq hD
              rw [← sum_ite_const (List.range M) (fun r : Nat => accepts n r && decide (r % n = j)) D
                (fun r => if accepts n r && decide (r % n = j) then D else 0) (fun _ _ => rfl), ← List.sum_map_add]
              congr 1
              refine List.map_congr_left fun r _ => ?_
              rw [hq]
              cases h : accepts n r with
              | false => simp [rest]
              | true =>
                by_cases hj : r % n = j
                · simp [rest, hj, hD r h hj]
                · simp [rest, hj]
            rw [split p k t (cnt M (guarded.machine.apply p (.step i (k : Int))) es B t) e1 ?_,
              split p' k' t' (cnt M (guarded.machine.apply p (.step i (k : Int))) es B t) e2 ?_, hM n k k' hk hk' (by omega)]
            · congr 2
              refine List.map_congr_left fun r _ => ?_
              cases h : accepts n r with
              | true => simp
              | false => simpa using hrej r h
            · intro r h hr
              exact (hacc k r (hak k hk) h hkm hr).symm
            · intro r h hr
              rw [hacc r k' h (hak k' hk') hr hkm', hacc k k' (hak k hk) (hak k' hk') hkm hkm']

end GoMetrics.UniformConc
