import Verif.Spec.UniformConcFair
import Verif.Proofs.RWLock
import Verif.Props.UniformConc
/-! # What a uniform reservoir's calls do does not depend on the positions drawn -/
namespace GoMetrics.UniformConc

/-- The pools. -/
abbrev P := Pool (Guard UniformReservoir Int Int Bool) (GuardPC Int WPC Int Bool Query RPC Answer)

/-- The shared state without values, positions and words. -/
def ghostG (s : Guard UniformReservoir Int Int Bool) : Guard UniformReservoir Int Int Bool where
  writer := s.writer
  readers := s.readers
  obj := ⟨s.obj.count, List.replicate s.obj.values.length 0⟩
  log := s.log.map fun e => (e.1, [], false)

def ghostW : WPC → WPC
  | .store v _ => .store v 0
  | l => l

def ghostR : RPC → RPC
  | .copy done => .copy (List.replicate done.length 0)
  | k => k

/-- A call without values, positions and words. -/
def ghostC : GuardPC Int WPC Int Bool Query RPC Answer → GuardPC Int WPC Int Bool Query RPC Answer
  | .wWait a => .wWait a
  | .wIn a _ l => .wIn a [] (ghostW l)
  | .wOut a _ => .wOut a false
  | .wDone a _ => .wDone a false
  | .rWait q => .rWait q
  | .rIn q k => .rIn q (ghostR k)
  | .rOut q _ => .rOut q (.size 0)
  | .rDone q _ => .rDone q (.size 0)

def ghost (p : P) : P := ⟨ghostG p.shared, p.calls.map ghostC⟩

/-- Does the step draw a word (and with which argument)? -/
def drawsAt : GuardPC Int WPC Int Bool Query RPC Answer → Option Int
  | .wIn _ _ (.draw _ n) => some n
  | _ => none

theorem drawsAt_ghost (c : GuardPC Int WPC Int Bool Query RPC Answer) : drawsAt (ghostC c) = drawsAt c := by
  cases c with
  | wIn a ins l => cases l <;> rfl
  | _ => rfl

theorem ghostG_ext {s s' : Guard UniformReservoir Int Int Bool} (h : ghostG s = ghostG s') :
    s.writer = s'.writer ∧ s.readers = s'.readers ∧ s.obj.count = s'.obj.count ∧ s.obj.values.length = s'.obj.values.length ∧
      s.log.map Prod.fst = s'.log.map Prod.fst := by
  unfold ghostG at h
  simp only [Guard.mk.injEq, UniformReservoir.mk.injEq] at h
  refine ⟨h.1, h.2.1, h.2.2.1.1, ?_, ?_⟩
  · have := congrArg List.length h.2.2.1.2; simpa using this
  · have := congrArg (List.map Prod.fst) h.2.2.2
    rw [List.map_map, List.map_map] at this
    exact this

theorem ghostG_of {s s' : Guard UniformReservoir Int Int Bool} (h1 : s.writer = s'.writer) (h2 : s.readers = s'.readers)
    (h3 : s.obj.count = s'.obj.count) (h4 : s.obj.values.length = s'.obj.values.length) (h5 : s.log.map Prod.fst = s'.log.map Prod.fst) :
    ghostG s = ghostG s' := by
  unfold ghostG
  have e : ∀ l : List (Int × List Int × Bool), l.map (fun e => (e.1, ([] : List Int), false)) = (l.map Prod.fst).map fun a => (a, ([] : List Int), false) := by
    intro l; rw [List.map_map]; rfl
  rw [h1, h2, h3, h4, e, e, h5]

theorem ghost_callStep (s s' : Guard UniformReservoir Int Int Bool) (c c' : GuardPC Int WPC Int Bool Query RPC Answer) (x x' : Int)
    (hs : ghostG s = ghostG s') (hc : ghostC c = ghostC c')
    (hx : ∀ n, drawsAt c = some n → UniformReservoir.accepts n x = UniformReservoir.accepts n x') :
    ghostG (guarded.callStep s x c).1 = ghostG (guarded.callStep s' x' c').1 ∧
      ghostC (guarded.callStep s x c).2 = ghostC (guarded.callStep s' x' c').2 := by
  obtain ⟨h1, h2, h3, h4, h5⟩ := ghostG_ext hs
  cases c with
  | wWait a =>
    cases c' <;> simp only [ghostC, reduceCtorEq, GuardPC.wWait.injEq] at hc
    subst hc
    simp only [Guarded.callStep, h1, h2]
    split
    · exact ⟨hs, rfl⟩
    · exact ⟨ghostG_of rfl rfl h3 h4 h5, rfl⟩
  | wOut a r =>
    cases c' <;> simp only [ghostC, reduceCtorEq, GuardPC.wOut.injEq] at hc
    obtain ⟨rfl, -⟩ := hc
    exact ⟨ghostG_of rfl h2 h3 h4 h5, rfl⟩
  | wDone a r =>
    cases c' <;> simp only [ghostC, reduceCtorEq, GuardPC.wDone.injEq] at hc
    obtain ⟨rfl, -⟩ := hc
    exact ⟨hs, rfl⟩
  | rWait q =>
    cases c' <;> simp only [ghostC, reduceCtorEq, GuardPC.rWait.injEq] at hc
    subst hc
    simp only [Guarded.callStep, h1]
    split
    · exact ⟨hs, rfl⟩
    · exact ⟨ghostG_of rfl (by simp only [h2]) h3 h4 h5, rfl⟩
  | rOut q v =>
    cases c' <;> simp only [ghostC, reduceCtorEq, GuardPC.rOut.injEq] at hc
    obtain ⟨rfl, -⟩ := hc
    exact ⟨ghostG_of h1 (by simp only [Guarded.callStep, h2]) h3 h4 h5, rfl⟩
  | rDone q v =>
    cases c' <;> simp only [ghostC, reduceCtorEq, GuardPC.rDone.injEq] at hc
    obtain ⟨rfl, -⟩ := hc
    exact ⟨hs, rfl⟩
  | rIn q k =>
    cases c' <;> simp only [ghostC, reduceCtorEq, GuardPC.rIn.injEq] at hc
    rename_i q' k'
    obtain ⟨rfl, hk⟩ := hc
    cases k with
    | sizeCmp =>
      cases k' <;> simp only [ghostR, reduceCtorEq] at hk
      simp only [Guarded.callStep, guarded, rstep, h3, h4]
      split <;> rename_i heq <;> split at heq <;> cases heq <;> exact ⟨hs, rfl⟩
    | sizeCount =>
      cases k' <;> simp only [ghostR, reduceCtorEq] at hk
      exact ⟨hs, rfl⟩
    | copy done =>
      cases k' <;> simp only [ghostR, reduceCtorEq, RPC.copy.injEq] at hk
      rename_i done'
      have hl : done.length = done'.length := by have := congrArg List.length hk; simpa using this
      by_cases hlt : done.length < s.obj.values.length
      · have e1 : s.obj.values[done.length]? = some s.obj.values[done.length] := List.getElem?_eq_getElem hlt
        have hlt' : done'.length < s'.obj.values.length := by omega
        have e2 : s'.obj.values[done'.length]? = some s'.obj.values[done'.length] := List.getElem?_eq_getElem hlt'
        simp only [Guarded.callStep, guarded, rstep, e1, e2]
        refine ⟨hs, ?_⟩
        simp only [ghostC, ghostR, List.length_append, List.length_singleton, hl]
      · have e1 : s.obj.values[done.length]? = none := List.getElem?_eq_none (by omega)
        have e2 : s'.obj.values[done'.length]? = none := List.getElem?_eq_none (by omega)
        simp only [Guarded.callStep, guarded, rstep, e1, e2]
        exact ⟨hs, rfl⟩
  | wIn a ins l =>
    cases c' <;> simp only [ghostC, reduceCtorEq, GuardPC.wIn.injEq] at hc
    rename_i a' ins' l'
    obtain ⟨rfl, -, hl⟩ := hc
    have hlog : ∀ (y y' : List Int) (r r' : Bool), (s.log ++ [(a, y, r)]).map Prod.fst = (s'.log ++ [(a, y', r')]).map Prod.fst := by
      intro y y' r r'; rw [List.map_append, List.map_append, h5]; rfl
    cases l with
    | inc v =>
      cases l' <;> simp only [ghostW, reduceCtorEq, WPC.inc.injEq] at hl
      subst hl
      exact ⟨ghostG_of h1 h2 (by simp only [Guarded.callStep, guarded, wstep, h3]) h4 h5, rfl⟩
    | cmp v =>
      cases l' <;> simp only [ghostW, reduceCtorEq, WPC.cmp.injEq] at hl
      subst hl
      refine ⟨hs, ?_⟩
      simp only [Guarded.callStep, guarded, wstep, h3, h4, ghostC]
    | fill v =>
      cases l' <;> simp only [ghostW, reduceCtorEq, WPC.fill.injEq] at hl
      subst hl
      by_cases hp : i64 (s'.obj.count - 1) < 0 ∨ (s'.obj.values.length : Int) ≤ i64 (s'.obj.count - 1)
      · have hp' : i64 (s.obj.count - 1) < 0 ∨ (s.obj.values.length : Int) ≤ i64 (s.obj.count - 1) := by rw [h3, h4]; exact hp
        simp only [Guarded.callStep, guarded, wstep, if_pos hp, if_pos hp']
        exact ⟨ghostG_of h1 h2 h3 h4 (hlog _ _ _ _), trivial⟩
      · have hp' : ¬ (i64 (s.obj.count - 1) < 0 ∨ (s.obj.values.length : Int) ≤ i64 (s.obj.count - 1)) := by rw [h3, h4]; exact hp
        simp only [Guarded.callStep, guarded, wstep, if_neg hp, if_neg hp']
        exact ⟨ghostG_of h1 h2 h3 (by simpa using h4) (hlog _ _ _ _), trivial⟩
    | draw v n =>
      cases l' <;> simp only [ghostW, reduceCtorEq, WPC.draw.injEq] at hl
      obtain ⟨rfl, rfl⟩ := hl
      refine ⟨hs, ?_⟩
      simp only [Guarded.callStep, guarded, wstep, ghostC, hx n rfl]
      cases UniformReservoir.accepts n x' <;> rfl
    | store v idx =>
      cases l' <;> simp only [ghostW, reduceCtorEq, WPC.store.injEq] at hl
      rename_i v' idx'
      obtain ⟨rfl, -⟩ := hl
      have key : ∀ (t : Guard UniformReservoir Int Int Bool) (y : Int) (iy : List Int) (i : Int),
          ∃ r ins'', (ghostG (guarded.callStep t y (.wIn a iy (.store v i))).1 = ghostG { t with log := t.log ++ [(a, ins'', r)] }) ∧
            ghostC (guarded.callStep t y (.wIn a iy (.store v i))).2 = .wOut a false := by
        intro t y iy i
        simp only [Guarded.callStep, guarded, wstep]
        by_cases g1 : i < (t.obj.values.length : Int)
        · by_cases g2 : i < 0
          · simp only [if_pos g1, if_pos g2]; exact ⟨_, _, rfl, rfl⟩
          · simp only [if_pos g1, if_neg g2]
            exact ⟨_, _, ghostG_of rfl rfl rfl (by simp) rfl, rfl⟩
        · simp only [if_neg g1]; exact ⟨_, _, rfl, rfl⟩
      obtain ⟨r, i1, k1, k2⟩ := key s x ins idx
      obtain ⟨r', i1', k1', k2'⟩ := key s' x' ins' idx'
      rw [k1, k2, k1', k2']
      exact ⟨ghostG_of h1 h2 h3 h4 (hlog _ _ _ _), rfl⟩

/-- The control flow after a step depends only on the control flow before, and on whether a word drawn was accepted. -/
theorem ghost_apply (p p' : P) (i : Nat) (x x' : Int) (h : ghost p = ghost p')
    (hx : ∀ c n, p.calls[i]? = some c → drawsAt c = some n → UniformReservoir.accepts n x = UniformReservoir.accepts n x') :
    ghost (guarded.machine.apply p (.step i x)) = ghost (guarded.machine.apply p' (.step i x')) := by
  obtain ⟨s, cs⟩ := p
  obtain ⟨s', cs'⟩ := p'
  simp only [ghost, Pool.mk.injEq] at h
  obtain ⟨hs, hcs⟩ := h
  have hi : (cs[i]?).map ghostC = (cs'[i]?).map ghostC := by rw [← List.getElem?_map, hcs, List.getElem?_map]
  cases hc : cs[i]? with
  | none =>
    cases hc' : cs'[i]? with
    | some c' => rw [hc, hc'] at hi; simp at hi
    | none => simp only [Machine.apply, hc, hc', ghost, hs, hcs]
  | some c =>
    cases hc' : cs'[i]? with
    | none => rw [hc, hc'] at hi; simp at hi
    | some c' =>
      rw [hc, hc'] at hi
      simp only [Option.map_some, Option.some.injEq] at hi
      obtain ⟨k1, k2⟩ := ghost_callStep s s' c c' x x' hs hi (fun n hn => hx c n hc hn)
      simp only [Machine.apply, hc, hc', ghost, Pool.mk.injEq]
      refine ⟨k1, ?_⟩
      rw [List.map_set, List.map_set, hcs]
      exact congrArg _ k2

end GoMetrics.UniformConc
