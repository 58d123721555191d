import Verif.Model.RWLock
import Verif.Proofs.Pool
/-! # Every interleaving of a guarded object is equivalent to a sequential history -/
namespace GoMetrics
namespace Guarded
variable {S A L I R Q K V : Type} {G : Guarded S A L I R Q K V}

/-- Part of a writing method: from local state `l` to local state `l'`. -/
inductive Part (G : Guarded S A L I R Q K V) : S → L → List I → S → L → Prop
  | nil {s l} : Part G s l [] s l
  | snoc {s l xs s' l' x s'' l''} : Part G s l xs s' l' → G.wstep s' x l' = (s'', .inl l'') → Part G s l (xs ++ [x]) s'' l''

theorem Part.finish {s l xs s' l'} (h : Part G s l xs s' l') : ∀ {ys s'' r}, G.Alone s' l' ys s'' r → G.Alone s l (xs ++ ys) s'' r := by
  induction h with
  | nil => intro ys s'' r h; exact h
  | snoc _ hs ih =>
    intro ys s'' r h
    rw [List.append_assoc]
    exact ih (.more hs h)

/-- Part of a reading method. -/
inductive Looks (G : Guarded S A L I R Q K V) (s : S) : K → K → Prop
  | nil {k} : Looks G s k k
  | snoc {k k' k''} : Looks G s k k' → G.rstep s k' = .inl k'' → Looks G s k k''

theorem Looks.finish {s k k'} (h : Looks G s k k') : ∀ {v}, G.Sees s k' v → G.Sees s k v := by
  induction h with
  | nil => intro v h; exact h
  | snoc _ hs ih => intro v h; exact ih (.more hs h)

/-- Is this call holding the write lock / the read lock? -/
def wHolds : GuardPC A L I R Q K V → Bool
  | .wIn .. => true
  | .wOut .. => true
  | _ => false
def rHolds : GuardPC A L I R Q K V → Bool
  | .rIn .. => true
  | .rOut .. => true
  | _ => false

/-- Arguments and result of a writing call whose critical section is over. -/
def wEntry : GuardPC A L I R Q K V → Option (A × R)
  | .wOut a r => some (a, r)
  | .wDone a r => some (a, r)
  | _ => none

/-- The invariant. `sq` is the object after the completed critical sections. -/
structure Inv (G : Guarded S A L I R Q K V) (s0 : S) (p : Pool (Guard S A I R) (GuardPC A L I R Q K V)) : Prop where
  writer : (p.calls.filter wHolds).length = if p.shared.writer then 1 else 0
  readers : (p.calls.filter rHolds).length = p.shared.readers
  excl : p.shared.writer = true → p.shared.readers = 0
  seq : ∃ sq, G.Sequential s0 p.shared.log sq ∧
    (∀ a ins l, GuardPC.wIn a ins l ∈ p.calls → Part G sq (G.enter a) ins p.shared.obj l) ∧
    ((∀ a ins l, GuardPC.wIn a ins l ∉ p.calls) → p.shared.obj = sq)
  reads : ∀ q k, GuardPC.rIn q k ∈ p.calls → Looks G p.shared.obj (G.look q) k
  logged : (p.shared.log.map fun e => (e.1, e.2.2)).Perm (p.calls.filterMap wEntry)

theorem inv_init (s0 : S) : Inv G s0 (init s0) := by
  refine ⟨by simp [init, Machine.start], by simp [init, Machine.start], by simp [init, Machine.start], ⟨s0, .nil, ?_, ?_⟩, ?_, ?_⟩
  all_goals simp [init, Machine.start]

private theorem length_filter_replace {α : Type} (f : α → Bool) (pre post : List α) (c c' : α) :
    ((pre ++ c' :: post).filter f).length + (if f c then 1 else 0) = ((pre ++ c :: post).filter f).length + (if f c' then 1 else 0) := by
  simp only [List.filter_append, List.filter_cons, List.length_append]
  cases f c <;> cases f c' <;> simp <;> omega

private theorem mem_replace {α : Type} {pre post : List α} {c c' d : α} (h : d ∈ pre ++ c' :: post) (hne : d ≠ c') :
    d ∈ pre ++ c :: post := by
  simp only [List.mem_append, List.mem_cons] at h ⊢
  rcases h with h | h | h
  · exact Or.inl h
  · exact absurd h hne
  · exact Or.inr (Or.inr h)

private theorem filterMap_replace {α β : Type} (f : α → Option β) (pre post : List α) (c c' : α) (h : f c' = f c) :
    (pre ++ c' :: post).filterMap f = (pre ++ c :: post).filterMap f := by
  simp [List.filterMap_cons, h]

private theorem perm_replace {α β : Type} {f : α → Option β} {pre post : List α} {c c' : α} {l : List β} (h : f c' = f c)
    (hp : l.Perm ((pre ++ c :: post).filterMap f)) : l.Perm ((pre ++ c' :: post).filterMap f) := by
  rw [filterMap_replace f pre post c c' h]; exact hp

private theorem mem_replace_old {α : Type} {pre post : List α} {c c' d : α} (h : d ∈ pre ++ c :: post) (hne : d ≠ c) :
    d ∈ pre ++ c' :: post := by
  simp only [List.mem_append, List.mem_cons] at h ⊢
  rcases h with h | h | h
  · exact Or.inl h
  · exact absurd h hne
  · exact Or.inr (Or.inr h)

private theorem mem_mid {α : Type} (pre post : List α) (c : α) : c ∈ pre ++ c :: post := by simp

/-- If nobody else holds the write lock, no other call is inside. -/
private theorem no_other {pre post : List (GuardPC A L I R Q K V)} {c : GuardPC A L I R Q K V} (hc : wHolds c = true)
    (h : ((pre ++ c :: post).filter wHolds).length ≤ 1) : ∀ d ∈ pre ++ post, wHolds d = false := by
  intro d hd
  by_contra hne
  have hd' : d ∈ (pre ++ post).filter wHolds := List.mem_filter.2 ⟨hd, by simpa using hne⟩
  have h1 : 0 < ((pre ++ post).filter wHolds).length := List.length_pos_of_mem hd'
  simp only [List.filter_append, List.filter_cons, hc, if_true, List.length_append, List.length_cons] at h h1
  omega

theorem inv_spawn (s0 : S) (s : Guard S A I R) (cs : List (GuardPC A L I R Q K V)) (x : A ⊕ Q) (h : Inv G s0 ⟨s, cs⟩) :
    Inv G s0 ⟨s, cs ++ [G.machine.call x]⟩ := by
  obtain ⟨h1, h2, h3, ⟨sq, h4, h5, h6⟩, h7, h8⟩ := h
  refine ⟨?_, ?_, h3, ⟨sq, h4, ?_, ?_⟩, ?_, ?_⟩
  · cases x <;> simpa [machine, wHolds] using h1
  · cases x <;> simpa [machine, rHolds] using h2
  · intro a ins l hm
    apply h5
    cases x <;> simpa [machine] using hm
  · intro hm
    apply h6
    intro a ins l hx
    exact hm a ins l (List.mem_append_left _ hx)
  · intro q k hm
    apply h7
    cases x <;> simpa [machine] using hm
  · have h0 : [G.machine.call x].filterMap wEntry = [] := by cases x <;> rfl
    rw [List.filterMap_append, h0, List.append_nil]; exact h8

theorem inv_step (s0 : S) (s : Guard S A I R) (pre : List (GuardPC A L I R Q K V)) (c : GuardPC A L I R Q K V)
    (post : List (GuardPC A L I R Q K V)) (x : I) (h : Inv G s0 ⟨s, pre ++ c :: post⟩) :
    Inv G s0 ⟨(G.callStep s x c).1, pre ++ (G.callStep s x c).2 :: post⟩ := by
  have horig := h
  obtain ⟨h1, h2, h3, ⟨sq, h4, h5, h6⟩, h7, h8⟩ := h
  dsimp only at h1 h2 h3 h4 h5 h6 h7 h8
  cases c with
  | wWait a =>
    by_cases hb : s.writer = true ∨ 0 < s.readers
    · simp only [callStep, if_pos hb]; exact horig
    · have hw : s.writer = false := by
        cases hh : s.writer
        · rfl
        · exact absurd (Or.inl hh) hb
      have hr : s.readers = 0 := by
        rcases Nat.eq_zero_or_pos s.readers with h | h
        · exact h
        · exact absurd (Or.inr h) hb
      simp only [callStep, if_neg hb]
      have hno : ∀ a' ins l, GuardPC.wIn a' ins l ∉ pre ++ GuardPC.wWait a :: post := by
        intro a' ins l hm
        have : 0 < ((pre ++ GuardPC.wWait a :: post).filter wHolds).length :=
          List.length_pos_of_mem (List.mem_filter.2 ⟨hm, rfl⟩)
        rw [h1, hw] at this; simp at this
      refine ⟨?_, ?_, fun _ => hr, ⟨sq, h4, ?_, ?_⟩, ?_, ?_⟩
      · have := length_filter_replace (wHolds (A := A) (L := L) (I := I) (R := R) (Q := Q) (K := K) (V := V)) pre post (.wWait a)
          (.wIn a [] (G.enter a))
        rw [h1, hw] at this
        simpa [wHolds] using this
      · have := length_filter_replace (rHolds (A := A) (L := L) (I := I) (R := R) (Q := Q) (K := K) (V := V)) pre post (.wWait a)
          (.wIn a [] (G.enter a))
        rw [h2] at this
        simpa [rHolds] using this
      · intro a' ins l hm
        by_cases he : (GuardPC.wIn a' ins l : GuardPC A L I R Q K V) = GuardPC.wIn a [] (G.enter a)
        · cases he
          rw [h6 hno]; exact .nil
        · exact absurd (mem_replace hm he) (hno a' ins l)
      · intro hm
        exact absurd (mem_mid pre post _) (hm a [] (G.enter a))
      · intro q k hm
        exact h7 q k (mem_replace hm (by simp))
      · exact perm_replace (by rfl) h8
  | wIn a ins l =>
    have hwr : s.writer = true := by
      by_contra hh
      have : 0 < ((pre ++ GuardPC.wIn a ins l :: post).filter wHolds).length :=
        List.length_pos_of_mem (List.mem_filter.2 ⟨mem_mid _ _ _, rfl⟩)
      rw [h1, if_neg hh] at this; exact absurd this (by simp)
    have hr0 := h3 hwr
    have hoth := no_other (c := GuardPC.wIn a ins l) rfl (by rw [h1]; split <;> omega)
    have hnoread : ∀ q k, GuardPC.rIn q k ∉ pre ++ GuardPC.wIn a ins l :: post := by
      intro q k hm
      have : 0 < ((pre ++ GuardPC.wIn a ins l :: post).filter rHolds).length :=
        List.length_pos_of_mem (List.mem_filter.2 ⟨hm, rfl⟩)
      omega
    have hpart := h5 a ins l (mem_mid _ _ _)
    have hw1 : ((pre ++ GuardPC.wIn a ins l :: post).filter wHolds).length = 1 := by rw [h1, if_pos hwr]
    rcases hst : G.wstep s.obj x l with ⟨o, l' | r⟩
    · simp only [callStep, hst]
      refine ⟨?_, ?_, h3, ⟨sq, h4, ?_, ?_⟩, ?_, ?_⟩
      · have := length_filter_replace (wHolds (A := A) (L := L) (I := I) (R := R) (Q := Q) (K := K) (V := V)) pre post
          (.wIn a ins l) (.wIn a (ins ++ [x]) l')
        rw [hw1] at this
        simp only [wHolds, if_true] at this
        simp only [hwr, if_true]; omega
      · have := length_filter_replace (rHolds (A := A) (L := L) (I := I) (R := R) (Q := Q) (K := K) (V := V)) pre post
          (.wIn a ins l) (.wIn a (ins ++ [x]) l')
        rw [h2] at this
        simpa [rHolds] using this
      · intro a' ins' l'' hm
        by_cases he : (GuardPC.wIn a' ins' l'' : GuardPC A L I R Q K V) = GuardPC.wIn a (ins ++ [x]) l'
        · cases he
          exact .snoc hpart hst
        · exfalso
          have hm' : GuardPC.wIn a' ins' l'' ∈ pre ++ post := by
            simp only [List.mem_append, List.mem_cons] at hm ⊢
            rcases hm with hm | hm | hm
            · exact Or.inl hm
            · exact absurd hm he
            · exact Or.inr hm
          have := hoth _ hm'
          simp [wHolds] at this
      · intro hm
        exact absurd (mem_mid pre post _) (hm a (ins ++ [x]) l')
      · intro q k hm
        exact absurd (mem_replace hm (by simp)) (hnoread q k)
      · exact perm_replace (by rfl) h8
    · simp only [callStep, hst]
      have hal : G.Alone sq (G.enter a) (ins ++ [x]) o r := hpart.finish (.last hst)
      refine ⟨?_, ?_, h3, ⟨o, .snoc h4 hal, ?_, fun _ => rfl⟩, ?_, ?_⟩
      · have := length_filter_replace (wHolds (A := A) (L := L) (I := I) (R := R) (Q := Q) (K := K) (V := V)) pre post
          (.wIn a ins l) (.wOut a r)
        rw [hw1] at this
        simp only [wHolds, if_true] at this
        simp only [hwr, if_true]; omega
      · have := length_filter_replace (rHolds (A := A) (L := L) (I := I) (R := R) (Q := Q) (K := K) (V := V)) pre post
          (.wIn a ins l) (.wOut a r)
        rw [h2] at this
        simpa [rHolds] using this
      · intro a' ins' l'' hm
        exfalso
        have hm' : GuardPC.wIn a' ins' l'' ∈ pre ++ post := by
          simp only [List.mem_append, List.mem_cons, reduceCtorEq, false_or] at hm ⊢
          exact hm
        have := hoth _ hm'
        simp [wHolds] at this
      · intro q k hm
        exact absurd (mem_replace hm (by simp)) (hnoread q k)
      · simp only [List.map_append, List.map_cons, List.map_nil, List.filterMap_append, List.filterMap_cons, wEntry] at h8 ⊢
        have h8' := h8.append_right [(a, r)]
        refine h8'.trans ?_
        rw [List.append_assoc]
        exact List.Perm.append_left _ (List.perm_append_comm)
  | wOut a r =>
    simp only [callStep]
    have hwr : s.writer = true := by
      by_contra hh
      have : 0 < ((pre ++ GuardPC.wOut a r :: post).filter wHolds).length :=
        List.length_pos_of_mem (List.mem_filter.2 ⟨mem_mid _ _ _, rfl⟩)
      rw [h1, if_neg hh] at this; exact absurd this (by simp)
    have hw1 : ((pre ++ GuardPC.wOut a r :: post).filter wHolds).length = 1 := by rw [h1, if_pos hwr]
    refine ⟨?_, ?_, by simp, ⟨sq, h4, ?_, ?_⟩, ?_, ?_⟩
    · have := length_filter_replace (wHolds (A := A) (L := L) (I := I) (R := R) (Q := Q) (K := K) (V := V)) pre post
        (.wOut a r) (.wDone a r)
      rw [hw1] at this
      simp only [wHolds] at this
      simp only [Bool.false_eq_true, if_false, if_true] at this ⊢; omega
    · have := length_filter_replace (rHolds (A := A) (L := L) (I := I) (R := R) (Q := Q) (K := K) (V := V)) pre post
        (.wOut a r) (.wDone a r)
      rw [h2] at this
      simpa [rHolds] using this
    · intro a' ins' l hm
      exact h5 a' ins' l (mem_replace hm (by simp))
    · intro hm
      apply h6
      intro a' ins' l hx
      exact hm a' ins' l (mem_replace_old hx (by simp))
    · intro q k hm
      exact h7 q k (mem_replace hm (by simp))
    · exact perm_replace (by rfl) h8
  | wDone a r => simp only [callStep]; exact horig
  | rWait q =>
    by_cases hb : s.writer = true
    · simp only [callStep, if_pos hb]; exact horig
    · simp only [callStep, if_neg hb]
      refine ⟨?_, ?_, fun hh => absurd hh hb, ⟨sq, h4, ?_, ?_⟩, ?_, ?_⟩
      · have := length_filter_replace (wHolds (A := A) (L := L) (I := I) (R := R) (Q := Q) (K := K) (V := V)) pre post (.rWait q)
          (.rIn q (G.look q))
        rw [h1] at this
        simpa [wHolds] using this
      · have := length_filter_replace (rHolds (A := A) (L := L) (I := I) (R := R) (Q := Q) (K := K) (V := V)) pre post (.rWait q)
          (.rIn q (G.look q))
        rw [h2] at this
        simpa [rHolds] using this
      · intro a' ins l hm
        exact h5 a' ins l (mem_replace hm (by simp))
      · intro hm
        apply h6
        intro a' ins' l hx
        exact hm a' ins' l (mem_replace_old hx (by simp))
      · intro q' k hm
        by_cases he : (GuardPC.rIn q' k : GuardPC A L I R Q K V) = GuardPC.rIn q (G.look q)
        · cases he; exact .nil
        · exact h7 q' k (mem_replace hm he)
      · exact perm_replace (by rfl) h8
  | rIn q k =>
    rcases hst : G.rstep s.obj k with k' | v
    · simp only [callStep, hst]
      refine ⟨?_, ?_, h3, ⟨sq, h4, ?_, ?_⟩, ?_, ?_⟩
      · have := length_filter_replace (wHolds (A := A) (L := L) (I := I) (R := R) (Q := Q) (K := K) (V := V)) pre post (.rIn q k) (.rIn q k')
        rw [h1] at this
        simpa [wHolds] using this
      · have := length_filter_replace (rHolds (A := A) (L := L) (I := I) (R := R) (Q := Q) (K := K) (V := V)) pre post (.rIn q k) (.rIn q k')
        rw [h2] at this
        simpa [rHolds] using this
      · intro a' ins l hm
        exact h5 a' ins l (mem_replace hm (by simp))
      · intro hm
        apply h6
        intro a' ins' l hx
        exact hm a' ins' l (mem_replace_old hx (by simp))
      · intro q' k'' hm
        by_cases he : (GuardPC.rIn q' k'' : GuardPC A L I R Q K V) = GuardPC.rIn q k'
        · cases he; exact .snoc (h7 q k (mem_mid _ _ _)) hst
        · exact h7 q' k'' (mem_replace hm he)
      · exact perm_replace (by rfl) h8
    · simp only [callStep, hst]
      refine ⟨?_, ?_, h3, ⟨sq, h4, ?_, ?_⟩, ?_, ?_⟩
      · have := length_filter_replace (wHolds (A := A) (L := L) (I := I) (R := R) (Q := Q) (K := K) (V := V)) pre post (.rIn q k) (.rOut q v)
        rw [h1] at this
        simpa [wHolds] using this
      · have := length_filter_replace (rHolds (A := A) (L := L) (I := I) (R := R) (Q := Q) (K := K) (V := V)) pre post (.rIn q k) (.rOut q v)
        rw [h2] at this
        simpa [rHolds] using this
      · intro a' ins l hm
        exact h5 a' ins l (mem_replace hm (by simp))
      · intro hm
        apply h6
        intro a' ins' l hx
        exact hm a' ins' l (mem_replace_old hx (by simp))
      · intro q' k'' hm
        exact h7 q' k'' (mem_replace hm (by simp))
      · exact perm_replace (by rfl) h8
  | rOut q v =>
    simp only [callStep]
    refine ⟨?_, ?_, ?_, ⟨sq, h4, ?_, ?_⟩, ?_, ?_⟩
    · have := length_filter_replace (wHolds (A := A) (L := L) (I := I) (R := R) (Q := Q) (K := K) (V := V)) pre post (.rOut q v) (.rDone q v)
      rw [h1] at this
      simpa [wHolds] using this
    · have := length_filter_replace (rHolds (A := A) (L := L) (I := I) (R := R) (Q := Q) (K := K) (V := V)) pre post (.rOut q v) (.rDone q v)
      rw [h2] at this
      simp only [rHolds, Bool.false_eq_true, if_true, if_false] at this ⊢; omega
    · intro hh; have := h3 hh; simp only; omega
    · intro a' ins l hm
      exact h5 a' ins l (mem_replace hm (by simp))
    · intro hm
      apply h6
      intro a' ins' l hx
      exact hm a' ins' l (mem_replace_old hx (by simp))
    · intro q' k'' hm
      exact h7 q' k'' (mem_replace hm (by simp))
    · exact perm_replace (by rfl) h8
  | rDone q v => simp only [callStep]; exact horig

theorem inv_run (s0 : S) (es : List (Ev (A ⊕ Q) I)) : Inv G s0 (G.machine.run (init s0) es) :=
  G.machine.inv_run (Inv G s0) (fun s cs a h => inv_spawn s0 s cs a h) (fun s pre c post x h => inv_step s0 s pre c post x h) _
    (inv_init s0) es

/-- In every interleaving the completed critical sections, in the order in which they completed, are a sequential history of the object;
their arguments and results are those of the calls; and as long as nobody is inside, the object is in the state at the end of it. -/
theorem linearizable (s0 : S) (es : List (Ev (A ⊕ Q) I)) :
    let p := G.machine.run (init s0) es
    ∃ sq, G.Sequential s0 p.shared.log sq ∧ (p.shared.log.map fun e => (e.1, e.2.2)).Perm (p.calls.filterMap wEntry) ∧
      (p.shared.writer = false → p.shared.obj = sq) := by
  intro p
  obtain ⟨h1, h2, h3, ⟨sq, h4, h5, h6⟩, h7, h8⟩ := inv_run (G := G) s0 es
  refine ⟨sq, h4, h8, fun hw => h6 fun a ins l hm => ?_⟩
  have : 0 < (p.calls.filter wHolds).length := List.length_pos_of_mem (List.mem_filter.2 ⟨hm, rfl⟩)
  have h1' : (p.calls.filter wHolds).length = if p.shared.writer then 1 else 0 := h1
  rw [h1', hw] at this
  simp at this

theorem log_step (s : Guard S A I R) (x : I) (c : GuardPC A L I R Q K V) : s.log <+: (G.callStep s x c).1.log := by
  cases c <;> simp only [callStep] <;> (repeat' split) <;> simp

/-- The history only grows: it never reorders what has completed. -/
theorem log_prefix (s0 : S) (es es' : List (Ev (A ⊕ Q) I)) :
    (G.machine.run (init s0) es).shared.log <+: (G.machine.run (init s0) (es ++ es')).shared.log := by
  rw [Machine.run_append]
  generalize G.machine.run (init s0) es = p
  induction es' generalizing p with
  | nil => exact List.prefix_rfl
  | cons e es' ih =>
    rw [Machine.run_cons]
    refine List.IsPrefix.trans ?_ (ih _)
    cases e with
    | spawn a => exact List.prefix_rfl
    | step i x =>
      cases hc : p.calls[i]? with
      | none => simp only [Machine.apply, hc]; exact List.prefix_rfl
      | some c => simp only [Machine.apply, hc]; exact log_step _ _ _

theorem Sequential.take {s h s'} (hs : G.Sequential s h s') : ∀ {h'}, h' <+: h → ∃ t, G.Sequential s h' t := by
  induction hs with
  | nil =>
    intro h' hp
    rw [List.prefix_nil.1 hp]; exact ⟨_, .nil⟩
  | snoc h1 h2 ih =>
    intro h' hp
    rcases List.prefix_concat_iff.1 hp with h | h
    · subst h; exact ⟨_, .snoc h1 h2⟩
    · exact ih h

private theorem calls_step_at (p : Pool (Guard S A I R) (GuardPC A L I R Q K V)) (e : Ev (A ⊕ Q) I) (i : Nat) (c : GuardPC A L I R Q K V)
    (hi : p.calls[i]? = some c) :
    (G.machine.apply p e).calls[i]? = some c ∨
      ∃ x, e = .step i x ∧ (G.machine.apply p e) = ⟨(G.callStep p.shared x c).1, p.calls.set i (G.callStep p.shared x c).2⟩ ∧
        (G.machine.apply p e).calls[i]? = some (G.callStep p.shared x c).2 := by
  have hlt : i < p.calls.length := (List.getElem?_eq_some_iff.1 hi).1
  cases e with
  | spawn a =>
    left
    simp only [Machine.apply]
    rw [List.getElem?_append_left hlt]; exact hi
  | step j x =>
    by_cases hij : j = i
    · subst hij
      right
      refine ⟨x, rfl, ?_, ?_⟩
      · simp only [Machine.apply, hi]; rfl
      · simp only [Machine.apply, hi]
        rw [List.getElem?_set_self hlt]; rfl
    · left
      simp only [Machine.apply]
      split
      · exact hi
      · rw [List.getElem?_set_ne hij]; exact hi

/-- Real-time order for writers: a call that starts after `es1` and has completed its critical section has its entry behind everything
that had completed by then. -/
theorem writer_after (s0 : S) (es1 es2 : List (Ev (A ⊕ Q) I)) (a : A) (i : Nat)
    (hi : i = (G.machine.run (init s0) es1).calls.length) (c : GuardPC A L I R Q K V)
    (hc : (G.machine.run (init s0) (es1 ++ .spawn (.inl a) :: es2)).calls[i]? = some c) :
    (c = .wWait a ∨ (∃ ins l, c = .wIn a ins l)) ∨
    ∃ r, (c = .wOut a r ∨ c = .wDone a r) ∧ ∃ pre ins post,
      (G.machine.run (init s0) (es1 ++ .spawn (.inl a) :: es2)).shared.log = pre ++ (a, ins, r) :: post ∧
      (G.machine.run (init s0) es1).shared.log <+: pre := by
  induction es2 using List.reverseRecOn generalizing c with
  | nil =>
    left; left
    have : G.machine.run (init s0) (es1 ++ [.spawn (.inl a)]) = G.machine.apply (G.machine.run (init s0) es1) (.spawn (.inl a)) :=
      Machine.run_snoc _ _ _ _
    rw [this] at hc
    simp only [Machine.apply, hi, List.getElem?_concat_length, machine] at hc
    injection hc with hc
    exact hc.symm
  | append_singleton es2 e ih =>
    have hrun : G.machine.run (init s0) (es1 ++ .spawn (.inl a) :: (es2 ++ [e])) =
        G.machine.apply (G.machine.run (init s0) (es1 ++ .spawn (.inl a) :: es2)) e := by
      rw [← List.cons_append, ← List.append_assoc, Machine.run_snoc]
    have hlog : (G.machine.run (init s0) es1).shared.log <+: (G.machine.run (init s0) (es1 ++ .spawn (.inl a) :: es2)).shared.log :=
      log_prefix s0 es1 _
    have hgrow : (G.machine.run (init s0) (es1 ++ .spawn (.inl a) :: es2)).shared.log <+:
        (G.machine.run (init s0) (es1 ++ .spawn (.inl a) :: (es2 ++ [e]))).shared.log := by
      have := log_prefix (G := G) s0 (es1 ++ .spawn (.inl a) :: es2) [e]
      simpa [List.append_assoc] using this
    have hlt : i < (G.machine.run (init s0) (es1 ++ .spawn (.inl a) :: es2)).calls.length := by
      have hmono : ∀ (es : List (Ev (A ⊕ Q) I)) (p : Pool (Guard S A I R) (GuardPC A L I R Q K V)),
          p.calls.length ≤ (G.machine.run p es).calls.length := by
        intro es
        induction es with
        | nil => intro p; exact le_rfl
        | cons e es ih =>
          intro p
          rw [Machine.run_cons]
          refine le_trans ?_ (ih _)
          cases e with
          | spawn => simp [Machine.apply]
          | step i x =>
            cases hc : p.calls[i]? with
            | none => simp only [Machine.apply, hc]; exact le_rfl
            | some c => simp only [Machine.apply, hc, List.length_set]; exact le_rfl
      rw [Machine.run_append, Machine.run_cons]
      refine lt_of_lt_of_le ?_ (hmono _ _)
      simp [Machine.apply, hi]
    generalize hp : G.machine.run (init s0) (es1 ++ .spawn (.inl a) :: es2) = p at *
    obtain ⟨c0, hc0⟩ : ∃ c0, p.calls[i]? = some c0 := ⟨_, List.getElem?_eq_getElem hlt⟩
    rw [hrun] at hc hgrow ⊢
    have hold := ih c0 hc0
    have lift : ∀ r, (∃ pre ins post, p.shared.log = pre ++ (a, ins, r) :: post ∧ (G.machine.run (init s0) es1).shared.log <+: pre) →
        ∃ pre ins post, (G.machine.apply p e).shared.log = pre ++ (a, ins, r) :: post ∧ (G.machine.run (init s0) es1).shared.log <+: pre := by
      rintro r ⟨pre, ins, post, g1, g2⟩
      obtain ⟨ext, hext⟩ := hgrow
      exact ⟨pre, ins, post ++ ext, by rw [← hext, g1]; simp, g2⟩
    rcases calls_step_at (G := G) p e i c0 hc0 with h | ⟨x, he, happ, hnew⟩
    · rw [h] at hc
      injection hc with hc
      subst hc
      rcases hold with h | ⟨r, h1, h2⟩
      · exact Or.inl h
      · exact Or.inr ⟨r, h1, lift r h2⟩
    · rw [hnew] at hc
      injection hc with hc
      rcases hold with (h | ⟨ins, l, h⟩) | ⟨r, h1, h2⟩
      · left
        subst h
        rw [← hc]
        simp only [callStep]
        split
        · exact Or.inl rfl
        · exact Or.inr ⟨_, _, rfl⟩
      · subst h
        rcases hst : G.wstep p.shared.obj x l with ⟨o, l' | r⟩
        · left; right
          rw [← hc]
          exact ⟨ins ++ [x], l', by simp only [callStep, hst]⟩
        · right
          refine ⟨r, Or.inl ?_, p.shared.log, ins ++ [x], [], ?_, hlog⟩
          · rw [← hc]; simp only [callStep, hst]
          · rw [happ]; simp only [callStep, hst]
      · right
        refine ⟨r, Or.inr ?_, lift r h2⟩
        rcases h1 with h1 | h1 <;> (subst h1; rw [← hc]; rfl)

/-- A reading call that starts after `es1` and has its result saw the object in one moment of the sequential history: after all that had
completed when it started, and possibly some of what completed since. -/
theorem reader_between (s0 : S) (es1 es2 : List (Ev (A ⊕ Q) I)) (q : Q) (i : Nat)
    (hi : i = (G.machine.run (init s0) es1).calls.length) (c : GuardPC A L I R Q K V)
    (hc : (G.machine.run (init s0) (es1 ++ .spawn (.inr q) :: es2)).calls[i]? = some c) :
    (c = .rWait q ∨ ∃ k, c = .rIn q k) ∨
    ∃ v, (c = .rOut q v ∨ c = .rDone q v) ∧ ∃ h sq, (G.machine.run (init s0) es1).shared.log <+: h ∧
      h <+: (G.machine.run (init s0) (es1 ++ .spawn (.inr q) :: es2)).shared.log ∧ G.Sequential s0 h sq ∧ G.Sees sq (G.look q) v := by
  induction es2 using List.reverseRecOn generalizing c with
  | nil =>
    left; left
    have : G.machine.run (init s0) (es1 ++ [.spawn (.inr q)]) = G.machine.apply (G.machine.run (init s0) es1) (.spawn (.inr q)) :=
      Machine.run_snoc _ _ _ _
    rw [this] at hc
    simp only [Machine.apply, hi, List.getElem?_concat_length, machine] at hc
    injection hc with hc
    exact hc.symm
  | append_singleton es2 e ih =>
    have hrun : G.machine.run (init s0) (es1 ++ .spawn (.inr q) :: (es2 ++ [e])) =
        G.machine.apply (G.machine.run (init s0) (es1 ++ .spawn (.inr q) :: es2)) e := by
      rw [← List.cons_append, ← List.append_assoc, Machine.run_snoc]
    have hlog : (G.machine.run (init s0) es1).shared.log <+: (G.machine.run (init s0) (es1 ++ .spawn (.inr q) :: es2)).shared.log :=
      log_prefix s0 es1 _
    have hgrow : (G.machine.run (init s0) (es1 ++ .spawn (.inr q) :: es2)).shared.log <+:
        (G.machine.run (init s0) (es1 ++ .spawn (.inr q) :: (es2 ++ [e]))).shared.log := by
      have := log_prefix (G := G) s0 (es1 ++ .spawn (.inr q) :: es2) [e]
      simpa [List.append_assoc] using this
    have hlt : i < (G.machine.run (init s0) (es1 ++ .spawn (.inr q) :: es2)).calls.length := by
      have hmono : ∀ (es : List (Ev (A ⊕ Q) I)) (p : Pool (Guard S A I R) (GuardPC A L I R Q K V)),
          p.calls.length ≤ (G.machine.run p es).calls.length := by
        intro es
        induction es with
        | nil => intro p; exact le_rfl
        | cons e es ih =>
          intro p
          rw [Machine.run_cons]
          refine le_trans ?_ (ih _)
          cases e with
          | spawn => simp [Machine.apply]
          | step i x =>
            cases hc : p.calls[i]? with
            | none => simp only [Machine.apply, hc]; exact le_rfl
            | some c => simp only [Machine.apply, hc, List.length_set]; exact le_rfl
      rw [Machine.run_append, Machine.run_cons]
      refine lt_of_lt_of_le ?_ (hmono _ _)
      simp [Machine.apply, hi]
    have hinv := inv_run (G := G) s0 (es1 ++ .spawn (.inr q) :: es2)
    obtain ⟨sq, hs1, -, hs3⟩ := linearizable (G := G) s0 (es1 ++ .spawn (.inr q) :: es2)
    generalize hp : G.machine.run (init s0) (es1 ++ .spawn (.inr q) :: es2) = p at *
    obtain ⟨c0, hc0⟩ : ∃ c0, p.calls[i]? = some c0 := ⟨_, List.getElem?_eq_getElem hlt⟩
    rw [hrun] at hc hgrow ⊢
    have hold := ih c0 hc0
    have lift : ∀ v, (∃ h sq, (G.machine.run (init s0) es1).shared.log <+: h ∧ h <+: p.shared.log ∧ G.Sequential s0 h sq ∧ G.Sees sq (G.look q) v) →
        ∃ h sq, (G.machine.run (init s0) es1).shared.log <+: h ∧ h <+: (G.machine.apply p e).shared.log ∧ G.Sequential s0 h sq ∧
          G.Sees sq (G.look q) v := by
      rintro v ⟨h, sq, g1, g2, g3⟩
      exact ⟨h, sq, g1, g2.trans hgrow, g3⟩
    rcases calls_step_at (G := G) p e i c0 hc0 with h | ⟨x, he, happ, hnew⟩
    · rw [h] at hc
      injection hc with hc
      subst hc
      rcases hold with h | ⟨r, h1, h2⟩
      · exact Or.inl h
      · exact Or.inr ⟨r, h1, lift r h2⟩
    · rw [hnew] at hc
      injection hc with hc
      rcases hold with (h | ⟨k, h⟩) | ⟨r, h1, h2⟩
      · left
        subst h
        rw [← hc]
        simp only [callStep]
        split
        · exact Or.inl rfl
        · exact Or.inr ⟨_, rfl⟩
      · subst h
        rcases hst : G.rstep p.shared.obj k with k' | v
        · left; right
          rw [← hc]
          exact ⟨k', by simp only [callStep, hst]⟩
        · right
          have hmem : GuardPC.rIn q k ∈ p.calls := List.mem_of_getElem? hc0
          have hw : p.shared.writer = false := by
            cases hh : p.shared.writer
            · rfl
            · exfalso
              have h0 := hinv.excl hh
              have : 0 < (p.calls.filter rHolds).length := List.length_pos_of_mem (List.mem_filter.2 ⟨hmem, rfl⟩)
              rw [hinv.readers] at this; omega
          refine ⟨v, Or.inl ?_, p.shared.log, sq, hlog, hgrow, hs1, ?_⟩
          · rw [← hc]; simp only [callStep, hst]
          · rw [← hs3 hw]
            exact (hinv.reads q k hmem).finish (.last hst)
      · right
        refine ⟨r, Or.inr ?_, lift r h2⟩
        rcases h1 with h1 | h1 <;> (subst h1; rw [← hc]; rfl)

theorem Alone.det {s : S} {l : L} {ins : List I} {s1 : S} {r1 : R} (h1 : G.Alone s l ins s1 r1) :
    ∀ {s2 r2}, G.Alone s l ins s2 r2 → s1 = s2 ∧ r1 = r2 := by
  induction h1 with
  | last h =>
    intro s2 r2 h2
    cases h2 with
    | last h' =>
      rw [h] at h'
      simp only [Prod.mk.injEq, Sum.inr.injEq] at h'; exact h'
    | more h' h'' => cases h''
  | more h _ ih =>
    intro s2 r2 h2
    cases h2 with
    | last h' => rename_i h''; cases h''
    | more h' h'' =>
      rw [h] at h'
      simp only [Prod.mk.injEq, Sum.inl.injEq] at h'
      obtain ⟨rfl, rfl⟩ := h'
      exact ih h''

theorem Sequential.snoc_inv {s : S} {h : List (A × List I × R)} {a : A} {ins : List I} {r : R} {t : S}
    (hs : G.Sequential s (h ++ [(a, ins, r)]) t) : ∃ s', G.Sequential s h s' ∧ G.Alone s' (G.enter a) ins t r := by
  generalize hh : h ++ [(a, ins, r)] = h' at hs
  cases hs with
  | nil => simp at hh
  | snoc h1 h2 =>
    obtain ⟨e1, e2⟩ := List.append_inj' hh rfl
    simp only [List.cons.injEq, Prod.mk.injEq, and_true] at e2
    obtain ⟨rfl, rfl, rfl⟩ := e2
    subst e1
    exact ⟨_, h1, h2⟩

theorem Sequential.det {s : S} {h : List (A × List I × R)} {s1 : S} (h1 : G.Sequential s h s1) :
    ∀ {s2}, G.Sequential s h s2 → s1 = s2 := by
  induction h1 with
  | nil =>
    intro s2 h2
    generalize hh : ([] : List (A × List I × R)) = h at h2
    cases h2 with
    | nil => rfl
    | snoc => simp at hh
  | snoc _ ha ih =>
    intro s2 h2
    obtain ⟨s', g1, g2⟩ := h2.snoc_inv
    rw [← ih g1] at g2
    exact (ha.det g2).1

/-- If an uninterrupted critical section with arguments `a` has the effect `f · a w` for some `w`, then a sequential history is a sequence of
such effects. -/
theorem Sequential.refine {W : Type} (f : S → A → W → S) (C : List I → W → Prop)
    (hf : ∀ s a ins s' r, G.Alone s (G.enter a) ins s' r → ∃ w, C ins w ∧ s' = f s a w)
    {s0 : S} {log : List (A × List I × R)} {s : S} (h : G.Sequential s0 log s) :
    ∃ hist : List (A × W), hist.map Prod.fst = log.map Prod.fst ∧
      (∀ e ∈ hist, ∃ l ∈ log, C l.2.1 e.2) ∧
      ∀ pre s', pre <+: log → G.Sequential s0 pre s' → s' = (hist.take pre.length).foldl (fun s e => f s e.1 e.2) s0 := by
  induction h with
  | nil =>
    refine ⟨[], rfl, by simp, fun pre s' hp hs => ?_⟩
    rw [List.prefix_nil.1 hp] at hs
    have := hs.det .nil
    simpa using this
  | snoc hs ha ih =>
    rename_i h s1 a ins r s2
    obtain ⟨hist, g1, g2, g3⟩ := ih
    obtain ⟨w, hw1, hw2⟩ := hf _ _ _ _ _ ha
    have hlen : hist.length = h.length := by have := congrArg List.length g1; simpa using this
    refine ⟨hist ++ [(a, w)], by simp [g1], ?_, ?_⟩
    · intro e he
      rcases List.mem_append.1 he with he | he
      · obtain ⟨l, hl1, hl2⟩ := g2 e he
        exact ⟨l, List.mem_append_left _ hl1, hl2⟩
      · rw [List.mem_singleton.1 he]
        exact ⟨(a, ins, r), by simp, hw1⟩
    · intro pre s' hp hs'
      rcases List.prefix_concat_iff.1 hp with h' | h'
      · subst h'
        have : s2 = s' := (Sequential.snoc hs ha).det hs'
        rw [← this, hw2, g3 h s1 List.prefix_rfl hs]
        rw [List.length_append, List.length_singleton, ← hlen, List.take_length, List.take_of_length_le (by simp)]
        simp [List.foldl_append]
      · rw [g3 pre s' h' hs']
        rw [List.take_append_of_le_length]
        rw [hlen]; exact h'.length_le

/-- What holds of all inputs of a schedule holds of the inputs in the log. -/
theorem log_inputs (P : I → Prop) (s0 : S) (es : List (Ev (A ⊕ Q) I)) (hes : ∀ i x, Ev.step i x ∈ es → P x) :
    ∀ e ∈ (G.machine.run (init s0) es).shared.log, ∀ x ∈ e.2.1, P x := by
  have h := G.machine.inv_runE
    (fun _ p => (∀ e ∈ p.shared.log, ∀ x ∈ e.2.1, P x) ∧ ∀ a ins l, GuardPC.wIn a ins l ∈ p.calls → ∀ x ∈ ins, P x)
    (fun e => ∀ i x, e = .step i x → P x) (fun _ _ h => h) ?_ ?_ (init s0) 0 ?_ es ?_
  · exact h.1
  · rintro _ s cs a - ⟨h1, h2⟩
    refine ⟨h1, fun a' ins l hm => h2 a' ins l ?_⟩
    cases a <;> simpa [machine] using hm
  · rintro _ s pre c post x i hx ⟨h1, h2⟩
    have hx := hx i x rfl
    cases c with
    | wIn a ins l =>
      have hins := h2 a ins l (by simp)
      have hnew : ∀ y ∈ ins ++ [x], P y := by
        intro y hy
        rcases List.mem_append.1 hy with hy | hy
        · exact hins y hy
        · rw [List.mem_singleton.1 hy]; exact hx
      rcases hst : G.wstep s.obj x l with ⟨o, l' | r⟩
      · simp only [machine, callStep, hst]
        refine ⟨h1, fun a' ins' l'' hm => ?_⟩
        simp only [List.mem_append, List.mem_cons, GuardPC.wIn.injEq] at hm
        rcases hm with hm | ⟨rfl, rfl, rfl⟩ | hm
        · exact h2 a' ins' l'' (by simp [hm])
        · exact hnew
        · exact h2 a' ins' l'' (by simp [hm])
      · simp only [machine, callStep, hst]
        refine ⟨fun e he => ?_, fun a' ins' l'' hm => ?_⟩
        · rcases List.mem_append.1 he with he | he
          · exact h1 e he
          · rw [List.mem_singleton.1 he]; exact hnew
        · simp only [List.mem_append, List.mem_cons, reduceCtorEq, false_or] at hm
          exact h2 a' ins' l'' (by rcases hm with hm | hm <;> simp [hm])
    | wWait a =>
      simp only [machine, callStep]
      split
      · exact ⟨h1, h2⟩
      · refine ⟨h1, fun a' ins' l'' hm => ?_⟩
        simp only [List.mem_append, List.mem_cons, GuardPC.wIn.injEq] at hm
        rcases hm with hm | ⟨-, h, -⟩ | hm
        · exact h2 a' ins' l'' (by simp [hm])
        · rw [h]; simp
        · exact h2 a' ins' l'' (by simp [hm])
    | _ =>
      simp only [machine, callStep]
      (repeat' split) <;>
      exact ⟨h1, fun a' ins' l'' hm => h2 a' ins' l'' (by
        simp only [List.mem_append, List.mem_cons, reduceCtorEq, false_or] at hm ⊢; exact hm)⟩
  · simp [init, Machine.start]
  · intro e he i x hx; subst hx; exact hes i x he

/-- The arguments of the writing calls that are through (have at most the unlocking left to do). -/
def written (p : Pool (Guard S A I R) (GuardPC A L I R Q K V)) : List A :=
  p.calls.filterMap fun
    | .wOut a _ => some a
    | .wDone a _ => some a
    | _ => none

theorem written_eq (p : Pool (Guard S A I R) (GuardPC A L I R Q K V)) : written p = (p.calls.filterMap wEntry).map Prod.fst := by
  unfold written
  rw [List.map_filterMap]
  congr 1
  funext c
  cases c <;> rfl

theorem written_log (s0 : S) (es : List (Ev (A ⊕ Q) I)) :
    ((G.machine.run (init s0) es).shared.log.map Prod.fst).Perm (written (G.machine.run (init s0) es)) := by
  obtain ⟨sq, h1, h2, h3⟩ := linearizable (G := G) s0 es
  rw [written_eq]
  have := h2.map Prod.fst
  rw [List.map_map] at this
  exact this

/-- **Linearizability.** For every interleaving `es` there is one order `hist` of the writing calls that are through such that: the object is, whenever no
writer is inside, what they leave behind one after the other; whatever was through after a part `es1` of the schedule comes first; and every
reading call answers as on the object after some first part of that order, containing at least what was through when the call began. -/
theorem linearization {W : Type} (f : S → A → W → S) (C : List I → W → Prop)
    (hf : ∀ s a ins s' r, G.Alone s (G.enter a) ins s' r → ∃ w, C ins w ∧ s' = f s a w) (s0 : S) (es : List (Ev (A ⊕ Q) I)) :
    ∃ hist : List (A × W), (hist.map Prod.fst).Perm (written (G.machine.run (init s0) es)) ∧
      (∀ e ∈ hist, ∃ ins, (∀ x ∈ ins, ∃ i, Ev.step i x ∈ es) ∧ C ins e.2) ∧
      ((G.machine.run (init s0) es).shared.writer = false →
        (G.machine.run (init s0) es).shared.obj = hist.foldl (fun s e => f s e.1 e.2) s0) ∧
      (∀ es1 es2, es = es1 ++ es2 →
        ((hist.take (written (G.machine.run (init s0) es1)).length).map Prod.fst).Perm (written (G.machine.run (init s0) es1))) ∧
      (∀ es1 q es2 v, es = es1 ++ .spawn (.inr q) :: es2 →
        ((G.machine.run (init s0) es).calls[(G.machine.run (init s0) es1).calls.length]? = some (.rOut q v) ∨
         (G.machine.run (init s0) es).calls[(G.machine.run (init s0) es1).calls.length]? = some (.rDone q v)) →
        ∃ k, (written (G.machine.run (init s0) es1)).length ≤ k ∧ k ≤ hist.length ∧
          G.Sees ((hist.take k).foldl (fun s e => f s e.1 e.2) s0) (G.look q) v) := by
  obtain ⟨sq, h1, h2, h3⟩ := linearizable (G := G) s0 es
  obtain ⟨hist, g1, g2, g3⟩ := h1.refine f C hf
  have hlen : hist.length = (G.machine.run (init s0) es).shared.log.length := by
    have := congrArg List.length g1; simpa using this
  have hw : ∀ es1, (written (G.machine.run (init s0) es1)).length = (G.machine.run (init s0) es1).shared.log.length := by
    intro es1
    have := (written_log (G := G) s0 es1).length_eq
    simpa using this.symm
  refine ⟨hist, ?_, ?_, ?_, ?_, ?_⟩
  · rw [g1]; exact written_log s0 es
  · intro e he
    obtain ⟨l, hl1, hl2⟩ := g2 e he
    exact ⟨l.2.1, log_inputs (G := G) (fun x => ∃ i, Ev.step i x ∈ es) s0 es (fun i x h => ⟨i, h⟩) l hl1, hl2⟩
  · intro hwr
    rw [h3 hwr, g3 _ sq List.prefix_rfl h1, ← hlen, List.take_length]
  · intro es1 es2 he
    have hp : (G.machine.run (init s0) es1).shared.log <+: (G.machine.run (init s0) es).shared.log := by
      rw [he]; exact log_prefix s0 es1 es2
    rw [hw es1, List.map_take, g1, ← List.map_take, ← List.prefix_iff_eq_take.1 hp]
    exact written_log s0 es1
  · intro es1 q es2 v he hc
    have key : ∀ c, (G.machine.run (init s0) es).calls[(G.machine.run (init s0) es1).calls.length]? = some c → (c = .rOut q v ∨ c = .rDone q v) →
        ∃ h sq, (G.machine.run (init s0) es1).shared.log <+: h ∧ h <+: (G.machine.run (init s0) es).shared.log ∧ G.Sequential s0 h sq ∧
          G.Sees sq (G.look q) v := by
      intro c hc hcc
      rw [he] at hc ⊢
      rcases reader_between (G := G) s0 es1 es2 q _ rfl c hc with (h | ⟨k, h⟩) | ⟨v', hv, hh⟩
      · subst h; rcases hcc with h | h <;> cases h
      · subst h; rcases hcc with h | h <;> cases h
      · have : v' = v := by
          rcases hv with hv | hv <;> rcases hcc with h | h <;> (rw [hv] at h; cases h) <;> rfl
        rw [← this]; exact hh
    obtain ⟨h, sq, k1, k2, k3, k4⟩ : ∃ h sq, (G.machine.run (init s0) es1).shared.log <+: h ∧ h <+: (G.machine.run (init s0) es).shared.log ∧
        G.Sequential s0 h sq ∧ G.Sees sq (G.look q) v := by
      rcases hc with hc | hc
      · exact key _ hc (Or.inl rfl)
      · exact key _ hc (Or.inr rfl)
    refine ⟨h.length, ?_, ?_, ?_⟩
    · rw [hw]; exact k1.length_le
    · rw [hlen]; exact k2.length_le
    · rw [← g3 h sq k2 k3]; exact k4

end Guarded
end GoMetrics
