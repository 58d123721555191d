import Verif.Props.FastCompassConc
import Verif.Props.BucketWild
/-! # Every category's counter is a bucket counter in a run of its own, also while a `Record` is inside -/
namespace GoMetrics
namespace FastCompassConc
open BucketCounter (Call)

abbrev GPC := GuardPC Arg (Arg × RecPC) Int Bool Empty Empty Empty

/-- Calls that have got as far as a counter, or are through. -/
def begun : GPC → Option Arg
  | .wIn a _ (_, .update _) => some a
  | .wOut a _ => some a
  | .wDone a _ => some a
  | _ => none

/-- What these may have added to the counter of a category. -/
def amounts (cat : String) (cs : List GPC) : List Int :=
  ((cs.filterMap begun).filter fun a => decide (a.subCategory = cat ∧ 0 ≤ a.duration)).map fun a => FastCompass.packed a.duration

theorem amounts_append (cat : String) (l l' : List GPC) : amounts cat (l ++ l') = amounts cat l ++ amounts cat l' := by
  simp [amounts, List.filterMap_append]

theorem amounts_cons (cat : String) (c : GPC) (l : List GPC) : amounts cat (c :: l) = amounts cat [c] ++ amounts cat l :=
  amounts_append cat [c] l

theorem amounts_same {c c' : GPC} (h : begun c' = begun c) (cat : String) (pre post : List GPC) :
    amounts cat (pre ++ c' :: post) = amounts cat (pre ++ c :: post) := by
  simp only [amounts, List.filterMap_append, List.filterMap_cons, h]

theorem amounts_new {c c' : GPC} (h : begun c = none) (cat : String) (pre post : List GPC) :
    (amounts cat (pre ++ c :: post) ++ amounts cat [c']).Perm (amounts cat (pre ++ c' :: post)) := by
  have e : amounts cat [c] = [] := by simp [amounts, h]
  rw [amounts_append, amounts_append, amounts_cons cat c post, amounts_cons cat c' post, e, List.nil_append, List.append_assoc]
  exact (List.perm_append_comm).append_left _

theorem amounts_le {c c' : GPC} (h : begun c' = begun c ∨ begun c = none) (cat : String) (pre post : List GPC) :
    (amounts cat (pre ++ c :: post)).Subperm (amounts cat (pre ++ c' :: post)) := by
  rcases h with h | h
  · rw [amounts_same h]
  · exact (List.sublist_append_left _ _).subperm.trans (amounts_new h cat pre post).subperm

/-- The counter `b` of category `cat` is what the run `es` of a bucket counter, made at `t0`, leaves. -/
def Wit (I : Int) (N : Nat) (cs : List GPC) (cat : String) (b : BucketCounter) (t0 : Int) (es : List (Ev Int Int)) : Prop :=
  (BucketCounter.after I N t0 false es).shared = b ∧ ((BucketCounter.after I N t0 false es).calls.map Call.n).Subperm (amounts cat cs) ∧
    ∀ a ins a' c, GuardPC.wIn a ins (a', .update c) ∈ cs → a.subCategory = cat → ∃ ks, (BucketCounter.after I N t0 false es).calls = ks ++ [c]

/-- Before its category is in the map. -/
def RecPC.early : RecPC → Bool
  | .limit | .make | .insert _ => true
  | _ => false

structure CatInv (I : Int) (N : Nat) (p : Pool (Guard FastCompass Arg Int Bool) GPC) : Prop where
  interval : p.shared.obj.bucketInterval = I
  number : p.shared.obj.numberOfBuckets = N
  wf : p.shared.obj.subCategories.WF
  inside : ∀ a ins l, GuardPC.wIn a ins l ∈ p.calls → l.1 = a ∧ (l.2 ≠ .check → 0 ≤ a.duration) ∧ (∀ b, l.2 = .insert b → ∃ t0, b = BucketCounter.new I N t0 false) ∧
    (l.2.early = true → p.shared.obj.subCategories.get? a.subCategory = none)
  cats : ∀ cat b, p.shared.obj.subCategories.get? cat = some b → ∃ t0 es, Wit I N p.calls cat b t0 es

/-- The counters go on. -/
def Grow (I : Int) (N : Nat) (p p' : Pool (Guard FastCompass Arg Int Bool) GPC) : Prop :=
  ∀ cat b t0 es, p.shared.obj.subCategories.get? cat = some b → Wit I N p.calls cat b t0 es →
    ∃ d b', p'.shared.obj.subCategories.get? cat = some b' ∧ Wit I N p'.calls cat b' t0 (es ++ d)

theorem Wit.keep {I : Int} {N : Nat} {cs cs' : List GPC} {cat : String} {b : BucketCounter} {t0 : Int} {es : List (Ev Int Int)} (h : Wit I N cs cat b t0 es)
    (hs : (amounts cat cs).Subperm (amounts cat cs'))
    (hu : ∀ a ins a' c, GuardPC.wIn a ins (a', .update c) ∈ cs' → a.subCategory = cat → GuardPC.wIn a ins (a', .update c) ∈ cs) : Wit I N cs' cat b t0 es :=
  ⟨h.1, h.2.1.trans hs, fun a ins a' c hm ha => h.2.2 a ins a' c (hu a ins a' c hm ha) ha⟩

/-- What is in the map after a step was there before, or is new. -/
theorem cats_of_grow {I : Int} {N : Nat} {p p' : Pool (Guard FastCompass Arg Int Bool) GPC} (h : CatInv I N p) (hg : Grow I N p p')
    (hnew : ∀ cat b, p'.shared.obj.subCategories.get? cat = some b → p.shared.obj.subCategories.get? cat = none → ∃ t0 es, Wit I N p'.calls cat b t0 es) :
    ∀ cat b, p'.shared.obj.subCategories.get? cat = some b → ∃ t0 es, Wit I N p'.calls cat b t0 es := by
  intro cat b hb
  cases ho : p.shared.obj.subCategories.get? cat with
  | none => exact hnew cat b hb ho
  | some b0 =>
    obtain ⟨t0, es, hw⟩ := h.cats cat b0 ho
    obtain ⟨d, b', h1, h2⟩ := hg cat b0 t0 es ho hw
    rw [hb, Option.some.injEq] at h1
    subst h1
    exact ⟨t0, _, h2⟩

private theorem mem_new {α : Type} {pre post : List α} {c c' d : α} (h : d ∈ pre ++ c' :: post) (hne : d ≠ c') : d ∈ pre ++ c :: post := by
  simp only [List.mem_append, List.mem_cons] at h ⊢
  rcases h with h | h | h
  · exact .inl h
  · exact absurd h hne
  · exact .inr (.inr h)

/-- A call that does not become one inside changes nothing but that it may be through. -/
theorem catInv_out {I : Int} {N : Nat} {s s' : Guard FastCompass Arg Int Bool} {pre post : List GPC} {c c' : GPC} (h : CatInv I N ⟨s, pre ++ c :: post⟩)
    (ho : s'.obj = s.obj) (hb : begun c' = begun c ∨ begun c = none) (hi : ∀ a ins l, c' ≠ .wIn a ins l) :
    CatInv I N ⟨s', pre ++ c' :: post⟩ ∧ Grow I N ⟨s, pre ++ c :: post⟩ ⟨s', pre ++ c' :: post⟩ := by
  have hg : Grow I N ⟨s, pre ++ c :: post⟩ ⟨s', pre ++ c' :: post⟩ := by
    intro cat b t0 es hget hw
    dsimp only at hget hw ⊢
    refine ⟨[], b, by rw [ho]; exact hget, ?_⟩
    rw [List.append_nil]
    exact hw.keep (amounts_le hb cat pre post) fun a ins a' k hm _ => mem_new hm fun e => hi a ins _ e.symm
  refine ⟨?_, hg⟩
  have hcats := cats_of_grow h hg (fun cat b h1 h2 => by dsimp only at h1 h2; rw [ho, h2] at h1; simp at h1)
  obtain ⟨h1, h2, h3, h4, h5⟩ := h
  dsimp only at h1 h2 h3 h4 h5
  refine ⟨by rw [ho]; exact h1, by rw [ho]; exact h2, by rw [ho]; exact h3, fun a ins l hm => ?_, hcats⟩
  dsimp only
  rw [ho]
  exact h4 a ins l (mem_new hm fun e => hi a ins l e.symm)

/-- The call inside goes on, but not into a counter. -/
theorem catInv_on {I : Int} {N : Nat} {s s' : Guard FastCompass Arg Int Bool} {pre post : List GPC} {c : GPC} {a : Arg} {ins : List Int} {pc : RecPC}
    (h : CatInv I N ⟨s, pre ++ c :: post⟩) (ho : s'.obj = s.obj) (hb : begun c = none) (hu : ∀ k, pc ≠ .update k) (hd : pc ≠ .check → 0 ≤ a.duration)
    (hins : ∀ b, pc = .insert b → ∃ t0, b = BucketCounter.new I N t0 false) (hearly : pc.early = true → s.obj.subCategories.get? a.subCategory = none) :
    CatInv I N ⟨s', pre ++ .wIn a ins (a, pc) :: post⟩ ∧ Grow I N ⟨s, pre ++ c :: post⟩ ⟨s', pre ++ .wIn a ins (a, pc) :: post⟩ := by
  have hg : Grow I N ⟨s, pre ++ c :: post⟩ ⟨s', pre ++ .wIn a ins (a, pc) :: post⟩ := by
    intro cat b t0 es hget hw
    dsimp only at hget hw ⊢
    refine ⟨[], b, by rw [ho]; exact hget, ?_⟩
    rw [List.append_nil]
    refine hw.keep (amounts_le (.inr hb) cat pre post) fun a' ins' a'' k hm _ => mem_new hm fun e => ?_
    cases e
    exact hu k rfl
  refine ⟨?_, hg⟩
  have hcats := cats_of_grow h hg (fun cat b h1 h2 => by dsimp only at h1 h2; rw [ho, h2] at h1; simp at h1)
  obtain ⟨h1, h2, h3, h4, h5⟩ := h
  dsimp only at h1 h2 h3 h4 h5
  refine ⟨by rw [ho]; exact h1, by rw [ho]; exact h2, by rw [ho]; exact h3, fun a' ins' l hm => ?_, hcats⟩
  dsimp only
  rw [ho]
  by_cases e : (GuardPC.wIn a' ins' l : GPC) = .wIn a ins (a, pc)
  · cases e
    exact ⟨rfl, hd, hins, hearly⟩
  · exact h4 a' ins' l (mem_new hm e)

/-- The call inside goes into a counter: that of its category. -/
theorem catInv_in {I : Int} {N : Nat} {s : Guard FastCompass Arg Int Bool} {pre post : List GPC} {c : GPC} {a : Arg} {ins : List Int} {subs : GoMap String BucketCounter}
    (h : CatInv I N ⟨s, pre ++ c :: post⟩) (hno : ∀ a ins l, GuardPC.wIn a ins l ∉ pre ++ post) (hb : begun c = none) (hd : 0 ≤ a.duration)
    (hw : subs.WF) (hold : ∀ cat b, s.obj.subCategories.get? cat = some b → subs.get? cat = some b)
    (hsubs : ∀ cat b, subs.get? cat = some b → s.obj.subCategories.get? cat = none → cat = a.subCategory ∧ ∃ t0, b = BucketCounter.new I N t0 false) :
    CatInv I N ⟨{ s with obj := { s.obj with subCategories := subs } }, pre ++ .wIn a ins (a, .update ⟨FastCompass.packed a.duration, .start⟩) :: post⟩ ∧
    Grow I N ⟨s, pre ++ c :: post⟩
      ⟨{ s with obj := { s.obj with subCategories := subs } }, pre ++ .wIn a ins (a, .update ⟨FastCompass.packed a.duration, .start⟩) :: post⟩ := by
  have hmem : ∀ a' ins' l, GuardPC.wIn a' ins' l ∈ pre ++ .wIn a ins (a, .update ⟨FastCompass.packed a.duration, .start⟩) :: post →
      (GuardPC.wIn a' ins' l : GPC) = .wIn a ins (a, .update ⟨FastCompass.packed a.duration, .start⟩) := by
    intro a' ins' l hm
    by_contra e
    simp only [List.mem_append, List.mem_cons] at hm
    rcases hm with hm | hm | hm
    · exact hno a' ins' l (List.mem_append_left _ hm)
    · exact e hm
    · exact hno a' ins' l (List.mem_append_right _ hm)
  have hspawn : ∀ cat b t0 es, a.subCategory = cat → (BucketCounter.after I N t0 false es).shared = b →
      ((BucketCounter.after I N t0 false es).calls.map Call.n).Subperm (amounts cat (pre ++ c :: post)) →
      Wit I N (pre ++ .wIn a ins (a, .update ⟨FastCompass.packed a.duration, .start⟩) :: post) cat b t0 (es ++ [.spawn (FastCompass.packed a.duration)]) := by
    intro cat b t0 es hc g1 g2
    have hnew := amounts_new (c' := (.wIn a ins (a, .update ⟨FastCompass.packed a.duration, .start⟩) : GPC)) hb cat pre post
    have e : amounts cat [(.wIn a ins (a, .update ⟨FastCompass.packed a.duration, .start⟩) : GPC)] = [FastCompass.packed a.duration] := by
      simp [amounts, begun, hc, hd]
    refine ⟨?_, ?_, fun a' ins' a'' k hm _ => ?_⟩
    · unfold BucketCounter.after at g1 ⊢
      rw [Machine.run_snoc]
      exact g1
    · have : (BucketCounter.after I N t0 false (es ++ [.spawn (FastCompass.packed a.duration)])).calls.map Call.n =
          (BucketCounter.after I N t0 false es).calls.map Call.n ++ [FastCompass.packed a.duration] := by
        unfold BucketCounter.after
        rw [Machine.run_snoc]
        simp [Machine.apply, BucketCounter.conc]
      rw [this]
      rw [e] at hnew
      exact ((List.subperm_append_right _).2 g2).trans hnew.subperm
    · have e' := hmem a' ins' _ hm
      simp only [GuardPC.wIn.injEq, Prod.mk.injEq, RecPC.update.injEq] at e'
      refine ⟨(BucketCounter.after I N t0 false es).calls, ?_⟩
      rw [e'.2.2.2]
      unfold BucketCounter.after
      rw [Machine.run_snoc]
      rfl
  have hg : Grow I N ⟨s, pre ++ c :: post⟩
      ⟨{ s with obj := { s.obj with subCategories := subs } }, pre ++ .wIn a ins (a, .update ⟨FastCompass.packed a.duration, .start⟩) :: post⟩ := by
    intro cat b t0 es hget hw
    dsimp only at hget hw ⊢
    by_cases hc : a.subCategory = cat
    · exact ⟨_, b, hold cat b hget, hspawn cat b t0 es hc hw.1 hw.2.1⟩
    · refine ⟨[], b, hold cat b hget, ?_⟩
      rw [List.append_nil]
      refine hw.keep (amounts_le (.inr hb) cat pre post) fun a' ins' a'' k hm ha => ?_
      have e' := hmem a' ins' _ hm
      simp only [GuardPC.wIn.injEq] at e'
      rw [e'.1] at ha
      exact absurd ha hc
  refine ⟨?_, hg⟩
  have hcats := cats_of_grow h hg (fun cat b h1 h2 => by
    dsimp only at h1 h2 ⊢
    obtain ⟨hc, t0, hb'⟩ := hsubs cat b h1 h2
    exact ⟨t0, _, hspawn cat b t0 [] hc.symm (by rw [hb']; rfl) List.nil_subperm⟩)
  obtain ⟨h1, h2, h3, h4, h5⟩ := h
  dsimp only at h1 h2 h3 h4 h5
  refine ⟨h1, h2, hw, fun a' ins' l hm => ?_, hcats⟩
  cases hmem a' ins' l hm
  exact ⟨rfl, fun _ => hd, fun b e => by simp at e, fun e => by simp [RecPC.early] at e⟩

private theorem set_last {α : Type} (l : List α) (a b : α) : (l ++ [a]).set l.length b = l ++ [b] := by simp

/-- A step of the call inside a counter. -/
theorem catInv_update {I : Int} {N : Nat} {s : Guard FastCompass Arg Int Bool} {pre post : List GPC} {c' : GPC} {a : Arg} {ins : List Int} {k : Call} {b0 : BucketCounter}
    (x : Int) (log : List (Arg × List Int × Bool)) (h : CatInv I N ⟨s, pre ++ .wIn a ins (a, .update k) :: post⟩) (hno : ∀ a ins l, GuardPC.wIn a ins l ∉ pre ++ post)
    (hg0 : s.obj.subCategories.get? a.subCategory = some b0)
    (hc' : (∃ r, c' = .wOut a r) ∨ c' = .wIn a (ins ++ [x]) (a, .update (BucketCounter.callStep b0 x k).2)) :
    CatInv I N ⟨{ s with obj := { s.obj with subCategories := s.obj.subCategories.set a.subCategory (BucketCounter.callStep b0 x k).1 }, log := log },
      pre ++ c' :: post⟩ ∧
    Grow I N ⟨s, pre ++ .wIn a ins (a, .update k) :: post⟩
      ⟨{ s with obj := { s.obj with subCategories := s.obj.subCategories.set a.subCategory (BucketCounter.callStep b0 x k).1 }, log := log }, pre ++ c' :: post⟩ := by
  have hmem : ∀ a' ins' l, GuardPC.wIn a' ins' l ∈ pre ++ c' :: post → (GuardPC.wIn a' ins' l : GPC) = c' := by
    intro a' ins' l hm
    by_contra e
    simp only [List.mem_append, List.mem_cons] at hm
    rcases hm with hm | hm | hm
    · exact hno a' ins' l (List.mem_append_left _ hm)
    · exact e hm
    · exact hno a' ins' l (List.mem_append_right _ hm)
  have hbeg : begun c' = begun (.wIn a ins (a, .update k)) := by
    rcases hc' with ⟨r, rfl⟩ | rfl <;> rfl
  have hg : Grow I N ⟨s, pre ++ .wIn a ins (a, .update k) :: post⟩
      ⟨{ s with obj := { s.obj with subCategories := s.obj.subCategories.set a.subCategory (BucketCounter.callStep b0 x k).1 }, log := log }, pre ++ c' :: post⟩ := by
    intro cat b t0 es hget hw
    dsimp only at hget hw ⊢
    by_cases hc : a.subCategory = cat
    · subst hc
      rw [hg0, Option.some.injEq] at hget
      subst hget
      obtain ⟨g1, g2, g3⟩ := hw
      obtain ⟨ks, hks⟩ := g3 a ins a k (by simp) rfl
      have hstep : BucketCounter.after I N t0 false (es ++ [.step ks.length x]) =
          ⟨(BucketCounter.callStep b0 x k).1, ks ++ [(BucketCounter.callStep b0 x k).2]⟩ := by
        unfold BucketCounter.after at g1 hks ⊢
        rw [Machine.run_snoc]
        generalize BucketCounter.conc.run (Machine.start (BucketCounter.new I N t0 false)) es = q at *
        have hq : q.calls[ks.length]? = some k := by rw [hks]; simp
        simp only [Machine.apply, hq]
        show Pool.mk (BucketCounter.callStep q.shared x k).1 (q.calls.set ks.length (BucketCounter.callStep q.shared x k).2) = _
        rw [g1, hks, set_last]
      have hn : (BucketCounter.callStep b0 x k).2.n = k.n := by
        unfold BucketCounter.callStep
        obtain ⟨n, pc⟩ := k
        cases pc <;> simp only <;> split <;> rfl
      refine ⟨[.step ks.length x], _, GoMap.get?_set_self _ _ _, by rw [hstep], ?_, fun a' ins' a'' k' hm _ => ?_⟩
      · rw [hstep, amounts_same hbeg]
        rw [hks] at g2
        simpa [hn] using g2
      · have e := hmem a' ins' _ hm
        rw [hstep]
        rcases hc' with ⟨r, rfl⟩ | rfl
        · cases e
        · simp only [GuardPC.wIn.injEq, Prod.mk.injEq, RecPC.update.injEq] at e
          exact ⟨ks, by rw [e.2.2.2]⟩
    · refine ⟨[], b, by rw [GoMap.get?_set_ne _ _ hc]; exact hget, ?_⟩
      rw [List.append_nil]
      refine hw.keep (amounts_le (.inl hbeg) cat pre post) fun a' ins' a'' k' hm ha => ?_
      have e := hmem a' ins' _ hm
      rcases hc' with ⟨r, rfl⟩ | rfl
      · cases e
      · simp only [GuardPC.wIn.injEq] at e
        rw [e.1] at ha
        exact absurd ha hc
  refine ⟨?_, hg⟩
  have hcats := cats_of_grow h hg (fun cat b h1 h2 => by
    dsimp only at h1 h2
    have hc : a.subCategory ≠ cat := by rintro rfl; rw [hg0] at h2; simp at h2
    rw [GoMap.get?_set_ne _ _ hc, h2] at h1
    simp at h1)
  obtain ⟨h1, h2, h3, h4, h5⟩ := h
  dsimp only at h1 h2 h3 h4 h5
  refine ⟨h1, h2, GoMap.wf_set h3 _ _, fun a' ins' l hm => ?_, hcats⟩
  have e := hmem a' ins' l hm
  rcases hc' with ⟨r, rfl⟩ | rfl
  · cases e
  · cases e
    exact ⟨rfl, fun _ => (h4 a ins (a, .update k) (by simp)).2.1 (by simp), fun b e => by simp at e, fun e => by simp [RecPC.early] at e⟩

/-- Nobody else is inside. -/
theorem no_other_in {pre post : List GPC} {s : Guard FastCompass Arg Int Bool} {s0 : FastCompass} {a : Arg} {ins : List Int} {l : Arg × RecPC}
    (h : Guarded.Inv guarded s0 ⟨s, pre ++ .wIn a ins l :: post⟩) (a' : Arg) (ins' : List Int) (l' : Arg × RecPC) : GuardPC.wIn a' ins' l' ∉ pre ++ post := by
  intro hm
  have hw := h.writer
  have hin : (GuardPC.wIn a' ins' l' : GPC) ∈ (pre ++ post).filter Guarded.wHolds := List.mem_filter.2 ⟨hm, rfl⟩
  have := List.length_pos_of_mem hin
  simp only [List.filter_append, List.filter_cons, Guarded.wHolds, if_true, List.length_append, List.length_cons] at hw this
  split at hw <;> omega

/-- One small step. -/
theorem catInv_step {I : Int} {N : Nat} {s0 : FastCompass} (s : Guard FastCompass Arg Int Bool) (pre : List GPC) (c : GPC) (post : List GPC) (x : Int)
    (h0 : Guarded.Inv guarded s0 ⟨s, pre ++ c :: post⟩) (hc : CatInv I N ⟨s, pre ++ c :: post⟩) :
    CatInv I N ⟨(guarded.callStep s x c).1, pre ++ (guarded.callStep s x c).2 :: post⟩ ∧
    Grow I N ⟨s, pre ++ c :: post⟩ ⟨(guarded.callStep s x c).1, pre ++ (guarded.callStep s x c).2 :: post⟩ := by
  have hsame : Grow I N ⟨s, pre ++ c :: post⟩ ⟨s, pre ++ c :: post⟩ := fun cat b t0 es h1 h2 => ⟨[], b, h1, by rw [List.append_nil]; exact h2⟩
  have hin := hc.inside
  have hI := hc.interval
  have hN := hc.number
  dsimp only at hI hN hin
  cases c with
  | wWait a =>
    by_cases hb : s.writer = true ∨ 0 < s.readers
    · simp only [Guarded.callStep, if_pos hb]; exact ⟨hc, hsame⟩
    · simp only [Guarded.callStep, if_neg hb]
      exact catInv_on hc rfl rfl (fun k => by simp) (fun h => by simp at h) (fun b e => by simp at e) (by simp [guarded, RecPC.early])
  | wOut a r => exact catInv_out hc rfl (.inl rfl) (by simp [Guarded.callStep])
  | wDone a r => exact ⟨hc, hsame⟩
  | rWait q => exact q.elim
  | rIn q k => exact q.elim
  | rOut q v => exact q.elim
  | rDone q v => exact q.elim
  | wIn a ins l =>
    obtain ⟨a', pc⟩ := l
    obtain ⟨rfl, hd, hnew, hear⟩ := hin a ins (a', pc) (by simp)
    dsimp only at hd hnew hear
    have hno := no_other_in h0
    cases pc with
    | check =>
      by_cases hv : a'.duration < 0 ∨ a'.subCategory.length = 0
      · simp only [Guarded.callStep, guarded, wstep, if_pos hv]
        exact catInv_out hc rfl (.inr rfl) (by simp)
      · simp only [Guarded.callStep, guarded, wstep, if_neg hv]
        exact catInv_on hc rfl rfl (by simp) (fun _ => by omega) (by simp) (by simp [RecPC.early])
    | lookup =>
      cases hg : s.obj.subCategories.get? a'.subCategory with
      | some b =>
        simp only [Guarded.callStep, guarded, wstep, hg]
        exact catInv_in (subs := s.obj.subCategories) hc hno rfl (hd (by simp)) hc.wf (fun _ _ h => h) (fun cat b h h' => by rw [h] at h'; simp at h')
      | none =>
        simp only [Guarded.callStep, guarded, wstep, hg]
        exact catInv_on hc rfl rfl (by simp) (fun _ => hd (by simp)) (by simp) (fun _ => hg)
    | limit =>
      by_cases hv : (s.obj.subCategories.length : Int) ≥ s.obj.maxSubCategoryCount
      · simp only [Guarded.callStep, guarded, wstep, if_pos hv]
        exact catInv_out hc rfl (.inr rfl) (by simp)
      · simp only [Guarded.callStep, guarded, wstep, if_neg hv]
        exact catInv_on hc rfl rfl (by simp) (fun _ => hd (by simp)) (by simp) (fun _ => hear rfl)
    | make =>
      have e : BucketCounter.newImpl s.obj.bucketInterval s.obj.numberOfBuckets x false = some (BucketCounter.new I N x false) := by
        rw [hI, hN, BucketCounter.newImpl, if_neg (by omega)]; rfl
      simp only [Guarded.callStep, guarded, wstep, e]
      exact catInv_on hc rfl rfl (by simp) (fun _ => hd (by simp)) (fun b e => ⟨x, by simpa using e.symm⟩) (fun _ => hear rfl)
    | insert b =>
      simp only [Guarded.callStep, guarded, wstep]
      obtain ⟨t0, hb⟩ := hnew b rfl
      refine catInv_in hc hno rfl (hd (by simp)) (GoMap.wf_set hc.wf _ _) (fun cat b' h => ?_) fun cat b' h h' => ?_
      · have hcat : a'.subCategory ≠ cat := by rintro rfl; rw [hear rfl] at h; simp at h
        rw [GoMap.get?_set_ne _ _ hcat]
        exact h
      · by_cases hcat : a'.subCategory = cat
        · subst hcat
          rw [GoMap.get?_set_self, Option.some.injEq] at h
          exact ⟨rfl, t0, by rw [← h, hb]⟩
        · rw [GoMap.get?_set_ne _ _ hcat, h'] at h
          simp at h
    | update k =>
      cases hg : s.obj.subCategories.get? a'.subCategory with
      | none =>
        simp only [Guarded.callStep, guarded, wstep, hg]
        exact catInv_out hc rfl (.inl rfl) (by simp)
      | some b =>
        cases hpc : (BucketCounter.callStep b x k).2.pc <;> simp only [Guarded.callStep, guarded, wstep, hg, hpc] <;>
          first
          | exact catInv_update x _ hc hno hg (.inl ⟨_, rfl⟩)
          | exact catInv_update x s.log hc hno hg (.inr rfl)

theorem grow_spawn {I : Int} {N : Nat} (s : Guard FastCompass Arg Int Bool) (cs : List GPC) (a : Arg ⊕ Empty) (hc : CatInv I N ⟨s, cs⟩) :
    CatInv I N ⟨s, cs ++ [guarded.machine.call a]⟩ ∧ Grow I N ⟨s, cs⟩ ⟨s, cs ++ [guarded.machine.call a]⟩ := by
  cases a with
  | inr e => exact e.elim
  | inl a =>
    have hk : ∀ cat b t0 es, Wit I N cs cat b t0 es → Wit I N (cs ++ [guarded.machine.call (.inl a)]) cat b t0 es := fun cat b t0 es h =>
      h.keep (by rw [amounts_append]; exact (List.sublist_append_left _ _).subperm) fun a' ins a'' k hm _ => by simpa [Guarded.machine] using hm
    obtain ⟨h1, h2, h3, h4, h5⟩ := hc
    refine ⟨⟨h1, h2, h3, fun a' ins l hm => h4 a' ins l (by simpa [Guarded.machine] using hm), fun cat b hg => ?_⟩, fun cat b t0 es hg hw => ?_⟩
    · obtain ⟨t0, es, hw⟩ := h5 cat b hg
      exact ⟨t0, es, hk _ _ _ _ hw⟩
    · exact ⟨[], b, hg, by rw [List.append_nil]; exact hk _ _ _ _ hw⟩

theorem both_run (I : Int) (N : Nat) (limit : Int) (es : List (Ev (Arg ⊕ Empty) Int)) :
    Guarded.Inv guarded (FastCompass.new I N limit) (after I N limit es) ∧ CatInv I N (after I N limit es) := by
  refine guarded.machine.inv_run (fun p => Guarded.Inv guarded (FastCompass.new I N limit) p ∧ CatInv I N p) ?_ ?_ (Guarded.init (FastCompass.new I N limit)) ?_ es
  · rintro s cs a ⟨h0, h1⟩
    exact ⟨Guarded.inv_spawn _ s cs a h0, (grow_spawn s cs a h1).1⟩
  · rintro s pre c post x ⟨h0, hc⟩
    exact ⟨Guarded.inv_step _ s pre c post x h0, (catInv_step s pre c post x h0 hc).1⟩
  · refine ⟨Guarded.inv_init _, rfl, rfl, GoMap.wf_nil, ?_, ?_⟩
    · intro a ins l hm; simp [Guarded.init, Machine.start] at hm
    · intro cat b hg; simp [Guarded.init, Machine.start, FastCompass.new] at hg

theorem catInv_run (I : Int) (N : Nat) (limit : Int) (es : List (Ev (Arg ⊕ Empty) Int)) : CatInv I N (after I N limit es) := (both_run I N limit es).2

theorem grow_snoc (I : Int) (N : Nat) (limit : Int) (es : List (Ev (Arg ⊕ Empty) Int)) (e : Ev (Arg ⊕ Empty) Int) :
    Grow I N (after I N limit es) (guarded.machine.apply (after I N limit es) e) := by
  obtain ⟨h0, hc⟩ := both_run I N limit es
  generalize after I N limit es = p at *
  cases e with
  | spawn a => exact (grow_spawn p.shared p.calls a hc).2
  | step i x =>
    cases hi : p.calls[i]? with
    | none =>
      simp only [Machine.apply, hi]
      exact fun cat b t0 es h1 h2 => ⟨[], b, h1, by rw [List.append_nil]; exact h2⟩
    | some c =>
      obtain ⟨pre, post, h1, -, h2⟩ := guarded.machine.apply_step_eq (x := x) hi
      rw [h2]
      obtain ⟨s, cs⟩ := p
      dsimp only at h1
      subst h1
      exact (catInv_step s pre c post x h0 hc).2

end FastCompassConc
end GoMetrics
