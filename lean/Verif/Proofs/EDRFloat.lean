import Verif.Proofs.EDRStep
import Verif.Props.EDR
import Verif.Spec.EDRFloat
/-! # A rescale in rounded arithmetic: proofs -/
namespace GoMetrics
open Rounding

namespace F64

theorem le_of_lt' {x y : F64} (h : x.lt y) : x.le y := by
  rcases x with _ | s | a <;> rcases y with _ | s' | b <;>
    (try cases s) <;> (try cases s') <;> simp_all [lt, le]
  exact h.le

theorem lt_of_lt_of_le' {x y z : F64} (h : x.lt y) (h' : y.le z) : x.lt z := by
  rcases x with _ | s | a <;> rcases y with _ | s' | b <;> rcases z with _ | s'' | c <;>
    (try cases s) <;> (try cases s') <;> (try cases s'') <;> simp_all [lt, le]
  exact _root_.lt_of_lt_of_le h h'

theorem le_cases {x y : F64} (h : x.le y) : x.lt y ∨ x = y := by
  rcases x with _ | s | a <;> rcases y with _ | s' | b <;>
    (try cases s) <;> (try cases s') <;> simp_all [lt, le]
  exact lt_or_eq_of_le h

/-- A number the arithmetic can hold: an infinity, or a rational that rounds to itself. -/
def Held (R : Rounding) (x : F64) : Prop := ∀ q, x = .fin q → R.rnd q = .fin q

theorem held_rnd {R : Rounding} (hR : R.Lawful) (q : ℚ) : Held R (R.rnd q) := fun b hb => hR.idem q b hb

theorem held_mul {R : Rounding} (hR : R.Lawful) (x y : F64) : Held R (mul R x y) := by
  rcases x with _ | s | a <;> rcases y with _ | s' | b <;> simp only [mul]
  all_goals first
    | exact held_rnd hR _
    | (intro q h; split at h <;> simp at h)
    | (intro q h; simp at h)

theorem held_div {R : Rounding} (hR : R.Lawful) (x y : F64) : Held R (div R x y) := by
  rcases x with _ | s | a <;> rcases y with _ | s' | b <;> simp only [div]
  all_goals first
    | (intro q h; simp at h; done)
    | (intro q h; rw [← F64.fin.inj h]; exact hR.zero)
    | skip
  split
  · intro q h; split at h <;> simp at h
  · exact held_rnd hR _

/-- Multiplication by a factor in (0,1] keeps the order of non-negative numbers, and does not make them larger. -/
theorem mul_mono {R : Rounding} (hR : R.Lawful) {f : ℚ} (hf : 0 < f) {x y : F64} (hx : x.NonNeg) (h : x.le y) :
    (mul R x (.fin f)).le (mul R y (.fin f)) := by
  rcases x with _ | s | a
  · simp [le] at h
  · cases s
    · rcases y with _ | s' | b
      · simp [le] at h
      · cases s'
        · simp [mul, hf.ne', not_lt.2 hf.le, le]
        · simp [le] at h
      · simp [le] at h
    · simp [NonNeg, lt] at hx
  · rcases y with _ | s' | b
    · simp [le] at h
    · cases s'
      · have h0 : (mul R (.inf false) (.fin f)) = .inf false := by simp [mul, hf.ne', not_lt.2 hf.le]
        rw [h0]
        have hn : mul R (.fin a) (.fin f) ≠ .nan := hR.not_nan _
        rcases hm : mul R (.fin a) (.fin f) with _ | s | q
        · exact absurd hm hn
        · cases s <;> simp [le]
        · simp [le]
      · simp [le] at h
    · exact hR.mono _ _ (mul_le_mul_of_nonneg_right h hf.le)

theorem mul_shrink {R : Rounding} (hR : R.Lawful) {f : ℚ} (hf : 0 < f) (hf1 : f ≤ 1) {x : F64} (hx : x.NonNeg) (hn : x ≠ .nan) (hh : Held R x) :
    (mul R x (.fin f)).le x := by
  rcases nonNeg_cases hx with rfl | rfl | ⟨a, ha, rfl⟩
  · exact absurd rfl hn
  · simp [mul, hf.ne', not_lt.2 hf.le, le]
  · have := hR.mono (a * f) a (mul_le_of_le_one_right ha hf1)
    rwa [hh a rfl] at this

end F64

namespace EDR
open WeightedSample SkipList
variable {A : Arith}

/-- What inserting a sample with the highest key so far does at the end of a list. -/
def insertEnd (s : WeightedSample) : List WeightedSample → List WeightedSample
  | [] => [s]
  | c :: C => if c.key = s.key then [s] else c :: insertEnd s C

theorem insert_end {s : WeightedSample} (C rest : List WeightedSample) (hp : C.Pairwise fun a b => a.key.lt b.key)
    (hC : ∀ c ∈ C, c.key.le s.key) (hr : ∀ x ∈ rest, s.key.lt x.key) : SkipList.insert s (C ++ rest) = insertEnd s C ++ rest := by
  induction C with
  | nil => exact insert_split (pre := []) (by simp) hr
  | cons c C ih =>
    have hp' := List.pairwise_cons.1 hp
    rcases F64.le_cases (hC c (by simp)) with hlt | heq
    · have hne : c.key ≠ s.key := fun h => F64.lt_irrefl s.key (by rw [h] at hlt; exact hlt)
      have hc := (compare_neg c s).2 hlt
      simp only [List.cons_append, SkipList.insert, hc, if_true, insertEnd, hne, if_false]
      rw [ih hp'.2 fun x hx => hC x (List.mem_cons_of_mem _ hx)]
    · have hz : c.compare s = 0 := (compare_zero _ _).2 (by rw [heq]; exact ⟨F64.lt_irrefl _, F64.lt_irrefl _⟩)
      have hC0 : C = [] := by
        cases C with
        | nil => rfl
        | cons d D =>
          have h1 := hp'.1 d (by simp)
          have h2 := hC d (by simp)
          rw [heq] at h1
          exact absurd (F64.lt_of_lt_of_le' h1 h2) (F64.lt_irrefl _)
      subst hC0
      simp [SkipList.insert, insertEnd, hz, heq]

theorem collapse_cons (s e : WeightedSample) (t : List WeightedSample) :
    collapse (s :: e :: t) = if s.key = e.key then collapse (e :: t) else s :: collapse (e :: t) := by rw [collapse]

theorem collapse_ne_nil (s : WeightedSample) (t : List WeightedSample) : collapse (s :: t) ≠ [] := by
  induction t generalizing s with
  | nil => simp [collapse]
  | cons e t ih =>
    rw [collapse_cons]
    split
    · exact ih e
    · simp

theorem collapse_sublist : ∀ l : List WeightedSample, (collapse l).Sublist l
  | [] => List.Sublist.refl _
  | [s] => by simp [collapse]
  | s :: e :: t => by
    rw [collapse_cons]
    split
    · exact (collapse_sublist (e :: t)).cons _
    · exact (collapse_sublist (e :: t)).cons_cons _

theorem collapse_id : ∀ l : List WeightedSample, l.Pairwise (fun a b => a.key ≠ b.key) → collapse l = l
  | [], _ => rfl
  | [s], _ => by simp [collapse]
  | s :: e :: t, h => by
    have hp := List.pairwise_cons.1 h
    rw [collapse_cons, if_neg (hp.1 e (by simp)), collapse_id (e :: t) hp.2]

theorem collapse_snoc (l : List WeightedSample) (s : WeightedSample) (hp : (l ++ [s]).Pairwise fun a b => a.key.le b.key) :
    collapse (l ++ [s]) = insertEnd s (collapse l) := by
  induction l with
  | nil => rfl
  | cons a l ih =>
    have hp' := List.pairwise_cons.1 hp
    cases l with
    | nil =>
      simp only [List.cons_append, List.nil_append, collapse_cons, collapse, insertEnd]
    | cons b l =>
      have ih' := ih hp'.2
      simp only [List.cons_append] at ih' ⊢
      rw [collapse_cons, collapse_cons, ih']
      by_cases hab : a.key = b.key
      · rw [if_pos hab, if_pos hab]
      · rw [if_neg hab, if_neg hab]
        have hne : a.key ≠ s.key := by
          intro h
          have h1 := hp'.1 b (by simp)
          have h2 := (List.pairwise_cons.1 hp'.2).1 s (by simp)
          rcases F64.le_cases h1 with h3 | h3
          · have := F64.lt_of_lt_of_le' h3 h2
            rw [h] at this
            exact F64.lt_irrefl _ this
          · exact hab h3
        simp only [insertEnd, hne, if_false]

theorem collapse_sorted {l : List WeightedSample} (hp : l.Pairwise fun a b => a.key.le b.key) : (collapse l).Pairwise fun a b => a.key.lt b.key := by
  induction l with
  | nil => simp [collapse]
  | cons a l ih =>
    have hp' := List.pairwise_cons.1 hp
    cases l with
    | nil => simp [collapse]
    | cons b l =>
      rw [collapse_cons]
      split
      · exact ih hp'.2
      · rename_i hne
        refine List.pairwise_cons.2 ⟨?_, ih hp'.2⟩
        intro x hx
        have hx' := (collapse_sublist _).subset hx
        have hab : a.key.lt b.key := (F64.le_cases (hp'.1 b (by simp))).resolve_right hne
        rcases List.mem_cons.1 hx' with rfl | hx'
        · exact hab
        · exact F64.lt_of_lt_of_le' hab ((List.pairwise_cons.1 hp'.2).1 x hx')

theorem loop_collapse (hR : A.R.Lawful) {f : ℚ} (hf : 0 < f) (hf1 : f ≤ 1) (rest done : List WeightedSample) (hs : SkipList.Sorted (done ++ rest))
    (hk : KeysNonNeg (done ++ rest)) (hh : ∀ s ∈ done ++ rest, s.key.Held A.R) :
    rescaleLoop A (.fin f) rest (collapse (done.map (scale A (.fin f))) ++ rest) = collapse ((done ++ rest).map (scale A (.fin f))) := by
  induction rest generalizing done with
  | nil => simp [rescaleLoop]
  | cons s t ih =>
    have hp := List.pairwise_append.1 hs.1
    have hp2 := List.pairwise_cons.1 hp.2.1
    have hsm : s ∈ done ++ s :: t := by simp
    have hshr : ∀ x ∈ done ++ s :: t, (scale A (.fin f) x).key.le x.key := fun x hx => F64.mul_shrink hR hf hf1 (hk x hx) (hs.2 x hx) (hh x hx)
    have hmono : ∀ x ∈ done ++ s :: t, ∀ y, x.key.le y.key → (scale A (.fin f) x).key.le (scale A (.fin f) y).key :=
      fun x hx y hxy => F64.mul_mono hR hf (hk x hx) hxy
    have hsn : (scale A (.fin f) s).key ≠ .nan :=
      F64.mul_ne_nan hR (hs.2 s hsm) (by simp) (by simp only [F64.eq, F64.le]; intro h; linarith [h.1]) (by simp)
    have hpd : ((done ++ [s]).map (scale A (.fin f))).Pairwise fun a b => a.key.le b.key := by
      have h1 : (done ++ [s]).Pairwise fun a b => a.key.lt b.key := by
        refine List.pairwise_append.2 ⟨hp.1, by simp, ?_⟩
        intro x hx y hy
        rw [List.mem_singleton.1 hy]
        exact hp.2.2 x hx s (by simp)
      rw [List.pairwise_map]
      refine h1.imp_of_mem ?_
      intro x y hx _ hxy
      refine hmono x ?_ y (F64.le_of_lt' hxy)
      rcases List.mem_append.1 hx with hx | hx
      · exact List.mem_append_left _ hx
      · rw [List.mem_singleton.1 hx]; exact hsm
    have hpd0 : (done.map (scale A (.fin f))).Pairwise fun a b => a.key.le b.key := by
      refine hpd.sublist ?_
      rw [List.map_append]; exact List.sublist_append_left _ _
    have hmem : ∀ x ∈ collapse (done.map (scale A (.fin f))), ∃ y ∈ done, x = scale A (.fin f) y := by
      intro x hx
      obtain ⟨y, hy, rfl⟩ := List.mem_map.1 ((collapse_sublist _).subset hx)
      exact ⟨y, hy, rfl⟩
    have hstep : SkipList.insert (scale A (.fin f) s) (SkipList.delete s (collapse (done.map (scale A (.fin f))) ++ s :: t))
        = collapse ((done ++ [s]).map (scale A (.fin f))) ++ t := by
      rw [SkipList.delete_split _ (compare_self _), insert_end _ _ (collapse_sorted hpd0)]
      · rw [List.map_append, List.map_singleton, collapse_snoc]
        rw [List.map_append, List.map_singleton] at hpd
        exact hpd
      · intro x hx
        obtain ⟨y, hy, rfl⟩ := hmem x hx
        exact hmono y (by simp [hy]) s (F64.le_of_lt' (hp.2.2 y hy s (by simp)))
      · intro x hx
        exact F64.lt_of_le_of_lt (hshr s hsm) (hp2.1 x hx)
      · intro x hx
        obtain ⟨y, hy, rfl⟩ := hmem x hx
        exact F64.lt_of_le_of_lt (hshr y (by simp [hy])) (hp.2.2 y hy s (by simp))
    have : rescaleLoop A (.fin f) (s :: t) (collapse (done.map (scale A (.fin f))) ++ s :: t)
        = rescaleLoop A (.fin f) t (collapse ((done ++ [s]).map (scale A (.fin f))) ++ t) := by
      rw [← hstep]
      simp only [rescaleLoop, List.foldl_cons]
    rw [this, ih (done ++ [s])]
    · simp
    · simpa using hs
    · simpa using hk
    · simpa using hh

/-! ## Priorities are numbers the arithmetic can hold -/

def KeysHeld (A : Arith) (l : SkipList) : Prop := ∀ s ∈ l, s.key.Held A.R

theorem held_insert {s : WeightedSample} {l : SkipList} (h : KeysHeld A l) (hs : s.key.Held A.R) : KeysHeld A (SkipList.insert s l) := by
  intro x hx
  rcases SkipList.mem_insert hx with rfl | hx
  · exact hs
  · exact h x hx

theorem held_sublist {l l' : SkipList} (h : KeysHeld A l) (hs : l'.Sublist l) : KeysHeld A l' := fun x hx => h x (hs.subset hx)

theorem held_rescale (hR : A.R.Lawful) {r : EDR} (h : KeysHeld A r.values) (tick time : Int) : KeysHeld A (rescaleIfNeeded A r tick time).values := by
  have hloop : ∀ (f : F64) (samples : List WeightedSample) (l : SkipList), KeysHeld A l → KeysHeld A (rescaleLoop A f samples l) := by
    intro f samples
    induction samples with
    | nil => intro l hl; exact hl
    | cons s t ih =>
      intro l hl
      exact ih _ (held_insert (held_sublist hl (SkipList.delete_sublist _ _)) (F64.held_mul hR _ _))
  unfold rescaleIfNeeded
  split
  · unfold rescaleLocked
    simp only
    split
    · simp [KeysHeld]
    · exact hloop _ _ _ h
  · exact h

theorem held_record {r : EDR} (h : KeysHeld A r.values) {prio w : F64} (hp : prio.Held A.R) (value : Int) :
    KeysHeld A (record r prio value w).state.values := by
  unfold record
  simp only
  split
  · exact held_insert h hp
  · split
    · exact h
    · split
      · exact h
      · split
        · intro x hx
          rcases SkipList.mem_overwrite hx with hx | ⟨e, he, rfl⟩
          · exact h x hx
          · exact h e he
        · exact held_insert (held_sublist h (SkipList.delete_sublist _ _)) hp

theorem held_run (hR : A.R.Lawful) (h : List Op) (r : EDR) (hr : KeysHeld A r.values) : KeysHeld A (run A r h).values := by
  induction h generalizing r with
  | nil => exact hr
  | cons o h ih =>
    cases o with
    | getSnapshot tick t => exact ih (step A r (.getSnapshot tick t)).state (held_rescale hR hr tick t)
    | updateN env v => exact ih (step A r (.updateN env v)).state (held_record (held_rescale hR hr _ _) (F64.held_div hR _ _) v)

theorem rescaleLocked_collapse (hA : A.Lawful) {r : EDR} {n : Int} (hB : InvB r n) (hh : KeysHeld A r.values) (time : Int) {f : ℚ}
    (hf : scalingFactor A r.alpha r.startTime (currentTimeInSecond time) = .fin f) (hf0 : 0 < f) (hf1 : f ≤ 1) :
    (rescaleLocked A r time).values = collapse (r.values.map (scale A (.fin f))) := by
  have hg : getValues { r with startTime := currentTimeInSecond time } = r.values := getValues_eq (by exact hB.keys)
  have hne : ¬ F64.eq (.fin f) (.fin 0) := by simp only [F64.eq, F64.le]; intro h; linarith [h.1]
  unfold rescaleLocked
  simp only
  rw [hg, hf, if_neg hne]
  exact loop_collapse hA.rnd hf0 hf1 r.values [] (by simpa using hB.sorted) (by simpa using hB.keys) (by simpa [KeysHeld] using hh)

end EDR
end GoMetrics
