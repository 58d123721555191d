import Verif.Model.CompassWild
import Verif.Proofs.CompassUpdateConc
import Verif.Proofs.BucketWild
/-! # Invariants of concurrent `UpdateWithError` calls whose plain loads may return anything

The proofs are those of Proofs/CompassUpdateConc.lean; they do not depend on what a step of a bucket counter does. -/
namespace GoMetrics
namespace CompassWild
open CompassConc
open BucketCounter (wildStep Call wild Seen)

/-- What one step of a call with label `k` can do to a label map and to its stage there. -/
inductive LStep (I : Int) (n : Nat) (k : String) : Labels × Stage → Labels × Stage → Prop where
  | stay (l st) : LStep I n k (l, st) (l, st)
  | enter (l) (h : k ≠ "") : LStep I n k (l, .before) (l, .wait)
  | skip (l) (h : k = "") : LStep I n k (l, .before) (l, .over)
  | die (l st) (h : st.inLock = false) : LStep I n k (l, st) (l, .dead)
  | take (l) (h : l.held = false) : LStep I n k (l, .wait) ({ l with held := true }, .find)
  | found (l b) (h : l.counters.get? k = some b) : LStep I n k (l, .find) (l, .unlock true)
  | room (l) (h : l.counters.get? k = none) (h2 : (l.counters.length : Int) < l.limit) : LStep I n k (l, .find) (l, .make)
  | full (l) (h : l.counters.get? k = none) (h2 : ¬ (l.counters.length : Int) < l.limit) : LStep I n k (l, .find) (l, .unlock false)
  | made (l) (t : Seen) : LStep I n k (l, .make) (l, .insert (BucketCounter.new I n t.clock true))
  | put (l b) : LStep I n k (l, .insert b) ({ l with counters := l.counters.set k b }, .unlock true)
  | release (l) : LStep I n k (l, .unlock true) ({ l with held := false }, .hit ⟨1, .start⟩)
  | fail (l) : LStep I n k (l, .unlock false) ({ l with held := false }, .fail)
  | hit (l b) (t : Seen) (c) (st) (h : l.counters.get? k = some b)
      (hst : ∀ c', c' = c → st.view.rel (wildStep b t c').2) (h2 : (∃ c', st = .hit c') ∨ st = .over ∨ st = .dead) :
      LStep I n k (l, .hit c) ({ l with counters := l.counters.set k (wildStep b t c).1 }, st)

theorem stage_go_err (I n) (a : MarkArg) (l : Labels) : LStep I n a.errorCode (l, .before) (l, stageErr (atError a)) := by
  unfold atError
  split
  · rename_i h
    exact .enter _ (by rintro e; rw [e] at h; simp at h)
  · rename_i h
    have : a.errorCode = "" := by
      rw [← String.length_eq_zero_iff]; omega
    unfold atAddon
    split <;> exact .skip _ this

theorem stage_go_add (I n) (a : MarkArg) (l : Labels) : LStep I n a.addon (l, .before) (l, stageAdd (atAddon a)) := by
  unfold atAddon
  split
  · rename_i h
    exact .enter _ (by rintro e; rw [e] at h; simp at h)
  · rename_i h
    have : a.addon = "" := by
      rw [← String.length_eq_zero_iff]; omega
    exact .skip _ this

theorem stage_go_add' (I n) (a : MarkArg) (l : Labels) : LStep I n a.addon (l, .before) (l, stageAdd (atError a)) := by
  unfold atError
  split
  · exact .stay _ _
  · exact stage_go_add I n a l

theorem lstep_total (I n) (a : MarkArg) (w : Bool) (l : Labels) : LStep I n (a.label w) (l, .before) (l, stage w (atError a)) := by
  cases w
  · exact stage_go_err I n a l
  · exact stage_go_add' I n a l

theorem wildStep_arg (b : BucketCounter) (e : Seen) (c : Call) : (wildStep b e c).2.n = c.n := by
  unfold wildStep
  split <;> exact (BucketCounter.callStep_const _ _ _).2.2.2

theorem markStep_arg (s : Marks) (t : Seen) (m : Mark) : (markStepBy wildStep Seen.clock s t m).2.arg = m.arg := by
  unfold markStepBy
  cases m.pc <;> simp only
  all_goals (repeat' split) <;> rfl

theorem markStep_const (s : Marks) (t : Seen) (m : Mark) :
    (markStepBy wildStep Seen.clock s t m).1.interval = s.interval ∧ (markStepBy wildStep Seen.clock s t m).1.buckets = s.buckets := by
  unfold markStepBy
  cases m.pc <;> simp only
  all_goals (repeat' split) <;> constructor <;> first | trivial | rfl

theorem markStep_one (s : Marks) (t : Seen) (m : Mark) (h : m.pc.one) : (markStepBy wildStep Seen.clock s t m).2.pc.one := by
  unfold markStepBy
  cases hpc : m.pc with
  | total c =>
    rw [hpc] at h
    exact one_follow (by change (wildStep _ _ _).2.n = 1; rw [wildStep_arg]; exact h) (one_atSuccess _)
  | success c =>
    rw [hpc] at h
    exact one_follow (by change (wildStep _ _ _).2.n = 1; rw [wildStep_arg]; exact h) (one_atError _)
  | hit w c =>
    rw [hpc] at h
    simp only
    split
    · trivial
    · exact one_follow (by change (wildStep _ _ _).2.n = 1; rw [wildStep_arg]; exact h) (one_afterHit _ _)
  | lock w => simp only; split; rw [hpc]; trivial; trivial
  | find w => simp only; (repeat' split) <;> trivial
  | make w => trivial
  | insert w b => trivial
  | unlock w f => simp only; split; rfl; trivial
  | done => simp only; rw [hpc]; trivial
  | panicked w => simp only; rw [hpc]; trivial
  | crashed => simp only; rw [hpc]; trivial

/-- A step of a call, seen from one label map. -/
theorem markStep_lstep (s : Marks) (t : Seen) (m : Mark) (h1 : m.pc.one) (w : Bool) :
    LStep s.interval s.buckets (m.arg.label w) (s.lab w, stage w m.pc) ((markStepBy wildStep Seen.clock s t m).1.lab w, stage w (markStepBy wildStep Seen.clock s t m).2.pc) := by
  unfold markStepBy
  cases hpc : m.pc with
  | total c =>
    simp only
    have hb : stage w (.total c) = .before := by cases w <;> rfl
    rw [hb]
    rcases follow_cases (wildStep s.total t c).2 .total (atSuccess m.arg) with ⟨-, h⟩ | ⟨-, h⟩ | h <;> rw [h]
    · unfold atSuccess
      split
      · cases w <;> exact .stay _ _
      · exact lstep_total _ _ _ _ _
    · cases w <;> exact .die _ _ rfl
    · cases w <;> exact .stay _ _
  | success c =>
    simp only
    have hb : stage w (.success c) = .before := by cases w <;> rfl
    rw [hb]
    rcases follow_cases (wildStep s.success t c).2 .success (atError m.arg) with ⟨-, h⟩ | ⟨-, h⟩ | h <;> rw [h]
    · exact lstep_total _ _ _ _ _
    · cases w <;> exact .die _ _ rfl
    · cases w <;> exact .stay _ _
  | lock w' =>
    simp only
    split
    · rw [hpc]; exact .stay _ _
    · rename_i hh
      by_cases e : w = w'
      · subst e
        rw [setLab_same]
        cases w <;> exact .take _ (by simpa using hh)
      · rw [setLab_ne _ e, stage_lock_ne e, stage_find_ne e]
        exact .stay _ _
  | find w' =>
    simp only
    by_cases e : w = w'
    · subst e
      cases hg : (s.lab w).counters.get? (m.arg.label w) with
      | some b => simp only; cases w <;> exact .found _ b hg
      | none =>
        simp only
        split
        · rename_i hl
          cases w <;> exact .room _ hg hl
        · rename_i hl
          cases w <;> exact .full _ hg hl
    · rw [stage_find_ne e]
      split
      · rw [stage_unlock_ne e]; exact .stay _ _
      · split
        · rw [stage_make_ne e]; exact .stay _ _
        · rw [stage_unlock_ne e]; exact .stay _ _
  | make w' =>
    simp only
    by_cases e : w = w'
    · subst e
      cases w <;> exact .made _ t
    · rw [stage_make_ne e, stage_insert_ne e]
      exact .stay _ _
  | insert w' b =>
    simp only
    by_cases e : w = w'
    · subst e
      rw [setLab_same]
      cases w <;> exact .put _ b
    · rw [setLab_ne _ e, stage_insert_ne e, stage_unlock_ne e]
      exact .stay _ _
  | unlock w' f =>
    simp only
    by_cases e : w = w'
    · subst e
      rw [setLab_same]
      cases f <;> cases w
      · exact .fail _
      · exact .fail _
      · exact .release _
      · exact .release _
    · rw [setLab_ne _ e, stage_unlock_ne e]
      cases f
      · simp only [Bool.false_eq_true, if_false]
        rw [stage_panicked_ne e]; exact .stay _ _
      · simp only [if_true]
        rw [stage_hit_ne e]; exact .stay _ _
  | hit w' c =>
    rw [hpc] at h1
    by_cases e : w = w'
    · subst e
      simp only
      cases hg : (s.lab w).counters.get? (m.arg.label w) with
      | none => cases w <;> exact .die _ _ rfl
      | some b =>
        simp only
        rw [setLab_same]
        have hin : stage w (.hit w c) = .hit c := by cases w <;> rfl
        rw [hin]
        rcases follow_cases (wildStep b t c).2 (.hit w) (afterHit m.arg w) with ⟨hd, h⟩ | ⟨hd, h⟩ | h <;> rw [h]
        · have : stage w (afterHit m.arg w) = .over := by
            cases w
            · simp only [afterHit, atAddon]; split <;> rfl
            · rfl
          rw [this]
          refine .hit _ b t c _ hg ?_ (by simp)
          rintro c' rfl
          exact ⟨by rw [wildStep_arg]; exact h1, hd⟩
        · have : stage w .crashed = .dead := by cases w <;> rfl
          rw [this]
          exact .hit _ b t c _ hg (fun _ _ => trivial) (by simp)
        · have : ∀ c', stage w (.hit w c') = .hit c' := by intro c'; cases w <;> rfl
          rw [this]
          refine .hit _ b t c _ hg ?_ (by simp)
          rintro c' rfl; rfl
    · rw [stage_hit_ne e]
      simp only
      split
      · cases w <;> exact .die _ _ rfl
      · rename_i b hg
        rw [setLab_ne _ e]
        rcases follow_cases (wildStep b t c).2 (.hit w') (afterHit m.arg w') with ⟨hd, h⟩ | ⟨hd, h⟩ | h <;> rw [h]
        · cases w <;> cases w'
          · exact absurd rfl e
          · exact .stay _ _
          · exact stage_go_add _ _ _ _
          · exact absurd rfl e
        · cases w <;> exact .die _ _ rfl
        · rw [stage_hit_ne e]; exact .stay _ _
  | done => simp only; rw [hpc]; exact .stay _ _
  | panicked w' => simp only; rw [hpc]; exact .stay _ _
  | crashed => simp only; rw [hpc]; exact .stay _ _

/-! ## The counters are ordinary bucket counters -/

/-- `b` is the state of a bucket counter after some schedule of `Update()` calls, one for each selected call, as far on as `view` says. -/
def Sim (I : Int) (n : Nat) (t0 : Int) (sel : Mark → Bool) (view : Mark → View) (b : BucketCounter) (ms : List Mark) : Prop :=
  ∃ es : List (Ev Int Seen), (wild.run (Machine.start (BucketCounter.new I n t0 true)) es).shared = b ∧
    List.Forall₂ (fun m c => (view m).rel c) (ms.filter sel) (wild.run (Machine.start (BucketCounter.new I n t0 true)) es).calls

theorem sim_spawn {I n t0 sel view b ms m} (h : Sim I n t0 sel view b ms) (hm : (view m).rel ⟨1, .start⟩) :
    Sim I n t0 sel view b (ms ++ [m]) := by
  obtain ⟨es, h1, h2⟩ := h
  by_cases hs : sel m = true
  · refine ⟨es ++ [.spawn 1], ?_, ?_⟩
    · rw [Machine.run_snoc]; exact h1
    · rw [Machine.run_snoc, List.filter_append]
      refine forall₂_append h2 ?_
      rw [List.filter_cons_of_pos hs]
      exact .cons hm .nil
  · refine ⟨es, h1, ?_⟩
    rw [List.filter_append, List.filter_cons_of_neg hs]
    simpa using h2

theorem sim_step {I n t0 sel view b b' pre m m' post} (h : Sim I n t0 sel view b (pre ++ m :: post)) (hsel : sel m' = sel m)
    (hs : (b' = b ∧ (sel m = true → ∀ c, (view m).rel c → (view m').rel c)) ∨
      (sel m = true ∧ ∃ t, ∀ c, (view m).rel c → b' = (wildStep b t c).1 ∧ (view m').rel (wildStep b t c).2)) :
    Sim I n t0 sel view b' (pre ++ m' :: post) := by
  obtain ⟨es, h1, h2⟩ := h
  rw [List.filter_append] at h2
  by_cases hm : sel m = true
  · rw [List.filter_cons_of_pos hm] at h2
    obtain ⟨p', c, q', h3, h4, h5, h6⟩ := forall₂_split h2
    rcases hs with ⟨rfl, hs⟩ | ⟨-, t, hs⟩
    · refine ⟨es, h1, ?_⟩
      rw [List.filter_append, List.filter_cons_of_pos (by rw [hsel]; exact hm), h3]
      exact forall₂_append h4 (.cons (hs hm c h5) h6)
    · obtain ⟨g1, g2⟩ := hs c h5
      have hc : (wild.run (Machine.start (BucketCounter.new I n t0 true)) es).calls[p'.length]? = some c := by
        rw [h3]; simp
      refine ⟨es ++ [.step p'.length t], ?_, ?_⟩
      · rw [Machine.run_snoc]
        simp only [Machine.apply, hc, h1]
        exact g1.symm
      · rw [Machine.run_snoc]
        simp only [Machine.apply, hc, h1]
        rw [h3, List.filter_append, List.filter_cons_of_pos (by rw [hsel]; exact hm), List.set_append_right _ _ (le_refl _)]
        simp only [Nat.sub_self, List.set_cons_zero]
        exact forall₂_append h4 (.cons g2 h6)
  · have hb : b' = b := by
      rcases hs with ⟨h, -⟩ | ⟨h, -⟩
      · exact h
      · exact absurd h hm
    subst hb
    refine ⟨es, h1, ?_⟩
    rw [List.filter_append, List.filter_cons_of_neg (by rw [hsel]; exact hm)]
    rwa [List.filter_cons_of_neg hm] at h2

/-- A new counter: nobody has touched it. -/
theorem sim_new (I : Int) (n : Nat) (t0 : Int) (sel : Mark → Bool) (view : Mark → View) (ms : List Mark)
    (h : ∀ m ∈ ms, sel m = true → (view m).rel ⟨1, .start⟩) : Sim I n t0 sel view (BucketCounter.new I n t0 true) ms := by
  induction ms using List.reverseRecOn with
  | nil => exact ⟨[], rfl, .nil⟩
  | append_singleton ms m ih =>
    have ih := ih fun m' hm' => h m' (by simp [hm'])
    by_cases hs : sel m = true
    · exact sim_spawn ih (h m (by simp) hs)
    · obtain ⟨es, h1, h2⟩ := ih
      refine ⟨es, h1, ?_⟩
      rw [List.filter_append, List.filter_cons_of_neg hs]
      simpa using h2

/-! ## The label maps -/

/-- What is true of a call with label `k`, by its stage. -/
def Loc (I : Int) (n : Nat) (l : Labels) (k : String) : Stage → Prop
  | .before => True
  | .dead => True
  | .wait => k ≠ ""
  | .find => k ≠ ""
  | .make => k ≠ "" ∧ l.counters.get? k = none ∧ (l.counters.length : Int) < l.limit
  | .insert b => k ≠ "" ∧ l.counters.get? k = none ∧ (l.counters.length : Int) < l.limit ∧ ∃ t, b = BucketCounter.new I n t true
  | .unlock true => k ≠ "" ∧ l.counters.get? k ≠ none
  | .unlock false => k ≠ "" ∧ l.counters.get? k = none ∧ l.limit ≤ l.counters.length
  | .hit _ => k ≠ "" ∧ l.counters.get? k ≠ none
  | .fail => k ≠ "" ∧ l.counters.get? k = none ∧ l.limit ≤ l.counters.length
  | .over => k = "" ∨ l.counters.get? k ≠ none

structure LabInv (limit I : Int) (n : Nat) (k : Mark → String) (st : Mark → Stage) (l : Labels) (ms : List Mark) : Prop where
  lim : l.limit = limit
  wf : l.counters.WF
  len : (l.counters.length : Int) ≤ max limit 0
  held : ms.countP (fun m => (st m).inLock) = if l.held then 1 else 0
  loc : ∀ m ∈ ms, Loc I n l (k m) (st m)
  keys : ∀ key ∈ l.counters.keys, key ≠ "" ∧ ∃ m ∈ ms, k m = key
  sim : ∀ key b, l.counters.get? key = some b → ∃ t0, Sim I n t0 (fun m => decide (k m = key)) (fun m => (st m).view) b ms

theorem labInv_spawn {limit I n k st l ms m} (h : LabInv limit I n k st l ms) (hm : st m = .before) :
    LabInv limit I n k st l (ms ++ [m]) where
  lim := h.lim
  wf := h.wf
  len := h.len
  held := by rw [List.countP_append, h.held]; simp [hm, Stage.inLock]
  loc := by
    intro m' hm'
    rcases List.mem_append.1 hm' with g | g
    · exact h.loc m' g
    · rw [List.mem_singleton.1 g, hm]; trivial
  keys := fun key hk => by
    obtain ⟨h1, m', h2, h3⟩ := h.keys key hk
    exact ⟨h1, m', by simp [h2], h3⟩
  sim := fun key b hb => by
    obtain ⟨t0, g⟩ := h.sim key b hb
    exact ⟨t0, sim_spawn g (by simp only [hm]; rfl)⟩

/-- Replacing one call: what has to be shown. -/
theorem labInv_replace {limit I n k st l l' pre m m' post} (h : LabInv limit I n k st l (pre ++ m :: post)) (hk : k m' = k m)
    (hlim : l'.limit = l.limit) (hwf : l'.counters.WF) (hlen : (l'.counters.length : Int) ≤ max limit 0)
    (hheld : (if l'.held then 1 else 0) + (if (st m).inLock then 1 else 0) = (if l.held then 1 else 0) + (if (st m').inLock then 1 else 0))
    (hloc : Loc I n l' (k m') (st m')) (hothers : ∀ x ∈ pre ++ post, Loc I n l (k x) (st x) → Loc I n l' (k x) (st x))
    (hkeys : ∀ key ∈ l'.counters.keys, key = k m ∧ key ≠ "" ∨ key ∈ l.counters.keys)
    (hsim : ∀ key b, l'.counters.get? key = some b →
      ∃ t0, Sim I n t0 (fun m => decide (k m = key)) (fun m => (st m).view) b (pre ++ m' :: post)) :
    LabInv limit I n k st l' (pre ++ m' :: post) where
  lim := by rw [hlim, h.lim]
  wf := hwf
  len := hlen
  held := by
    have := h.held
    rw [List.countP_append, List.countP_cons] at this ⊢
    omega
  loc := by
    intro x hx
    rcases List.mem_append.1 hx with g | g
    · exact hothers x (by simp [g]) (h.loc x (by simp [g]))
    · rcases List.mem_cons.1 g with rfl | g
      · exact hloc
      · exact hothers x (by simp [g]) (h.loc x (by simp [g]))
  keys := by
    intro key hkey
    rcases hkeys key hkey with ⟨rfl, h0⟩ | g
    · exact ⟨h0, m', by simp, hk⟩
    · obtain ⟨h1, x, h2, h3⟩ := h.keys key g
      refine ⟨h1, ?_⟩
      rcases List.mem_append.1 h2 with g | g
      · exact ⟨x, by simp [g], h3⟩
      · rcases List.mem_cons.1 g with rfl | g
        · exact ⟨m', by simp, by rw [hk, h3]⟩
        · exact ⟨x, by simp [g], h3⟩
  sim := hsim

/-- Steps that leave the map alone. -/
theorem labInv_quiet {limit I n k st l l' pre m m' post} (h : LabInv limit I n k st l (pre ++ m :: post)) (hk : k m' = k m)
    (hlim : l'.limit = l.limit) (hcnt : l'.counters = l.counters)
    (hheld : (if l'.held then 1 else 0) + (if (st m).inLock then 1 else 0) = (if l.held then 1 else 0) + (if (st m').inLock then 1 else 0))
    (hloc : Loc I n l' (k m') (st m')) (hview : ∀ c, (st m).view.rel c → (st m').view.rel c) :
    LabInv limit I n k st l' (pre ++ m' :: post) := by
  have hL : ∀ kk s, Loc I n l kk s → Loc I n l' kk s := by
    intro kk s
    unfold Loc
    rw [hcnt, hlim]
    exact id
  refine labInv_replace h hk hlim (by rw [hcnt]; exact h.wf) (by rw [hcnt]; exact h.len) hheld hloc (fun x _ => hL _ _)
    (fun key hkey => .inr (by rw [← hcnt]; exact hkey)) ?_
  intro key b hb
  rw [hcnt] at hb
  obtain ⟨t0, g⟩ := h.sim key b hb
  exact ⟨t0, sim_step g (by simp only [hk]) (.inl ⟨rfl, fun _ => hview⟩)⟩

theorem inLock_held {limit I n k st l pre m post} (h : LabInv limit I n k st l (pre ++ m :: post)) (hm : (st m).inLock = true) :
    l.held = true ∧ ∀ x ∈ pre ++ post, (st x).inLock = false := by
  have := h.held
  rw [List.countP_append, List.countP_cons, if_pos hm] at this
  have h1 : l.held = true := by
    by_contra hc
    rw [if_neg hc] at this; omega
  rw [if_pos h1] at this
  refine ⟨h1, fun x hx => ?_⟩
  by_contra hc
  have hx' : (st x).inLock = true := by simpa using hc
  rcases List.mem_append.1 hx with g | g
  · have := List.countP_pos_iff (p := fun m => (st m).inLock).2 ⟨x, g, hx'⟩; omega
  · have := List.countP_pos_iff (p := fun m => (st m).inLock).2 ⟨x, g, hx'⟩; omega

theorem labInv_step {limit I n k st l l' pre m m' post} (h : LabInv limit I n k st l (pre ++ m :: post)) (hk : k m' = k m)
    (hs : LStep I n (k m) (l, st m) (l', st m')) : LabInv limit I n k st l' (pre ++ m' :: post) := by
  have hm := h.loc m (by simp)
  generalize hst : st m = x at hs hm
  generalize hst' : st m' = y at hs
  cases hs with
  | stay _ _ => exact labInv_quiet h hk rfl rfl (by rw [hst, hst']) (by rw [hst', hk]; exact hm) (by rw [hst, hst']; exact fun _ => id)
  | enter _ h0 => exact labInv_quiet h hk rfl rfl (by rw [hst, hst']; rfl) (by rw [hst', hk]; exact h0) (by rw [hst, hst']; exact fun _ => id)
  | skip _ h0 =>
    refine labInv_replace h hk rfl h.wf h.len (by rw [hst, hst']; rfl) (by rw [hst', hk]; exact .inl h0) (fun _ _ => id) (fun _ => .inr) ?_
    intro key b hb
    obtain ⟨t0, es, g1, g2⟩ := h.sim key b hb
    refine ⟨t0, es, g1, ?_⟩
    have hne : ¬ (k m = key) := by
      rintro rfl
      exact (h.keys _ ((GoMap.mem_keys_iff _ _).2 ⟨b, hb⟩)).1 h0
    rw [List.filter_append, List.filter_cons_of_neg (by simpa using hne)] at g2
    rw [List.filter_append, List.filter_cons_of_neg (by rw [hk]; simpa using hne)]
    exact g2
  | die _ _ h0 =>
    exact labInv_quiet h hk rfl rfl (by rw [hst, hst', h0]; rfl) (by rw [hst']; trivial) (by rw [hst']; exact fun _ _ => trivial)
  | take _ h0 => exact labInv_quiet h hk rfl rfl (by rw [hst, hst', h0]; rfl) (by rw [hst', hk]; exact hm) (by rw [hst, hst']; exact fun _ => id)
  | found _ b h0 =>
    exact labInv_quiet h hk rfl rfl (by rw [hst, hst']; rfl) (by rw [hst', hk]; exact ⟨hm, by rw [h0]; simp⟩) (by rw [hst, hst']; exact fun _ => id)
  | room _ h0 h1 =>
    exact labInv_quiet h hk rfl rfl (by rw [hst, hst']; rfl) (by rw [hst', hk]; exact ⟨hm, h0, h1⟩) (by rw [hst, hst']; exact fun _ => id)
  | full _ h0 h1 =>
    exact labInv_quiet h hk rfl rfl (by rw [hst, hst']; rfl) (by rw [hst', hk]; exact ⟨hm, h0, by omega⟩) (by rw [hst, hst']; exact fun _ => id)
  | made _ t =>
    exact labInv_quiet h hk rfl rfl (by rw [hst, hst']; rfl) (by rw [hst', hk]; exact ⟨hm.1, hm.2.1, hm.2.2, t.clock, rfl⟩)
      (by rw [hst, hst']; exact fun _ => id)
  | release _ =>
    have := (inLock_held h (by rw [hst]; rfl)).1
    exact labInv_quiet h hk rfl rfl (by rw [hst, hst', this]; rfl) (by rw [hst', hk]; exact hm) (by rw [hst, hst']; exact fun _ => id)
  | fail _ =>
    have := (inLock_held h (by rw [hst]; rfl)).1
    exact labInv_quiet h hk rfl rfl (by rw [hst, hst', this]; rfl) (by rw [hst', hk]; exact hm) (by rw [hst, hst']; exact fun _ => id)
  | put _ b =>
    obtain ⟨hne, habs, hroom, t, rfl⟩ := hm
    have hlk := (inLock_held h (by rw [hst]; rfl)).2
    refine labInv_replace h hk rfl (GoMap.wf_set h.wf _ _) ?_ (by rw [hst, hst']; rfl) ?_ ?_ ?_ ?_
    · change ((l.counters.set (k m) _).length : Int) ≤ _
      rw [length_set_absent _ _ _ habs]
      have := h.lim
      push_cast; omega
    · rw [hst', hk]
      refine ⟨hne, ?_⟩
      change (l.counters.set (k m) _).get? (k m) ≠ none
      simp
    · intro x hx
      have hx' := hlk x hx
      cases hsx : st x with
      | before => exact id
      | dead => exact id
      | wait => exact id
      | find => rw [hsx] at hx'; cases hx'
      | make => rw [hsx] at hx'; cases hx'
      | insert b => rw [hsx] at hx'; cases hx'
      | unlock f => rw [hsx] at hx'; cases hx'
      | hit c => exact fun g => ⟨g.1, get?_set_none _ _ _ _ g.2⟩
      | fail => exact fun g => absurd g.2.2 (by omega)
      | over => exact fun g => g.imp_right (get?_set_none _ _ _ _)
    · intro key hkey
      rcases (GoMap.mem_keys_set _ _ _ _).1 hkey with rfl | g
      · exact .inl ⟨rfl, hne⟩
      · exact .inr g
    · intro key b hb
      change (l.counters.set (k m) _).get? key = some b at hb
      rw [GoMap.get?_set] at hb
      split at hb
      · rename_i e
        subst e
        cases hb
        refine ⟨t, sim_new I n t _ _ _ ?_⟩
        intro x hx hkx
        have hkx : k x = k m := by simpa using hkx
        rcases List.mem_append.1 hx with g | g
        on_goal 2 => rcases List.mem_cons.1 g with rfl | g
        on_goal 2 => rw [hst']; rfl
        all_goals
          have hL := h.loc x (by simp [g])
          rw [hkx] at hL
          cases hsx : st x with
          | hit c => rw [hsx] at hL; exact absurd habs hL.2
          | over => rw [hsx] at hL; exact absurd habs (hL.resolve_left hne)
          | dead => trivial
          | _ => rfl
      · rename_i e
        obtain ⟨t0, g⟩ := h.sim key b hb
        exact ⟨t0, sim_step g (by simp only [hk]) (.inl ⟨rfl, by rw [hst, hst']; exact fun _ _ => id⟩)⟩
  | hit _ b t c _ h0 h1 h2 =>
    have hp : l.counters.get? (k m) ≠ none := by rw [h0]; simp
    refine labInv_replace h hk rfl (GoMap.wf_set h.wf _ _) ?_ ?_ ?_ ?_ ?_ ?_
    · change ((l.counters.set (k m) _).length : Int) ≤ _
      rw [length_set_present _ _ _ hp]; exact h.len
    · rw [hst, hst']
      rcases h2 with ⟨c', rfl⟩ | rfl | rfl <;> rfl
    · rw [hst', hk]
      rcases h2 with ⟨c', rfl⟩ | rfl | rfl
      · exact ⟨hm.1, get?_set_none _ _ _ _ hm.2⟩
      · exact .inr (get?_set_none _ _ _ _ hm.2)
      · trivial
    · intro x _
      have e1 := get?_set_iff l.counters (k m) (wildStep b t c).1 hp
      have e2 := length_set_present l.counters (k m) (wildStep b t c).1 hp
      unfold Loc
      simp only [e2, ne_eq, e1]
      exact id
    · intro key hkey
      rcases (GoMap.mem_keys_set _ _ _ _).1 hkey with rfl | g
      · exact .inr ((GoMap.mem_keys_iff _ _).2 ⟨b, h0⟩)
      · exact .inr g
    · intro key b' hb
      change (l.counters.set (k m) _).get? key = some b' at hb
      rw [GoMap.get?_set] at hb
      split at hb
      · rename_i e
        subst e
        cases hb
        obtain ⟨t0, g⟩ := h.sim (k m) b h0
        refine ⟨t0, sim_step g (by simp only [hk]) (.inr ⟨by simp, t, ?_⟩)⟩
        intro c'' hc''
        rw [hst] at hc''
        cases hc''
        refine ⟨rfl, ?_⟩
        rw [hst']; exact h1 c rfl
      · rename_i e
        obtain ⟨t0, es, g1, g2⟩ := h.sim key b' hb
        refine ⟨t0, es, g1, ?_⟩
        rw [List.filter_append, List.filter_cons_of_neg (by simpa using e)] at g2
        rw [List.filter_append, List.filter_cons_of_neg (by rw [hk]; simpa using e)]
        exact g2

/-- Past the total, a step leaves the total alone; past the success counter, it leaves that alone. -/
theorem markStep_past (s : Marks) (t : Seen) (m : Mark) (h1 : ∀ c, m.pc ≠ .total c) :
    (markStepBy wildStep Seen.clock s t m).1.total = s.total ∧ (viewTotal (markStepBy wildStep Seen.clock s t m).2.pc = viewTotal m.pc ∨ viewTotal (markStepBy wildStep Seen.clock s t m).2.pc = .dead) ∧
    ((∀ c, m.pc ≠ .success c) → (markStepBy wildStep Seen.clock s t m).1.success = s.success ∧
      (viewSuccess (markStepBy wildStep Seen.clock s t m).2.pc = viewSuccess m.pc ∨ viewSuccess (markStepBy wildStep Seen.clock s t m).2.pc = .dead)) := by
  unfold markStepBy
  cases hpc : m.pc with
  | total c => exact absurd hpc (h1 c)
  | success c =>
    refine ⟨rfl, ?_, fun h => absurd rfl (h c)⟩
    simp only
    rcases follow_cases (wildStep s.success t c).2 .success (atError m.arg) with ⟨-, h⟩ | ⟨-, h⟩ | h <;> rw [h]
    · left; rw [viewTotal_atError]; rfl
    · right; rfl
    · left; rfl
  | lock w => simp only; split <;> (first | rw [hpc] | skip) <;> exact ⟨rfl, .inl rfl, fun _ => ⟨rfl, .inl rfl⟩⟩
  | find w => simp only; (repeat' split) <;> exact ⟨rfl, .inl rfl, fun _ => ⟨rfl, .inl rfl⟩⟩
  | make w => exact ⟨rfl, .inl rfl, fun _ => ⟨rfl, .inl rfl⟩⟩
  | insert w b => exact ⟨rfl, .inl rfl, fun _ => ⟨rfl, .inl rfl⟩⟩
  | unlock w f => cases f <;> exact ⟨rfl, .inl rfl, fun _ => ⟨rfl, .inl rfl⟩⟩
  | hit w c =>
    simp only
    cases hg : (s.lab w).counters.get? (m.arg.label w) with
    | none => exact ⟨rfl, .inr rfl, fun _ => ⟨rfl, .inr rfl⟩⟩
    | some b =>
      refine ⟨rfl, ?_, fun _ => ⟨rfl, ?_⟩⟩
      all_goals
        simp only
        rcases follow_cases (wildStep b t c).2 (.hit w) (afterHit m.arg w) with ⟨-, h⟩ | ⟨-, h⟩ | h <;> rw [h]
        · left; first | (rw [viewTotal_afterHit]; rfl) | (rw [viewSuccess_afterHit]; rfl)
        · right; rfl
        · left; rfl
  | done => exact ⟨rfl, .inl (by rw [hpc]), fun _ => ⟨rfl, .inl (by rw [hpc])⟩⟩
  | panicked w => exact ⟨rfl, .inl (by rw [hpc]), fun _ => ⟨rfl, .inl (by rw [hpc])⟩⟩
  | crashed => exact ⟨rfl, .inl (by rw [hpc]), fun _ => ⟨rfl, .inl (by rw [hpc])⟩⟩

theorem markStep_total (s : Marks) (t : Seen) (m : Mark) (c : Call) (h : m.pc = .total c) :
    (markStepBy wildStep Seen.clock s t m).1.total = (wildStep s.total t c).1 ∧ (markStepBy wildStep Seen.clock s t m).1.success = s.success ∧
      (markStepBy wildStep Seen.clock s t m).2.pc = follow (wildStep s.total t c).2 .total (atSuccess m.arg) := by
  unfold markStepBy; rw [h]; exact ⟨rfl, rfl, rfl⟩

theorem markStep_success (s : Marks) (t : Seen) (m : Mark) (c : Call) (h : m.pc = .success c) :
    (markStepBy wildStep Seen.clock s t m).1.success = (wildStep s.success t c).1 ∧
      (markStepBy wildStep Seen.clock s t m).2.pc = follow (wildStep s.success t c).2 .success (atError m.arg) := by
  unfold markStepBy; rw [h]; exact ⟨rfl, rfl⟩

theorem markStep_succ (s : Marks) (t : Seen) (m : Mark) (h : m.pc.succ m.arg) : (markStepBy wildStep Seen.clock s t m).2.pc.succ m.arg := by
  unfold markStepBy
  cases hpc : m.pc with
  | total c =>
    refine succ_follow trivial ?_
    unfold atSuccess
    split
    · assumption
    · exact succ_atError _ _
  | success c =>
    rw [hpc] at h
    exact succ_follow h (succ_atError _ _)
  | hit w c =>
    simp only
    split
    · trivial
    · exact succ_follow trivial (succ_afterHit _ _ _)
  | lock w => simp only; split; rw [hpc]; trivial; trivial
  | find w => simp only; (repeat' split) <;> trivial
  | make w => trivial
  | insert w b => trivial
  | unlock w f => simp only; split <;> trivial
  | done => simp only; rw [hpc]; trivial
  | panicked w => simp only; rw [hpc]; trivial
  | crashed => simp only; rw [hpc]; trivial

/-- Everything that is invariant. -/
structure MInv (I : Int) (n : Nat) (maxErr maxAdd t1 t2 : Int) (p : Pool Marks Mark) : Prop where
  interval : p.shared.interval = I
  buckets : p.shared.buckets = n
  one : ∀ m ∈ p.calls, m.pc.one
  succ : ∀ m ∈ p.calls, m.pc.succ m.arg
  lab : ∀ w, LabInv (if w then maxAdd else maxErr) I n (fun m => m.arg.label w) (fun m => stage w m.pc) (p.shared.lab w) p.calls
  total : Sim I n t1 (fun _ => true) (fun m => viewTotal m.pc) p.shared.total p.calls
  success : Sim I n t2 (fun m => m.arg.isSuccess) (fun m => viewSuccess m.pc) p.shared.success p.calls

theorem minv_run (I : Int) (n : Nat) (maxErr maxAdd t1 t2 : Int) (es : List (Ev MarkArg Seen)) :
    MInv I n maxErr maxAdd t1 t2 (wildMarking.run (Machine.start (Marks.new I n maxErr maxAdd t1 t2)) es) := by
  refine Machine.inv_run wildMarking (MInv I n maxErr maxAdd t1 t2) ?_ ?_ _ ?_ es
  · intro s cs a h
    refine ⟨h.interval, h.buckets, ?_, ?_, fun w => labInv_spawn (h.lab w) (by cases w <;> rfl), sim_spawn h.total rfl, sim_spawn h.success rfl⟩
    · intro m hm
      rcases List.mem_append.1 hm with g | g
      · exact h.one m g
      · rw [List.mem_singleton.1 g]; rfl
    · intro m hm
      rcases List.mem_append.1 hm with g | g
      · exact h.succ m g
      · rw [List.mem_singleton.1 g]; trivial
  · intro s pre m post t h
    have harg := markStep_arg s t m
    have hone := h.one m (by simp)
    refine ⟨?_, ?_, ?_, ?_, ?_, ?_, ?_⟩
    · exact (markStep_const s t m).1.trans h.interval
    · exact (markStep_const s t m).2.trans h.buckets
    · intro x hx
      rcases List.mem_append.1 hx with g | g
      · exact h.one x (by simp [g])
      · rcases List.mem_cons.1 g with rfl | g
        · exact markStep_one s t m hone
        · exact h.one x (by simp [g])
    · intro x hx
      rcases List.mem_append.1 hx with g | g
      · exact h.succ x (by simp [g])
      · rcases List.mem_cons.1 g with rfl | g
        · change (markStepBy wildStep Seen.clock s t m).2.pc.succ (markStepBy wildStep Seen.clock s t m).2.arg
          rw [harg]; exact markStep_succ s t m (h.succ m (by simp))
        · exact h.succ x (by simp [g])
    · intro w
      refine labInv_step (h.lab w) (m' := (markStepBy wildStep Seen.clock s t m).2) (by simp only [harg]) ?_
      have := markStep_lstep s t m hone w
      rw [show s.interval = I from h.interval, show s.buckets = n from h.buckets] at this
      exact this
    · refine sim_step h.total rfl ?_
      cases hpc : m.pc with
      | total c =>
        refine .inr ⟨rfl, t, ?_⟩
        rintro c' rfl
        obtain ⟨g1, -, g2⟩ := markStep_total s t m c' hpc
        refine ⟨g1, ?_⟩
        change (viewTotal (markStepBy wildStep Seen.clock s t m).2.pc).rel (wildStep s.total t c').2
        rw [g2]
        rw [hpc] at hone
        rcases follow_cases (wildStep s.total t c').2 .total (atSuccess m.arg) with ⟨hd, g⟩ | ⟨-, g⟩ | g <;> rw [g]
        · rw [viewTotal_atSuccess]
          exact ⟨by rw [wildStep_arg]; exact hone, hd⟩
        · trivial
        · rfl
      | _ =>
        have := markStep_past s t m (by simp [hpc])
        refine .inl ⟨this.1, fun _ c hc => rel_of this.2.1 c ?_⟩
        rw [hpc]; exact hc
    · refine sim_step h.success (by simp only [wildMarking, harg]) ?_
      cases hpc : m.pc with
      | total c =>
        obtain ⟨-, g1, g2⟩ := markStep_total s t m c hpc
        refine .inl ⟨g1, fun hsel c' hc' => ?_⟩
        change (viewSuccess (markStepBy wildStep Seen.clock s t m).2.pc).rel c'
        rw [g2]
        rcases follow_cases (wildStep s.total t c).2 .total (atSuccess m.arg) with ⟨hd, g⟩ | ⟨-, g⟩ | g <;> rw [g]
        · unfold atSuccess
          rw [if_pos hsel]; exact hc'
        · trivial
        · exact hc'
      | success c =>
        by_cases hsel : m.arg.isSuccess = true
        · refine .inr ⟨hsel, t, ?_⟩
          rintro c' rfl
          obtain ⟨g1, g2⟩ := markStep_success s t m c' hpc
          refine ⟨g1, ?_⟩
          change (viewSuccess (markStepBy wildStep Seen.clock s t m).2.pc).rel (wildStep s.success t c').2
          rw [g2]
          rw [hpc] at hone
          rcases follow_cases (wildStep s.success t c').2 .success (atError m.arg) with ⟨hd, g⟩ | ⟨-, g⟩ | g <;> rw [g]
          · rw [viewSuccess_atError]
            exact ⟨by rw [wildStep_arg]; exact hone, hd⟩
          · trivial
          · rfl
        · have := h.succ m (by simp)
          rw [hpc] at this
          exact absurd this hsel
      | _ =>
        have := (markStep_past s t m (by simp [hpc])).2.2 (by simp [hpc])
        refine .inl ⟨this.1, fun _ c hc => rel_of this.2 c ?_⟩
        rw [hpc]; exact hc
  · refine ⟨rfl, rfl, by simp [Machine.start], by simp [Machine.start], ?_, ⟨[], rfl, .nil⟩, ⟨[], rfl, .nil⟩⟩
    intro w
    refine ⟨by cases w <;> rfl, GoMap.wf_nil, ?_, rfl, by simp [Machine.start], by simp [Machine.start, Marks.new, GoMap.keys], ?_⟩
    · simp [Machine.start, Marks.new]
    · intro key b hb
      simp [Machine.start, Marks.new] at hb

end CompassWild
end GoMetrics
