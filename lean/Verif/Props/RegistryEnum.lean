import Verif.Model.RegistryEnum
import Verif.Props.RegistryMore
/-! # C90: enumerations that overlap lookups -/
namespace GoMetrics
namespace Registry

theorem enumerate_pool (limits : List Int) (w : Enum) (rid : Nat) (es : List EnumEv) :
    (enumerate limits w rid es).1 = regRun limits (lookups es) := by
  induction es using List.reverseRecOn with
  | nil => rfl
  | append_singleton es e ih =>
    have h1 : enumerate limits w rid (es ++ [e]) = enumApply w rid (enumerate limits w rid es) e := by simp [enumerate, List.foldl_append]
    rw [h1]
    cases e with
    | inl e =>
      simp only [enumApply, ih, lookups, List.filterMap_append, List.filterMap_cons, Sum.getLeft?_inl, List.filterMap_nil, regRun, Machine.run_snoc]
    | inr c =>
      simp only [enumApply, ih, lookups, List.filterMap_append, List.filterMap_cons, Sum.getLeft?_inr, List.filterMap_nil, List.append_nil]

/-- What holds while an enumeration is under way: `m0` is the map when it began, `m` the map now. -/
structure Visited (w : Enum) (m0 m : GoMap GoStr Entry) (seen : List GoStr) (result : GoMap GoStr Entry) : Prop where
  wf : result.WF
  only : ∀ k e, result.get? k = some e → w.matches e = true ∧ m.get? k = some e ∧ k ∈ seen
  all : ∀ k ∈ seen, ∀ e, m.get? k = some e → w.matches e = true → result.get? k = some e
  there : ∀ k ∈ seen, ∃ e, m.get? k = some e

/-- The invariant of an enumeration that began after `es1`. -/
def EnumInv (w : Enum) (m0 m : GoMap GoStr Entry) : EnumPC → Prop
  | .start => False
  | .visiting must seen result => must = m0.keys ∧ Visited w m0 m seen result
  | .done result => ∃ seen, (∀ k ∈ m0.keys, k ∈ seen) ∧ Visited w m0 m seen result

theorem Visited.mono {w : Enum} {m0 m m' : GoMap GoStr Entry} {seen : List GoStr} {result : GoMap GoStr Entry} (h : Visited w m0 m seen result)
    (hm : ∀ k e, m.get? k = some e → m'.get? k = some e) : Visited w m0 m' seen result where
  wf := h.wf
  only k e g := ⟨(h.only k e g).1, hm k e (h.only k e g).2.1, (h.only k e g).2.2⟩
  all k hk e g hw := by
    obtain ⟨e', he'⟩ := h.there k hk
    have := hm k e' he'
    rw [g] at this
    obtain rfl := Option.some.inj this
    exact h.all k hk e he' hw
  there k hk := by
    obtain ⟨e, he⟩ := h.there k hk
    exact ⟨e, hm k e he⟩

theorem enumInv_step {w : Enum} {rid : Nat} {s : Mem} {m0 : GoMap GoStr Entry} {c : EnumPC} (hwf : (s.regs rid).metricsMap.WF) (x : Option Nat)
    (h : EnumInv w m0 (s.regs rid).metricsMap c) : EnumInv w m0 (s.regs rid).metricsMap (enumStep w rid s x c) := by
  cases c with
  | start => exact h.elim
  | done r => exact h
  | visiting must seen result =>
    obtain ⟨rfl, h⟩ := h
    cases x with
    | none =>
      simp only [enumStep]
      split
      · rename_i hall
        refine ⟨seen, ?_, h⟩
        intro k hk
        simpa using List.all_eq_true.1 hall k hk
      · exact ⟨rfl, h⟩
    | some i =>
      simp only [enumStep]
      cases hg : (s.regs rid).metricsMap[i]? with
      | none => exact ⟨rfl, h⟩
      | some ke =>
        obtain ⟨k, e⟩ := ke
        have hm : (s.regs rid).metricsMap.get? k = some e := GoMap.get?_of_mem hwf (List.mem_of_getElem? hg)
        simp only
        split
        · exact ⟨rfl, h⟩
        · rename_i hns
          have hns : k ∉ seen := by simpa using hns
          refine ⟨rfl, ?_⟩
          constructor
          · split
            · exact GoMap.wf_set h.wf _ _
            · exact h.wf
          · intro k' e' g
            by_cases hk : k = k'
            · subst hk
              split at g
              · rename_i hw
                rw [GoMap.get?_set_self] at g
                obtain rfl := Option.some.inj g
                exact ⟨hw, hm, by simp⟩
              · exact absurd (h.only _ _ g).2.2 hns
            · have g' : result.get? k' = some e' := by
                split at g
                · rwa [GoMap.get?_set_ne _ _ hk] at g
                · exact g
              obtain ⟨a, b, c⟩ := h.only _ _ g'
              exact ⟨a, b, by simp [c]⟩
          · intro k' hk' e' g hw
            rcases List.mem_append.1 hk' with hk' | hk'
            · have hne : k ≠ k' := fun e => hns (e ▸ hk')
              have := h.all k' hk' e' g hw
              split
              · rwa [GoMap.get?_set_ne _ _ hne]
              · exact this
            · obtain rfl := List.mem_singleton.1 hk'
              rw [hm] at g
              obtain rfl := Option.some.inj g
              rw [if_pos hw, GoMap.get?_set_self]
          · intro k' hk'
            rcases List.mem_append.1 hk' with hk' | hk'
            · exact h.there k' hk'
            · obtain rfl := List.mem_singleton.1 hk'
              exact ⟨e, hm⟩

theorem lookups_append (a b : List EnumEv) : lookups (a ++ b) = lookups a ++ lookups b := by simp [lookups]

theorem not_begun (limits : List Int) (w : Enum) (rid : Nat) (es : List EnumEv) (h : ∀ c, Sum.inr c ∉ es) :
    (enumerate limits w rid es).2 = .start := by
  induction es using List.reverseRecOn with
  | nil => rfl
  | append_singleton es e ih =>
    have h1 : enumerate limits w rid (es ++ [e]) = enumApply w rid (enumerate limits w rid es) e := by simp [enumerate, List.foldl_append]
    rw [h1]
    cases e with
    | inl e => exact ih (fun c hc => h c (by simp [hc]))
    | inr c => exact absurd (by simp) (h c)

theorem enumInv_run (limits : List Int) (w : Enum) (rid : Nat) (es1 : List EnumEv) (x : Option Nat) (es2 : List EnumEv)
    (hes : SchedOk limits.length (lookups (es1 ++ .inr x :: es2))) (h1 : ∀ c, Sum.inr c ∉ es1) :
    EnumInv w ((regRun limits (lookups es1)).shared.regs rid).metricsMap ((regRun limits (lookups (es1 ++ .inr x :: es2))).shared.regs rid).metricsMap
      (enumerate limits w rid (es1 ++ .inr x :: es2)).2 := by
  induction es2 using List.reverseRecOn with
  | nil =>
    have he : enumerate limits w rid (es1 ++ [.inr x]) = enumApply w rid (enumerate limits w rid es1) (.inr x) := by simp [enumerate, List.foldl_append]
    rw [he]
    simp only [enumApply, not_begun limits w rid es1 h1, enumStep, enumerate_pool]
    have : lookups (es1 ++ [.inr x]) = lookups es1 := by simp [lookups]
    rw [this]
    exact ⟨rfl, ⟨GoMap.wf_nil, by simp, by simp, by simp⟩⟩
  | append_singleton es2 e ih =>
    have hl : es1 ++ .inr x :: (es2 ++ [e]) = (es1 ++ .inr x :: es2) ++ [e] := by simp
    rw [hl] at hes ⊢
    have hes' : SchedOk limits.length (lookups (es1 ++ .inr x :: es2)) := fun a ha => hes a (by rw [lookups_append]; simp [ha])
    have ih := ih hes'
    have he : enumerate limits w rid ((es1 ++ .inr x :: es2) ++ [e]) = enumApply w rid (enumerate limits w rid (es1 ++ .inr x :: es2)) e := by
      simp [enumerate, List.foldl_append]
    rw [he]
    cases e with
    | inr c =>
      have : lookups ((es1 ++ .inr x :: es2) ++ [.inr c]) = lookups (es1 ++ .inr x :: es2) := by
        rw [lookups_append _ [_]]
        exact List.append_nil _
      rw [this]
      simp only [enumApply]
      rw [enumerate_pool]
      exact enumInv_step ((inv_all limits _ hes').i4.wf rid) c ih
    | inl e =>
      have hp : lookups ((es1 ++ .inr x :: es2) ++ [.inl e]) = lookups (es1 ++ .inr x :: es2) ++ [e] := lookups_append _ _
      rw [hp] at hes ⊢
      simp only [enumApply]
      have hmono : ∀ k e', ((regRun limits (lookups (es1 ++ .inr x :: es2))).shared.regs rid).metricsMap.get? k = some e' →
          ((regRun limits (lookups (es1 ++ .inr x :: es2) ++ [e])).shared.regs rid).metricsMap.get? k = some e' :=
        fun k e' g => C32_entries_stay limits _ [e] hes rid k e' g
      cases hc : (enumerate limits w rid (es1 ++ .inr x :: es2)).2 with
      | start => rw [hc] at ih; exact ih.elim
      | visiting must seen result =>
        rw [hc] at ih
        exact ⟨ih.1, ih.2.mono hmono⟩
      | done result =>
        rw [hc] at ih
        obtain ⟨seen, h2, h3⟩ := ih
        exact ⟨seen, h2, h3.mono hmono⟩

/-- What an enumeration method promises to list. -/
def Wanted (w : Enum) (m : Metric) : Prop :=
  match w with
  | .metrics => True
  | .compasses => m.kind = .compass
  | .fastCompasses => m.kind = .fast

theorem matches_iff (w : Enum) (e : Entry) : w.matches e = true ↔ Wanted w e.metric := by cases w <;> simp [Enum.matches, Wanted]

/-- `C90_between`, in terms of the model's test. -/
theorem between (limits : List Int) (w : Enum) (rid : Nat) (es1 : List EnumEv) (x : Option Nat) (es2 : List EnumEv)
    (hes : SchedOk limits.length (lookups (es1 ++ .inr x :: es2))) (h1 : ∀ c, Sum.inr c ∉ es1) (result : GoMap GoStr Entry)
    (hd : (enumerate limits w rid (es1 ++ .inr x :: es2)).2 = .done result) :
    (∀ k e, ((regRun limits (lookups es1)).shared.regs rid).metricsMap.get? k = some e → w.matches e = true → result.get? k = some e) ∧
    (∀ k e, result.get? k = some e →
      w.matches e = true ∧ ((regRun limits (lookups (es1 ++ .inr x :: es2))).shared.regs rid).metricsMap.get? k = some e) ∧
    (result.map Prod.fst).Nodup := by
  have h := enumInv_run limits w rid es1 x es2 hes h1
  rw [hd] at h
  obtain ⟨seen, h2, h3⟩ := h
  refine ⟨?_, fun k e g => ⟨(h3.only k e g).1, (h3.only k e g).2.1⟩, h3.wf⟩
  intro k e g hw
  have hk := h2 k ((GoMap.mem_keys_iff _ _).2 ⟨e, g⟩)
  have g' : ((regRun limits (lookups (es1 ++ .inr x :: es2))).shared.regs rid).metricsMap.get? k = some e := by
    have := C32_entries_stay limits (lookups es1) (lookups (.inr x :: es2)) (by rw [← lookups_append]; exact hes) rid k e g
    rwa [← lookups_append] at this
  exact h3.all k hk e g' hw

/-- **C90.** `GetMetrics`, `GetCompasses` and `GetFastCompasses` while other goroutines look metrics up (and so register new ones): whatever the interleaving, when
the enumeration (which began after `es1`) is over, its result has every matching entry that was in the registry when it began, has no entry that does not
match or is not in the registry at the end, and has each under its own key, once. -/
theorem C90_between (limits : List Int) (w : Enum) (rid : Nat) (es1 : List EnumEv) (x : Option Nat) (es2 : List EnumEv)
    (hes : SchedOk limits.length (lookups (es1 ++ .inr x :: es2))) (h1 : ∀ c, Sum.inr c ∉ es1) (result : GoMap GoStr Entry)
    (hd : (enumerate limits w rid (es1 ++ .inr x :: es2)).2 = .done result) :
    (∀ k e, ((regRun limits (lookups es1)).shared.regs rid).metricsMap.get? k = some e → Wanted w e.metric → result.get? k = some e) ∧
    (∀ k e, result.get? k = some e →
      Wanted w e.metric ∧ ((regRun limits (lookups (es1 ++ .inr x :: es2))).shared.regs rid).metricsMap.get? k = some e) ∧
    (result.map Prod.fst).Nodup := by
  simp only [← matches_iff]
  exact between limits w rid es1 x es2 hes h1 result hd

/-- **C90.** In particular every lookup of that kind that had returned before the enumeration began finds its metric in the result, under its key; and
every metric in the result is the one that all lookups of its key return, before or after. -/
theorem C90_lookups (limits : List Int) (w : Enum) (rid : Nat) (es1 : List EnumEv) (x : Option Nat) (es2 : List EnumEv)
    (hes : SchedOk limits.length (lookups (es1 ++ .inr x :: es2))) (h1 : ∀ c, Sum.inr c ∉ es1) (result : GoMap GoStr Entry)
    (hd : (enumerate limits w rid (es1 ++ .inr x :: es2)).2 = .done result) (q : Req) (m : Metric) :
    (.done q (some rid) m ∈ (enumerate limits w rid es1).1.calls → (w = .metrics ∨ (w = .compasses ∧ q.kind = .compass) ∨ w = .fastCompasses ∧ q.kind = .fast) →
      ∃ e, result.get? q.name.hash = some e ∧ e.metric = m) ∧
    (∀ e, result.get? q.name.hash = some e → .done q (some rid) m ∈ (enumerate limits w rid (es1 ++ .inr x :: es2)).1.calls → e.metric = m) := by
  have hes1 : SchedOk limits.length (lookups es1) := fun a ha => hes a (by rw [lookups_append]; simp [ha])
  obtain ⟨b1, b2, -⟩ := between limits w rid es1 x es2 hes h1 result hd
  constructor
  · intro hdone hkind
    rw [enumerate_pool] at hdone
    have hi := inv_all limits _ hes1
    obtain ⟨e, he, rfl⟩ := hi.i2.got _ hdone q rid m rfl
    refine ⟨e, b1 _ e he ?_, rfl⟩
    have hk := (hi.i2.doneKind _ hdone q (some rid) _ rfl).1
    rcases hkind with rfl | ⟨rfl, g⟩ | ⟨rfl, g⟩
    · rfl
    · simp [Enum.matches, hk, g]
    · simp [Enum.matches, hk, g]
  · intro e he hdone
    rw [enumerate_pool] at hdone
    obtain ⟨e', he', rfl⟩ := (inv_all limits _ hes).i2.got _ hdone q rid m rfl
    have := (b2 _ e he).2
    rw [he'] at this
    rw [Option.some.inj this]

/-- A lookup that finishes, an enumeration that begins, a second lookup that stores its metric while the enumeration runs: the enumeration may include the
second entry (it does if it visits position 1) or not. -/
def sample (late : Bool) : List EnumEv :=
  [.inl (.spawn (.lookup ⟨.direct 0, .compass, { hash := [97] }⟩)), .inl (.step 0 ()), .inl (.step 0 ()), .inl (.step 0 ()), .inl (.step 0 ()), .inl (.step 0 ()),
    .inl (.step 0 ()), .inr none,
    .inl (.spawn (.lookup ⟨.direct 0, .compass, { hash := [98] }⟩)), .inl (.step 1 ()), .inl (.step 1 ()), .inl (.step 1 ()), .inl (.step 1 ()), .inr none,
    .inr (some 0)] ++ (if late then [.inr (some 1)] else []) ++ [.inr none]

/-- **C90** cannot be strengthened: whether an entry that is stored while the enumeration runs is in the result is not determined. -/
theorem C90_snapshot_refuted :
    lookups (sample true) = lookups (sample false) ∧
    (∃ r r', (enumerate [5] .compasses 0 (sample true)).2 = .done r ∧ (enumerate [5] .compasses 0 (sample false)).2 = .done r' ∧
      r.map Prod.fst = [[97], [98]] ∧ r'.map Prod.fst = [[97]]) := by
  refine ⟨rfl, ?_⟩
  have ht : (match (enumerate [5] .compasses 0 (sample true)).2 with | .done r => r.map Prod.fst | _ => []) = [[97], [98]] := by decide +kernel
  have hf : (match (enumerate [5] .compasses 0 (sample false)).2 with | .done r => r.map Prod.fst | _ => []) = [[97]] := by decide +kernel
  cases h1 : (enumerate [5] .compasses 0 (sample true)).2 with
  | start => rw [h1] at ht; simp at ht
  | visiting _ _ _ => rw [h1] at ht; simp at ht
  | done r =>
    cases h2 : (enumerate [5] .compasses 0 (sample false)).2 with
    | start => rw [h2] at hf; simp at hf
    | visiting _ _ _ => rw [h2] at hf; simp at hf
    | done r' =>
      rw [h1] at ht; rw [h2] at hf
      exact ⟨r, r', rfl, rfl, ht, hf⟩

example : SchedOk 1 (lookups (sample true)) ∧ .done ⟨.direct 0, .compass, { hash := [97] }⟩ (some 0) (creator .compass 2 0) ∈
    (enumerate [5] .compasses 0 (sample true)).1.calls := by
  constructor
  · intro a ha
    simp [lookups, sample] at ha
    rcases ha with rfl | rfl <;> simp [Call.ok]
  · decide +kernel

end Registry
end GoMetrics
