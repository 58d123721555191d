import Verif.Model.MetricName
/-! # C39-C41: hash keys -/
namespace GoMetrics
namespace MetricName

/-- Holding the lock of the `sync.Once`. -/
def PC.holds : PC → Bool
  | .recheck | .writeKey | .lenCheck | .writeSep | .range | .loop _ | .setDone | .unlock => true
  | _ => false

/-- Running the closure. -/
def PC.inClosure : PC → Bool
  | .writeKey | .lenCheck | .writeSep | .range | .loop _ | .setDone => true
  | _ => false

/-- After `Do` has returned. -/
def PC.after : PC → Bool
  | .ret | .returned _ => true
  | _ => false

structure Inv (s : Shared) (cs : List PC) : Prop where
  lock : cs.countP PC.holds = if s.locked then 1 else 0
  closure : s.done = true → ∀ c ∈ cs, c.inClosure = false
  after : ∀ c ∈ cs, (c.after = true ∨ c = .unlock) → s.done = true
  result : ∀ c ∈ cs, ∀ h, c = .returned h → h = s.hashKey

theorem inv_step {s : Shared} {pre : List PC} {c : PC} {post : List PC} (x : List (GoStr × GoStr))
    (h : Inv s (pre ++ c :: post)) : Inv (callStep s x c).1 (pre ++ (callStep s x c).2 :: post) := by
  obtain ⟨h1, h2, h3, h4⟩ := h
  -- nobody else is in the closure if c holds the lock
  have excl : c.holds = true → ∀ d, d ∈ pre ∨ d ∈ post → d.holds = false := by
    intro hc d hd
    simp only [List.countP_append, List.countP_cons, hc, if_true] at h1
    have hle : pre.countP PC.holds + post.countP PC.holds = 0 := by split at h1 <;> omega
    have ha : pre.countP PC.holds = 0 := by omega
    have hb : post.countP PC.holds = 0 := by omega
    rw [List.countP_eq_zero] at ha hb
    rcases hd with hd | hd
    · simpa using ha d hd
    · simpa using hb d hd
  have hin : ∀ d : PC, d.inClosure = true → d.holds = true := by intro d; cases d <;> simp [PC.inClosure, PC.holds]
  have mem : ∀ d, d ∈ pre ++ (callStep s x c).2 :: post → d = (callStep s x c).2 ∨ (d ∈ pre ∨ d ∈ post) := by
    intro d hd
    rcases List.mem_append.1 hd with hd | hd
    · exact Or.inr (Or.inl hd)
    · rcases List.mem_cons.1 hd with hd | hd
      · exact Or.inl hd
      · exact Or.inr (Or.inr hd)
  have old : ∀ d, (d ∈ pre ∨ d ∈ post) → d ∈ pre ++ c :: post := by
    rintro d (hd | hd) <;> simp [hd]
  have hcm : c ∈ pre ++ c :: post := by simp
  have c2 := h2
  have c3 := h3 c hcm
  have c4 := h4 c hcm
  -- before `done`, nobody has returned
  have noret : s.done = false → ∀ d ∈ pre ++ c :: post, ∀ h, d ≠ .returned h := by
    intro hd d hm h he
    have := h3 d hm (Or.inl (by rw [he]; rfl))
    rw [hd] at this; simp at this
  have build : ∀ s' c', callStep s x c = (s', c') →
      ((pre ++ c' :: post).countP PC.holds = if s'.locked then 1 else 0) →
      (s'.done = true → c'.inClosure = false ∧ ∀ d, (d ∈ pre ∨ d ∈ post) → d.inClosure = false) →
      ((c'.after = true ∨ c' = .unlock) → s'.done = true) → (s.done = true → s'.done = true) →
      (∀ h, c' = .returned h → h = s'.hashKey) → (s.done = true → s'.hashKey = s.hashKey) →
      Inv (callStep s x c).1 (pre ++ (callStep s x c).2 :: post) := by
    intro s' c' e a1 a2 a3 a4 a5 a6
    rw [e] at mem ⊢
    refine ⟨a1, fun hd d hm => ?_, fun d hm hx => ?_, fun d hm hh he => ?_⟩
    · rcases mem d hm with rfl | hm
      · exact (a2 hd).1
      · exact (a2 hd).2 d hm
    · rcases mem d hm with rfl | hm
      · exact a3 hx
      · exact a4 (h3 d (old d hm) hx)
    · rcases mem d hm with rfl | hm
      · exact a5 hh he
      · have hdone : s.done = true := h3 d (old d hm) (Or.inl (by rw [he]; rfl))
        rw [a6 hdone]
        exact h4 d (old d hm) hh he
  have restC : s.done = true → ∀ d, (d ∈ pre ∨ d ∈ post) → d.inClosure = false := fun hd d hm => c2 hd d (old d hm)
  have restH : c.holds = true → ∀ d, (d ∈ pre ∨ d ∈ post) → d.inClosure = false := by
    intro hc d hm
    cases hx : d.inClosure with
    | false => rfl
    | true => have := excl hc d hm; rw [hin d hx] at this; simp at this
  have notdone : c.inClosure = true → s.done = false := by
    intro hc
    cases hd : s.done with
    | false => rfl
    | true => have := c2 hd c hcm; rw [hc] at this; simp at this
  simp only [List.countP_append, List.countP_cons] at h1
  cases c with
  | fast =>
    cases hd : s.done with
    | true =>
      refine build s .ret (by simp [callStep, hd]) ?_ (fun _ => ⟨rfl, restC hd⟩) (fun _ => hd) id (by simp) (fun _ => rfl)
      simpa [List.countP_append, List.countP_cons, PC.holds] using h1
    | false =>
      refine build s .lock (by simp [callStep, hd]) ?_ (by simp [hd]) (by simp [PC.after]) id (by simp) (fun _ => rfl)
      simpa [List.countP_append, List.countP_cons, PC.holds] using h1
  | lock =>
    cases hl : s.locked with
    | true =>
      refine build s .lock (by simp [callStep, hl]) ?_ (fun hd => ⟨rfl, restC hd⟩) (by simp [PC.after]) id (by simp) (fun _ => rfl)
      simpa [List.countP_append, List.countP_cons, PC.holds] using h1
    | false =>
      refine build { s with locked := true } .recheck (by simp [callStep, hl]) ?_ (fun hd => ⟨rfl, restC hd⟩) (by simp [PC.after]) id
        (by simp) (fun _ => rfl)
      simp only [show PC.holds .lock = false from rfl, hl, Bool.false_eq_true, if_false] at h1
      simp only [List.countP_append, List.countP_cons, show PC.holds .recheck = true from rfl, if_true]
      omega
  | recheck =>
    cases hd : s.done with
    | true =>
      refine build s .unlock (by simp [callStep, hd]) ?_ (fun _ => ⟨rfl, restC hd⟩) (fun _ => hd) id (by simp) (fun _ => rfl)
      simpa [List.countP_append, List.countP_cons, PC.holds] using h1
    | false =>
      refine build s .writeKey (by simp [callStep, hd]) ?_ (by simp [hd]) (by simp [PC.after]) id (by simp) (fun _ => rfl)
      simpa [List.countP_append, List.countP_cons, PC.holds] using h1
  | writeKey =>
    have hd := notdone rfl
    refine build { s with hashKey := s.key } .lenCheck rfl ?_ (by simp [hd]) (by simp [PC.after]) id (by simp) (by simp [hd])
    simpa [List.countP_append, List.countP_cons, PC.holds] using h1
  | lenCheck =>
    have hd := notdone rfl
    by_cases hl : s.tags.length ≤ 0
    · refine build s .setDone (by simp only [callStep, if_pos hl]) ?_ (by simp [hd]) (by simp [PC.after]) id (by simp) (fun _ => rfl)
      simpa [List.countP_append, List.countP_cons, PC.holds] using h1
    · refine build s .writeSep (by simp only [callStep, if_neg hl]) ?_ (by simp [hd]) (by simp [PC.after]) id (by simp) (fun _ => rfl)
      simpa [List.countP_append, List.countP_cons, PC.holds] using h1
  | writeSep =>
    have hd := notdone rfl
    refine build { s with hashKey := s.hashKey ++ keyTagsSeparator } .range rfl ?_ (by simp [hd]) (by simp [PC.after]) id (by simp)
      (by simp [hd])
    simpa [List.countP_append, List.countP_cons, PC.holds] using h1
  | range =>
    have hd := notdone rfl
    refine build s _ rfl ?_ (by simp [hd]) (by simp [PC.after]) id (by simp) (fun _ => rfl)
    simpa [List.countP_append, List.countP_cons, PC.holds] using h1
  | loop rest =>
    have hd := notdone rfl
    cases rest with
    | nil =>
      refine build s .setDone rfl ?_ (by simp [hd]) (by simp [PC.after]) id (by simp) (fun _ => rfl)
      simpa [List.countP_append, List.countP_cons, PC.holds] using h1
    | cons t rest =>
      refine build { s with hashKey := s.hashKey ++ tagPiece t } (.loop rest) rfl ?_ (by simp [hd]) (by simp [PC.after]) id (by simp)
        (by simp [hd])
      simpa [List.countP_append, List.countP_cons, PC.holds] using h1
  | setDone =>
    refine build { s with done := true } .unlock rfl ?_ (fun _ => ⟨rfl, restH rfl⟩) (fun _ => rfl) (fun _ => rfl) (by simp) (fun _ => rfl)
    simpa [List.countP_append, List.countP_cons, PC.holds] using h1
  | unlock =>
    have hd := c3 (Or.inr rfl)
    refine build { s with locked := false } .ret rfl ?_ (fun _ => ⟨rfl, restC hd⟩) (fun _ => hd) id (by simp) (fun _ => rfl)
    simp only [show PC.holds .unlock = true from rfl, if_true] at h1
    have ha : pre.countP PC.holds + post.countP PC.holds = 0 := by split at h1 <;> omega
    simp only [List.countP_append, List.countP_cons, show PC.holds .ret = false from rfl, Bool.false_eq_true, if_false]
    omega
  | ret =>
    have hd := c3 (Or.inl rfl)
    refine build s (.returned s.hashKey) rfl ?_ (fun _ => ⟨rfl, restC hd⟩) (fun _ => hd) id (by simp) (fun _ => rfl)
    simpa [List.countP_append, List.countP_cons, PC.holds] using h1
  | returned h =>
    have hd := c3 (Or.inl rfl)
    refine build s (.returned h) rfl ?_ (fun _ => ⟨rfl, restC hd⟩) (fun _ => hd) id
      (fun h' e => c4 h' (by rw [← e])) (fun _ => rfl)
    simpa [List.countP_append, List.countP_cons, PC.holds] using h1
  | setKey k =>
    refine build { s with key := k } .finished rfl ?_ (fun hd => ⟨rfl, restC hd⟩) (by simp [PC.after]) id (by simp) (fun _ => rfl)
    simpa [List.countP_append, List.countP_cons, PC.holds] using h1
  | setTags t =>
    refine build { s with tags := t } .finished rfl ?_ (fun hd => ⟨rfl, restC hd⟩) (by simp [PC.after]) id (by simp) (fun _ => rfl)
    simpa [List.countP_append, List.countP_cons, PC.holds] using h1
  | finished =>
    refine build s .finished rfl ?_ (fun hd => ⟨rfl, restC hd⟩) (by simp [PC.after]) id (by simp) (fun _ => rfl)
    simpa [List.countP_append, List.countP_cons, PC.holds] using h1

theorem inv_all (key : GoStr) (tags : GoMap GoStr GoStr) (es : List (Ev Call (List (GoStr × GoStr)))) :
    Inv (conc.run (Machine.start { key := key, tags := tags }) es).shared
      (conc.run (Machine.start { key := key, tags := tags }) es).calls := by
  refine conc.inv_run (fun p => Inv p.shared p.calls) ?_ ?_ _ ?_ es
  · intro s cs a h
    have hb : (begin a).holds = false ∧ (begin a).inClosure = false ∧ (begin a).after = false ∧ begin a ≠ .unlock ∧
        ∀ h, begin a ≠ .returned h := by cases a <;> simp [begin, PC.holds, PC.inClosure, PC.after]
    obtain ⟨b1, b2, b3, b4, b5⟩ := hb
    refine ⟨?_, fun hd d hm => ?_, fun d hm hx => ?_, fun d hm hh he => ?_⟩
    · have := h.lock
      show (cs ++ [begin a]).countP PC.holds = _
      rw [List.countP_append, List.countP_singleton, b1, this]; rfl
    all_goals
      rcases List.mem_append.1 hm with hm | hm
    · exact h.closure hd d hm
    · simp only [List.mem_singleton] at hm; subst hm; exact b2
    · exact h.after d hm hx
    · simp only [List.mem_singleton] at hm; subst hm
      rcases hx with hx | hx
      · have : (begin a).after = true := hx
        rw [b3] at this; simp at this
      · exact absurd hx b4
    · exact h.result d hm hh he
    · simp only [List.mem_singleton] at hm; subst hm; exact absurd he (b5 hh)
  · intro s pre c post x h; exact inv_step x h
  · exact ⟨by simp [Machine.start], by simp [Machine.start], by simp [Machine.start], by simp [Machine.start]⟩

end MetricName
open MetricName

/-- **C39.** In every interleaving of any number of `HashKey()` calls with each other and with assignments to `Key` and `Tags`, all calls return
the same string. -/
theorem C39_same_string (key : GoStr) (tags : GoMap GoStr GoStr) (es : List (Ev Call (List (GoStr × GoStr)))) (h h' : GoStr)
    (h1 : .returned h ∈ (conc.run (Machine.start { key := key, tags := tags }) es).calls)
    (h2 : .returned h' ∈ (conc.run (Machine.start { key := key, tags := tags }) es).calls) : h = h' := by
  have hi := inv_all key tags es
  rw [hi.result _ h1 h rfl, hi.result _ h2 h' rfl]

namespace MetricName
/-- While nobody assigns to the fields: what has been built so far, and what is to come. -/
structure Built (key : GoStr) (tags : GoMap GoStr GoStr) (s : Shared) (cs : List PC) : Prop where
  inv : Inv s cs
  key_eq : s.key = key
  tags_eq : s.tags = tags
  noset : ∀ c ∈ cs, (∀ k, c ≠ .setKey k) ∧ ∀ t, c ≠ .setTags t
  stage : ∀ c ∈ cs,
    (c = .lenCheck → s.hashKey = key) ∧ (c = .writeSep → s.hashKey = key ∧ tags ≠ []) ∧
    (c = .range → s.hashKey = key ++ keyTagsSeparator ∧ tags ≠ []) ∧
    (∀ rest, c = .loop rest → ∃ order, order.Perm tags ∧ tags ≠ [] ∧ s.hashKey ++ (rest.map tagPiece).flatten = compute key order) ∧
    (c = .setDone → ∃ order, order.Perm tags ∧ s.hashKey = compute key order)
  final : s.done = true → ∃ order, order.Perm tags ∧ s.hashKey = compute key order

theorem built_step {key : GoStr} {tags : GoMap GoStr GoStr} {s : Shared} {pre : List PC} {c : PC} {post : List PC}
    (x : List (GoStr × GoStr)) (h : Built key tags s (pre ++ c :: post)) :
    Built key tags (callStep s x c).1 (pre ++ (callStep s x c).2 :: post) := by
  have hinv' := inv_step x h.inv
  have hcm : c ∈ pre ++ c :: post := by simp
  have hst := h.stage c hcm
  have old : ∀ d, (d ∈ pre ∨ d ∈ post) → d ∈ pre ++ c :: post := by
    rintro d (hd | hd) <;> simp [hd]
  have mem : ∀ d, d ∈ pre ++ (callStep s x c).2 :: post → d = (callStep s x c).2 ∨ (d ∈ pre ∨ d ∈ post) := by
    intro d hd
    rcases List.mem_append.1 hd with hd | hd
    · exact Or.inr (Or.inl hd)
    · rcases List.mem_cons.1 hd with hd | hd
      · exact Or.inl hd
      · exact Or.inr (Or.inr hd)
  have excl : c.holds = true → ∀ d, d ∈ pre ∨ d ∈ post → d.holds = false := by
    intro hc d hd
    have h1 := h.inv.lock
    simp only [List.countP_append, List.countP_cons, hc, if_true] at h1
    have ha : pre.countP PC.holds = 0 := by split at h1 <;> omega
    have hb : post.countP PC.holds = 0 := by split at h1 <;> omega
    rw [List.countP_eq_zero] at ha hb
    rcases hd with hd | hd
    · simpa using ha d hd
    · simpa using hb d hd
  have notdone : c.inClosure = true → s.done = false := by
    intro hc
    cases hd : s.done with
    | false => rfl
    | true => have := h.inv.closure hd c hcm; rw [hc] at this; simp at this
  have hkey := h.key_eq
  have htags := h.tags_eq
  -- the stage of the others: unchanged if hashKey is unchanged, vacuous if c holds the lock
  have others : (callStep s x c).1.hashKey = s.hashKey ∨ c.holds = true → ∀ d, (d ∈ pre ∨ d ∈ post) →
    (d = .lenCheck → (callStep s x c).1.hashKey = key) ∧ (d = .writeSep → (callStep s x c).1.hashKey = key ∧ tags ≠ []) ∧
    (d = .range → (callStep s x c).1.hashKey = key ++ keyTagsSeparator ∧ tags ≠ []) ∧
    (∀ rest, d = .loop rest → ∃ order, order.Perm tags ∧ tags ≠ [] ∧
      (callStep s x c).1.hashKey ++ (rest.map tagPiece).flatten = compute key order) ∧
    (d = .setDone → ∃ order, order.Perm tags ∧ (callStep s x c).1.hashKey = compute key order) := by
    rintro (e | e) d hd
    · rw [e]; exact h.stage d (old d hd)
    · have := excl e d hd
      refine ⟨?_, ?_, ?_, ?_, ?_⟩
      · rintro rfl; simp [PC.holds] at this
      · rintro rfl; simp [PC.holds] at this
      · rintro rfl; simp [PC.holds] at this
      · rintro rest rfl; simp [PC.holds] at this
      · rintro rfl; simp [PC.holds] at this
  have keeps : ∀ s' c', callStep s x c = (s', c') → s'.key = s.key → s'.tags = s.tags →
      ((∀ k, c' ≠ .setKey k) ∧ ∀ t, c' ≠ .setTags t) → (s'.hashKey = s.hashKey ∨ c.holds = true) →
      ((c' = .lenCheck → s'.hashKey = key) ∧ (c' = .writeSep → s'.hashKey = key ∧ tags ≠ []) ∧
      (c' = .range → s'.hashKey = key ++ keyTagsSeparator ∧ tags ≠ []) ∧
      (∀ rest, c' = .loop rest → ∃ order, order.Perm tags ∧ tags ≠ [] ∧ s'.hashKey ++ (rest.map tagPiece).flatten = compute key order) ∧
      (c' = .setDone → ∃ order, order.Perm tags ∧ s'.hashKey = compute key order)) →
      (s'.done = true → ∃ order, order.Perm tags ∧ s'.hashKey = compute key order) →
      Built key tags (callStep s x c).1 (pre ++ (callStep s x c).2 :: post) := by
    intro s' c' e a1 a2 a3 a4 a5 a6
    have e1 : (callStep s x c).1 = s' := by rw [e]
    have e2 : (callStep s x c).2 = c' := by rw [e]
    rw [e1] at others
    refine ⟨hinv', by rw [e1, a1, hkey], by rw [e1, a2, htags], fun d hd => ?_, fun d hd => ?_, by rw [e1]; exact a6⟩
    · rcases mem d hd with rfl | hd
      · rw [e2]; exact a3
      · exact h.noset d (old d hd)
    · rw [e1]
      rcases mem d hd with hd | hd
      · rw [hd, e2]; exact a5
      · exact others a4 d hd
  have hns := h.noset c hcm
  cases c with
  | fast =>
    cases hd : s.done <;> exact keeps s _ (by simp only [callStep, hd]; rfl) rfl rfl (by simp) (Or.inl rfl) (by simp) h.final
  | lock =>
    cases hl : s.locked with
    | true => exact keeps s .lock (by simp [callStep, hl]) rfl rfl (by simp) (Or.inl rfl) (by simp) h.final
    | false => exact keeps { s with locked := true } .recheck (by simp [callStep, hl]) rfl rfl (by simp) (Or.inl rfl) (by simp) h.final
  | recheck =>
    cases hd : s.done <;> exact keeps s _ (by simp only [callStep, hd]; rfl) rfl rfl (by simp) (Or.inl rfl) (by simp) h.final
  | writeKey =>
    have hd := notdone rfl
    exact keeps { s with hashKey := s.key } .lenCheck rfl rfl rfl (by simp) (Or.inr rfl) (by simp [hkey]) (by simp [hd])
  | lenCheck =>
    have hd := notdone rfl
    by_cases hl : s.tags.length ≤ 0
    · refine keeps s .setDone (by simp only [callStep, if_pos hl]) rfl rfl (by simp) (Or.inl rfl) ?_ (by simp [hd])
      have ht : tags = [] := by rw [← htags]; exact List.length_eq_zero_iff.1 (by omega)
      simp only [reduceCtorEq, false_implies, implies_true, true_and, true_implies]
      exact ⟨[], by rw [ht], by rw [hst.1 rfl]; rfl⟩
    · refine keeps s .writeSep (by simp only [callStep, if_neg hl]) rfl rfl (by simp) (Or.inl rfl) ?_ (by simp [hd])
      have ht : tags ≠ [] := by rw [← htags]; intro e; rw [e] at hl; simp at hl
      simp [hst.1 rfl, ht]
  | writeSep =>
    have hd := notdone rfl
    obtain ⟨a, b⟩ := hst.2.1 rfl
    exact keeps { s with hashKey := s.hashKey ++ keyTagsSeparator } .range rfl rfl rfl (by simp) (Or.inr rfl) (by simp [a, b])
      (by simp [hd])
  | range =>
    have hd := notdone rfl
    obtain ⟨a, b⟩ := hst.2.2.1 rfl
    refine keeps s _ rfl rfl rfl (by simp) (Or.inl rfl) ?_ (by simp [hd])
    simp only [reduceCtorEq, false_implies, implies_true, true_and, and_true, PC.loop.injEq]
    rintro rest rfl
    refine ⟨if x.isPerm s.tags = true then x else s.tags, ?_, b, ?_⟩
    · rw [← htags]
      split
      · rename_i hp; exact List.isPerm_iff.1 hp
      · exact List.Perm.refl _
    · have hne : ¬ (if x.isPerm s.tags = true then x else s.tags).length ≤ 0 := by
        intro hl
        have hz : (if x.isPerm s.tags = true then x else s.tags) = [] := List.length_eq_zero_iff.1 (by omega)
        have hp : (if x.isPerm s.tags = true then x else s.tags).Perm s.tags := by
          split
          · rename_i hp; exact List.isPerm_iff.1 hp
          · exact List.Perm.refl _
        rw [hz] at hp
        exact b (by rw [← htags]; exact hp.symm.eq_nil)
      rw [compute, if_neg hne, a]
  | loop rest =>
    have hd := notdone rfl
    obtain ⟨order, o1, o2, o3⟩ := hst.2.2.2.1 rest rfl
    cases rest with
    | nil =>
      refine keeps s .setDone rfl rfl rfl (by simp) (Or.inl rfl) ?_ (by simp [hd])
      simp only [reduceCtorEq, false_implies, implies_true, true_and, true_implies]
      exact ⟨order, o1, by simpa using o3⟩
    | cons t rest =>
      refine keeps { s with hashKey := s.hashKey ++ tagPiece t } (.loop rest) rfl rfl rfl (by simp) (Or.inr rfl) ?_ (by simp [hd])
      simp only [reduceCtorEq, false_implies, implies_true, true_and, and_true, PC.loop.injEq]
      rintro r rfl
      exact ⟨order, o1, o2, by rw [← o3]; simp⟩
  | setDone =>
    obtain ⟨order, o1, o2⟩ := hst.2.2.2.2 rfl
    exact keeps { s with done := true } .unlock rfl rfl rfl (by simp) (Or.inl rfl) (by simp) (fun _ => ⟨order, o1, o2⟩)
  | unlock => exact keeps { s with locked := false } .ret rfl rfl rfl (by simp) (Or.inl rfl) (by simp) h.final
  | ret => exact keeps s (.returned s.hashKey) rfl rfl rfl (by simp) (Or.inl rfl) (by simp) h.final
  | returned v => exact keeps s (.returned v) rfl rfl rfl (by simp) (Or.inl rfl) (by simp) h.final
  | setKey k => exact absurd rfl (hns.1 k)
  | setTags t => exact absurd rfl (hns.2 t)
  | finished => exact keeps s .finished rfl rfl rfl (by simp) (Or.inl rfl) (by simp) h.final

end MetricName

/-- **C39.** If nobody assigns to the fields, what every call returns is the hash key of the name: the key, and if there are tags, "-" and the
tags in the order of some iteration of the map. -/
theorem C39_value (key : GoStr) (tags : GoMap GoStr GoStr) (es : List (Ev Call (List (GoStr × GoStr))))
    (hes : ∀ a, Ev.spawn a ∈ es → a = .hashKey) (h : GoStr)
    (h1 : .returned h ∈ (conc.run (Machine.start { key := key, tags := tags }) es).calls) :
    ∃ order, order.Perm tags ∧ h = compute key order := by
  have key' : Built key tags (conc.run (Machine.start { key := key, tags := tags }) es).shared
      (conc.run (Machine.start { key := key, tags := tags }) es).calls := by
    have : ∀ (es : List (Ev Call (List (GoStr × GoStr)))) (p : Pool Shared PC), (∀ a, Ev.spawn a ∈ es → a = .hashKey) →
        Built key tags p.shared p.calls → Built key tags (conc.run p es).shared (conc.run p es).calls := by
      intro es
      induction es with
      | nil => intro p _ hp; exact hp
      | cons e es ih =>
        intro p hp hb
        refine ih _ (fun a ha => hp a (by simp [ha])) ?_
        cases e with
        | spawn a =>
          have := hp a (by simp)
          subst this
          have hi : Inv p.shared (p.calls ++ [.fast]) := by
            refine ⟨?_, fun hd d hm => ?_, fun d hm hx => ?_, fun d hm hh he => ?_⟩
            · rw [List.countP_append, hb.inv.lock]; rfl
            all_goals rcases List.mem_append.1 hm with hm | hm
            · exact hb.inv.closure hd d hm
            · simp only [List.mem_singleton] at hm; subst hm; rfl
            · exact hb.inv.after d hm hx
            · simp only [List.mem_singleton] at hm; subst hm; simp [PC.after] at hx
            · exact hb.inv.result d hm hh he
            · simp only [List.mem_singleton] at hm; subst hm; simp at he
          refine ⟨hi, hb.key_eq, hb.tags_eq, fun d hm => ?_, fun d hm => ?_, hb.final⟩
          all_goals rcases List.mem_append.1 hm with hm | hm
          · exact hb.noset d hm
          · simp only [List.mem_singleton] at hm; subst hm; simp [conc, begin]
          · exact hb.stage d hm
          · simp only [List.mem_singleton] at hm; subst hm; simp [conc, begin]
        | step i x =>
          cases hc : p.calls[i]? with
          | none => simpa [Machine.apply, hc] using hb
          | some c =>
            obtain ⟨pre, post, e1, _, e2⟩ := conc.apply_step_eq (x := x) hc
            rw [e2]
            rw [e1] at hb
            exact built_step x hb
    refine this es _ hes ⟨⟨?_, ?_, ?_, ?_⟩, rfl, rfl, ?_, ?_, ?_⟩ <;> simp [Machine.start]
  have hd := key'.inv.after _ h1 (Or.inl rfl)
  obtain ⟨order, o1, o2⟩ := key'.final hd
  exact ⟨order, o1, by rw [key'.inv.result _ h1 h rfl, o2]⟩

/-- Two calls race, a third assigns the key after the first has written it; both return what the first computed, with the old key. -/
example :
    let p := conc.run (Machine.start { key := [107], tags := [([97], [49]), ([98], [50])] })
      ([.spawn .hashKey, .spawn .hashKey, .step 0 [], .step 1 [], .step 0 [], .step 1 [], .step 0 [], .step 0 [], .spawn (.setKey [120]),
        .step 2 [], .step 0 [], .step 0 [], .step 0 [([98], [50]), ([97], [49])], .step 0 [], .step 0 [], .step 0 [], .step 0 [], .step 0 [], .step 0 [],
        .step 1 [], .step 1 [], .step 1 [], .step 1 []] : List (Ev Call (List (GoStr × GoStr))))
    p.calls = [.returned [107, 45, 98, 58, 50, 97, 58, 49], .returned [107, 45, 98, 58, 50, 97, 58, 49], .finished] := by decide

/-! ## C40, C41 -/

/-- **C40.** With at most one tag, names with equal keys and tags have equal hash keys, whatever the iteration orders. -/
theorem C40_equal (key : GoStr) (tags tags' order order' : List (GoStr × GoStr)) (he : tags.Perm tags') (hone : tags.length ≤ 1)
    (ho : order.Perm tags) (ho' : order'.Perm tags') : compute key order = compute key order' := by
  have h : order.Perm order' := ho.trans (he.trans ho'.symm)
  have hl : order.length ≤ 1 := by rw [ho.length_eq]; exact hone
  have : order = order' := by
    match order, hl with
    | [], _ => exact h.symm.eq_nil.symm
    | [a], _ => exact List.singleton_perm.1 h
  rw [this]

/-- **C40.** With two tags they may differ: the same name, hashed in the two possible orders of iteration. -/
theorem C40_equal_refuted : ∃ key order order', order.Perm order' ∧ compute key order ≠ compute key order' :=
  ⟨[107], [([97], [49]), ([98], [50])], [([98], [50]), ([97], [49])], List.Perm.swap _ _ _, by decide⟩

/-- **C40**: hence a second `MetricName` object with the same key and tags may not find the metric: the two iteration orders give registry keys
that differ for every name with two tags whose pieces do not commute. -/
theorem C40_differs_iff (key : GoStr) (s t : GoStr × GoStr) :
    compute key [s, t] = compute key [t, s] ↔ tagPiece s ++ tagPiece t = tagPiece t ++ tagPiece s := by
  simp [compute]

/-- **C40.** In general: all iteration orders give the same hash key exactly when the pieces of any two different tags commute. -/
theorem C40_orders_iff (key : GoStr) (tags : List (GoStr × GoStr)) (hnd : tags.Nodup) :
    (∀ order order', order.Perm tags → order'.Perm tags → compute key order = compute key order') ↔
      ∀ s ∈ tags, ∀ t ∈ tags, tagPiece s ++ tagPiece t = tagPiece t ++ tagPiece s := by
  constructor
  · intro h s hs t ht
    by_cases hst : s = t
    · rw [hst]
    · obtain ⟨l, hl⟩ : ∃ l, tags.Perm (s :: t :: l) := by
        have h1 : tags.Perm (s :: tags.erase s) := List.perm_cons_erase hs
        have ht' : t ∈ tags.erase s := (List.mem_erase_of_ne (Ne.symm hst)).2 ht
        exact ⟨(tags.erase s).erase t, h1.trans (List.Perm.cons _ (List.perm_cons_erase ht'))⟩
      have := h (s :: t :: l) (t :: s :: l) hl.symm ((List.Perm.swap _ _ _).trans hl.symm)
      simp only [compute, List.length_cons, List.map_cons, List.flatten_cons] at this
      rw [if_neg (by omega), if_neg (by omega)] at this
      have := List.append_cancel_left this
      rw [← List.append_assoc, ← List.append_assoc] at this
      exact List.append_cancel_right this
  · intro h order order' ho ho'
    have key' : ∀ l l' : List (GoStr × GoStr), l.Perm l' → (∀ x ∈ l, x ∈ tags) →
        (l.map tagPiece).flatten = (l'.map tagPiece).flatten := by
      intro l l' hp
      induction hp with
      | nil => intro _; rfl
      | cons x _ ih => intro hm; simp [ih (fun y hy => hm y (List.mem_cons_of_mem _ hy))]
      | swap x y l =>
        intro hm
        have := h y (hm y (by simp)) x (hm x (by simp))
        simp [← List.append_assoc, this]
      | trans p1 _ ih1 ih2 =>
        intro hm
        exact (ih1 hm).trans (ih2 fun y hy => hm y (p1.mem_iff.2 hy))
    have hlen : order.length = order'.length := (ho.trans ho'.symm).length_eq
    unfold compute
    rw [key' order order' (ho.trans ho'.symm) (fun x hx => ho.mem_iff.1 hx), hlen]

/-- Two tags whose pieces do not commute, and two whose pieces do ("a:" and "a:a:"). -/
example : tagPiece ([97], [49]) ++ tagPiece ([98], [50]) ≠ tagPiece ([98], [50]) ++ tagPiece ([97], [49]) ∧
    tagPiece ([97], []) ++ tagPiece ([97, 58, 97], []) = tagPiece ([97, 58, 97], []) ++ tagPiece ([97], []) := by decide

/-- **C41.** Names whose key contains no "-", with at most one tag whose key contains no ":", have different hash keys if they differ. -/
theorem C41_injective (key key' : GoStr) (tags tags' : List (GoStr × GoStr))
    (hk : 45 ∉ key) (hk' : 45 ∉ key') (h1 : tags.length ≤ 1) (h1' : tags'.length ≤ 1)
    (ht : ∀ t ∈ tags, 58 ∉ t.1) (ht' : ∀ t ∈ tags', 58 ∉ t.1) (heq : compute key tags = compute key' tags') :
    key = key' ∧ tags = tags' := by
  have split : ∀ (c : UInt8) (a a' b b' : GoStr), c ∉ a → c ∉ a' → a ++ c :: b = a' ++ c :: b' → a = a' ∧ b = b' := by
    intro c a
    induction a with
    | nil =>
      intro a' b b' _ h' e
      cases a' with
      | nil => simpa using e
      | cons x a' =>
        simp only [List.nil_append, List.cons_append, List.cons.injEq] at e
        exact absurd (by simp [e.1]) h'
    | cons y a ih =>
      intro a' b b' h h' e
      cases a' with
      | nil =>
        simp only [List.nil_append, List.cons_append, List.cons.injEq] at e
        exact absurd (by simp [e.1]) h
      | cons x a' =>
        simp only [List.cons_append, List.cons.injEq] at e
        obtain ⟨rfl, e⟩ := e
        obtain ⟨rfl, rfl⟩ := ih a' b b' (fun x => h (by simp [x])) (fun x => h' (by simp [x])) e
        exact ⟨rfl, rfl⟩
  have form : ∀ key : GoStr, ∀ t : GoStr × GoStr, compute key [t] = key ++ 45 :: (t.1 ++ 58 :: t.2) := by
    intro key t; simp [compute, tagPiece, keyTagsSeparator, keyValueSeparator]
  have form0 : ∀ key : GoStr, compute key [] = key := by intro key; rfl
  match tags, tags', h1, h1' with
  | [], [], _, _ => rw [form0, form0] at heq; exact ⟨heq, rfl⟩
  | [], [t], _, _ => rw [form0, form] at heq; exact absurd (by rw [heq]; simp) hk
  | [t], [], _, _ => rw [form0, form] at heq; exact absurd (by rw [← heq]; simp) hk'
  | [t], [t'], _, _ =>
    rw [form, form] at heq
    obtain ⟨rfl, e⟩ := split 45 _ _ _ _ hk hk' heq
    obtain ⟨e1, e2⟩ := split 58 _ _ _ _ (ht t (by simp)) (ht' t' (by simp)) e
    exact ⟨rfl, by rw [show t = t' from Prod.ext e1 e2]⟩

/-- **C41.** In general it is false: the separator in the key; a ":" in a tag key; two tags that run together. -/
theorem C41_injective_refuted :
    compute [107, 45, 97, 58, 49] [] = compute [107] [([97], [49])] ∧
    compute [107] [([97, 58], [49])] = compute [107] [([97], [58, 49])] ∧
    compute [107] [([97], [49]), ([98], [50])] = compute [107] [([97], [49, 98, 58, 50])] := by decide

example : compute [107] [([97], [49])] = [107, 45, 97, 58, 49] := by decide

end GoMetrics
