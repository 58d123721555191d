import Verif.Proofs.BucketConc
/-! # A bucket inserted without a race stays in the ring, whatever races come later

`N + 1` is the length of the ring, `q` the bucket, `x` its slot. -/
namespace GoMetrics
namespace BucketCounter

/-- Going `j < L` slots forward from `x` in a ring of length `L` one arrives at `y`. -/
def Ahead (L x j y : Nat) : Prop := y < L ∧ (y = x + j ∨ y + L = x + j)

/-- The call is about to load `current` for the first time. -/
def Call.atQ1 (c : Call) : Bool :=
  match c.pc with
  | .q1 _ _ => true
  | _ => false

/-- Number of such calls. -/
def waiting (l : List Call) : Nat := (l.filter Call.atQ1).length

/-- The call has stored `current` and not yet the slot. -/
def Call.atQ34 (c : Call) : Bool :=
  match c.pc with
  | .q3 _ _ => true
  | .q4 _ _ _ => true
  | _ => false

/-- The call is going to write the slot `current` (unless `current` moves). -/
def Call.willFill (cur : Nat) (c : Call) : Prop :=
  match c.pc with
  | .q3 _ _ => True
  | .q4 _ _ k => k = cur
  | _ => False

/-- What a call inside `addLast` is about to do, when at most `B` insertions have loaded `current` since `q` was
inserted. -/
def LocOk (N q x B : Nat) (c : Call) : Prop :=
  match c.pc with
  | .q1 _ p => q < p
  | .q2 _ p k => q < p ∧ ∃ j, 1 ≤ j ∧ j ≤ B ∧ Ahead (N + 1) x j k
  | .q3 _ p => q < p
  | .q4 _ p k => q < p ∧ ∃ j, 1 ≤ j ∧ j ≤ B ∧ Ahead (N + 1) x j k
  | _ => True

theorem LocOk.mono {N q x B B' c} (h : LocOk N q x B c) (hB : B ≤ B') : LocOk N q x B' c := by
  unfold LocOk at *
  cases hpc : c.pc <;> simp only [hpc] at h ⊢ <;> try exact h
  all_goals
    obtain ⟨h1, j, h2, h3, h4⟩ := h
    exact ⟨h1, j, h2, by omega, h4⟩

/-- The ring since `q` was put into slot `x`, while no more than `N` buckets were created after `q`. -/
structure Kept (N q x : Nat) (b : BucketCounter) (calls : List Call) : Prop where
  hx : x < N + 1
  hq : q < b.heap.length
  slot : b.buckets.queue[x]? = some q
  ex : ∃ B j, B + waiting calls + (q + 1) = b.heap.length ∧ j ≤ B ∧ Ahead (N + 1) x j b.buckets.current ∧
    (j = 0 → ∀ c ∈ calls, c.atQ34 = false) ∧
    (0 < j → q < b.buckets.peek ∨ ∃ c ∈ calls, c.willFill b.buckets.current) ∧
    ∀ c ∈ calls, LocOk N q x B c

theorem waiting_split (pre post : List Call) (c : Call) :
    waiting (pre ++ c :: post) = (if c.atQ1 then 1 else 0) + waiting (pre ++ post) := by
  unfold waiting
  simp only [List.filter_append, List.filter_cons, List.length_append]
  split <;> (simp; try omega)

theorem waiting_split_false (pre post : List Call) (c : Call) (h : c.atQ1 = false) :
    waiting (pre ++ c :: post) = waiting (pre ++ post) := by
  rw [waiting_split, h]; simp

theorem mem_replace {pre post : List Call} {c c' d : Call} (h : d ∈ pre ++ c' :: post) :
    d = c' ∨ d ∈ pre ++ c :: post := by
  simp only [List.mem_append, List.mem_cons] at *
  tauto

theorem mem_replace' {pre post : List Call} {c c' d : Call} (h : d ∈ pre ++ c :: post) :
    d = c ∨ d ∈ pre ++ c' :: post := by
  simp only [List.mem_append, List.mem_cons] at *
  tauto

theorem Kept.spawn {N q x b cs} (h : Kept N q x b cs) (a : Int) : Kept N q x b (cs ++ [⟨a, .start⟩]) := by
  obtain ⟨hx, hq, hs, B, j, h1, h2, h3, h4, h5, h6⟩ := h
  refine ⟨hx, hq, hs, B, j, ?_, h2, h3, ?_, ?_, ?_⟩
  · simpa [waiting, Call.atQ1] using h1
  · intro hj c hc
    rcases List.mem_append.1 hc with hc | hc
    · exact h4 hj c hc
    · obtain rfl := List.mem_singleton.1 hc; rfl
  · intro hj
    rcases h5 hj with h | ⟨c, hc, h⟩
    · exact Or.inl h
    · exact Or.inr ⟨c, by simp [hc], h⟩
  · intro c hc
    rcases List.mem_append.1 hc with hc | hc
    · exact h6 c hc
    · obtain rfl := List.mem_singleton.1 hc; trivial

/-- A step that is not inside `addLast` before nor after. -/
theorem Kept.quiet {N q x b pre c post} (h : Kept N q x b (pre ++ c :: post)) {b' : BucketCounter} {c' : Call}
    (hb : b'.buckets = b.buckets) (hl : b'.heap.length = b.heap.length)
    (h0 : c.inAddLast = false) (h1 : c'.inAddLast = false) : Kept N q x b' (pre ++ c' :: post) := by
  have z : ∀ d : Call, d.inAddLast = false → d.atQ1 = false ∧ d.atQ34 = false ∧
      (∀ k, ¬ d.willFill k) ∧ ∀ B, LocOk N q x B d := by
    intro d hd
    unfold Call.inAddLast at hd
    unfold Call.atQ1 Call.atQ34 Call.willFill LocOk
    cases hpc : d.pc <;> simp only [hpc] at hd ⊢ <;> simp_all
  obtain ⟨hx, hq, hs, B, j, k1, k2, k3, k4, k5, k6⟩ := h
  refine ⟨hx, by rw [hl]; exact hq, by rw [hb]; exact hs, B, j, ?_, k2, by rw [hb]; exact k3, ?_, ?_, ?_⟩
  · rw [hl, ← k1, waiting_split, waiting_split, (z c h0).1, (z c' h1).1]
  · intro hj d hd
    rcases mem_replace (c := c) hd with rfl | hd
    · exact (z _ h1).2.1
    · exact k4 hj d hd
  · intro hj
    rw [hb]
    rcases k5 hj with g | ⟨d, hd, g⟩
    · exact Or.inl g
    · refine Or.inr ⟨d, ?_, g⟩
      rcases mem_replace' (c' := c') hd with rfl | hd
      · exact absurd g ((z _ h0).2.2.1 _)
      · exact hd
  · intro d hd
    rcases mem_replace (c := c) hd with rfl | hd
    · exact (z _ h1).2.2.2 B
    · exact k6 d hd

/-- One step keeps `q` in its slot as long as at most `N` newer buckets exist. -/
theorem Kept.step {N q x s pre c post t} (hsh : SharedOk N s) (h : Kept N q x s (pre ++ c :: post))
    (hN : (callStep s t c).1.heap.length ≤ q + 1 + N) :
    Kept N q x (callStep s t c).1 (pre ++ (callStep s t c).2 :: post) := by
  by_cases hin : c.inAddLast = false
  · obtain ⟨e1, e2⟩ := callStep_outside (b := s) (t := t) hin
    rcases e2 with ⟨e2, e3⟩ | ⟨⟨ts, e2⟩, e3⟩
    · exact h.quiet e1 e3 hin e2
    · -- a new bucket was created: its call is at q1
      generalize (callStep s t c).1 = b' at *
      generalize (callStep s t c).2 = c' at *
      have hc : c.atQ1 = false := by
        unfold Call.inAddLast at hin; unfold Call.atQ1
        cases hpc : c.pc <;> simp only [hpc] at hin ⊢ <;> simp_all
      have hw : ∀ k, ¬ c.willFill k := by
        intro k
        unfold Call.inAddLast at hin; unfold Call.willFill
        cases hpc : c.pc <;> simp only [hpc] at hin ⊢ <;> simp_all
      have hc' : c'.atQ1 = true := by simp [Call.atQ1, e2]
      obtain ⟨hx, hq, hs, B, j, k1, k2, k3, k4, k5, k6⟩ := h
      refine ⟨hx, by omega, by rw [e1]; exact hs, B, j, ?_, k2, by rw [e1]; exact k3, ?_, ?_, ?_⟩
      · rw [waiting_split, hc] at k1
        rw [waiting_split, hc', e3, ← k1]
        simp; omega
      · intro hj d hd
        rcases mem_replace (c := c) hd with rfl | hd
        · simp [Call.atQ34, e2]
        · exact k4 hj d hd
      · intro hj
        rw [e1]
        rcases k5 hj with g | ⟨d, hd, g⟩
        · exact Or.inl g
        · refine Or.inr ⟨d, ?_, g⟩
          rcases mem_replace' (c' := c') hd with rfl | hd
          · exact absurd g (hw _)
          · exact hd
      · intro d hd
        rcases mem_replace (c := c) hd with rfl | hd
        · simp only [LocOk, e2]; omega
        · exact k6 d hd
  · obtain ⟨hx, hq, hs, B, j, k1, k2, k3, k4, k5, k6⟩ := h
    have hloc := k6 c (by simp)
    have hql := hsh.qlen
    have hcur := hsh.cur
    unfold callStep at hN ⊢
    unfold Call.inAddLast at hin
    unfold LocOk at hloc
    cases hpc : c.pc <;> simp only [hpc] at hin hloc hN ⊢ <;> (try exact absurd trivial hin)
    case q1 ts p =>
      have hw : waiting (pre ++ c :: post) = 1 + waiting (pre ++ post) := by
        rw [waiting_split]; simp [Call.atQ1, hpc]
      refine ⟨hx, hq, hs, B + 1, j, ?_, by omega, k3, ?_, ?_, ?_⟩
      · rw [waiting_split_false pre post _ rfl]; omega
      · intro hj d hd
        rcases mem_replace (c := c) hd with rfl | hd
        · rfl
        · exact k4 hj d hd
      · intro hj
        rcases k5 hj with g | ⟨d, hd, g⟩
        · exact Or.inl g
        · refine Or.inr ⟨d, ?_, g⟩
          rcases mem_replace' hd with rfl | hd
          · simp [Call.willFill, hpc] at g
          · exact hd
      · intro d hd
        rcases mem_replace (c := c) hd with rfl | hd
        · simp only [LocOk]
          refine ⟨hloc, j + 1, by omega, by omega, ?_⟩
          unfold Ahead at k3 ⊢
          rw [hql]
          by_cases hw : s.buckets.current + 1 = N + 1
          · rw [hw, Nat.mod_self]; omega
          · rw [Nat.mod_eq_of_lt (by omega)]; omega
        · exact (k6 d hd).mono (by omega)
    case q2 ts p k =>
      obtain ⟨hp, j', g1, g2, g3⟩ := hloc
      have hw : waiting (pre ++ c :: post) = waiting (pre ++ post) := by
        rw [waiting_split]; simp [Call.atQ1, hpc]
      refine ⟨hx, hq, hs, B, j', ?_, g2, g3, ?_, ?_, ?_⟩
      · rw [waiting_split_false pre post _ rfl]; simp only; omega
      · intro hj; omega
      · intro _
        exact Or.inr ⟨{ c with pc := .q3 ts p }, by simp, trivial⟩
      · intro d hd
        rcases mem_replace (c := c) hd with rfl | hd
        · exact hp
        · exact k6 d hd
    case q3 ts p =>
      have hj : j ≠ 0 := by
        intro hj
        have := k4 hj c (by simp)
        simp [Call.atQ34, hpc] at this
      have hw : waiting (pre ++ c :: post) = waiting (pre ++ post) := by
        rw [waiting_split]; simp [Call.atQ1, hpc]
      refine ⟨hx, hq, hs, B, j, ?_, k2, k3, ?_, ?_, ?_⟩
      · rw [waiting_split_false pre post _ rfl]; omega
      · intro hj'; exact absurd hj' hj
      · intro _
        exact Or.inr ⟨{ c with pc := .q4 ts p s.buckets.current }, by simp, rfl⟩
      · intro d hd
        rcases mem_replace (c := c) hd with rfl | hd
        · exact ⟨hloc, j, by omega, k2, k3⟩
        · exact k6 d hd
    case q4 ts p k =>
      obtain ⟨hp, j', g1, g2, g3⟩ := hloc
      have hj : j ≠ 0 := by
        intro hj
        have := k4 hj c (by simp)
        simp [Call.atQ34, hpc] at this
      have hw : waiting (pre ++ c :: post) = waiting (pre ++ post) := by
        rw [waiting_split]; simp [Call.atQ1, hpc]
      have hkx : k ≠ x := by
        unfold Ahead at g3
        omega
      refine ⟨hx, hq, ?_, B, j, ?_, k2, k3, ?_, ?_, ?_⟩
      · simp only [List.getElem?_set_ne hkx]; exact hs
      · rw [waiting_split_false pre post _ rfl]; simp only; omega
      · intro hj'; exact absurd hj' hj
      · intro hj'
        by_cases hk : k = s.buckets.current
        · left
          unfold Deque.peek Deque.slot
          simp only [hk]
          rw [List.getElem?_set_self (by omega)]
          exact hp
        · rcases k5 hj' with g | ⟨d, hd, g⟩
          · left
            unfold Deque.peek Deque.slot at g ⊢
            simp only
            rw [List.getElem?_set_ne hk]; exact g
          · refine Or.inr ⟨d, ?_, g⟩
            rcases mem_replace' hd with rfl | hd
            · simp only [Call.willFill, hpc] at g; exact absurd g hk
            · exact hd
      · intro d hd
        rcases mem_replace (c := c) hd with rfl | hd
        · trivial
        · exact k6 d hd

/-- Where the bucket of interval `own` is in its life: not created; being inserted, by the only call inside
`addLast`; inserted. -/
def Stage (N : Nat) (own : Int) (b : BucketCounter) (calls : List Call) : Prop :=
  (∀ q, q < b.heap.length → b.tsOf q ≠ own) ∨
  (∃ q, ∃ c ∈ calls, c.inAddLast = true ∧ c.ptr = some q ∧ N < q ∧ q + 1 = b.heap.length ∧ b.tsOf q = own ∧
    busy ⟨b, calls⟩ = 1 ∧ ∀ ts p k, c.pc = .q4 ts p k → k = b.buckets.current) ∨
  (∃ q, N < q ∧ q < b.heap.length ∧ b.tsOf q = own ∧ (b.heap.length ≤ q + 1 + N → ∃ x, Kept N q x b calls))

theorem waiting_le_busy (b : BucketCounter) (l : List Call) (h : busy ⟨b, l⟩ = 0) : waiting l = 0 := by
  unfold waiting
  rw [List.length_eq_zero_iff, List.filter_eq_nil_iff]
  intro c hc
  have := filter_nil_of_busy h c hc
  unfold Call.inAddLast at this
  unfold Call.atQ1
  cases hpc : c.pc <;> simp only [hpc] at this ⊢ <;> simp_all

theorem stage_spawn {N own b cs} (h : Stage N own b cs) (a : Int) : Stage N own b (cs ++ [⟨a, .start⟩]) := by
  rcases h with h | ⟨q, c, hc, h1, h2, h3, h4, h5, h6, h7⟩ | ⟨q, h1, h2, h3, h4⟩
  · exact Or.inl h
  · refine Or.inr (Or.inl ⟨q, c, by simp [hc], h1, h2, h3, h4, h5, ?_, h7⟩)
    rw [← h6]
    simp [busy, Call.inAddLast]
  · refine Or.inr (Or.inr ⟨q, h1, h2, h3, ?_⟩)
    intro hl
    obtain ⟨x, hx⟩ := h4 hl
    exact ⟨x, hx.spawn a⟩

theorem stage_step {N : Nat} {own : Int} {s : BucketCounter} {pre post : List Call} {c : Call} {t : Int}
    (hc : CInv N ⟨s, pre ++ c :: post⟩) (h : Stage N own s (pre ++ c :: post)) (hown : 0 ≤ own)
    (hex : ∀ d ∈ pre ++ (callStep s t c).2 :: post, d.inAddLast = true →
      (∃ q, d.ptr = some q ∧ (callStep s t c).1.tsOf q = own) →
      busy ⟨(callStep s t c).1, pre ++ (callStep s t c).2 :: post⟩ ≤ 1) :
    Stage N own (callStep s t c).1 (pre ++ (callStep s t c).2 :: post) := by
  have hsh := hc.shared
  have hcok := hc.calls c (by simp)
  simp only at hsh hcok
  obtain ⟨g1, g2, g3⟩ := callStep_ok (t := t) hsh hcok
  rcases h with h | ⟨q, d, hd, h1, h2, h3, h4, h5, h6, h7⟩ | ⟨q, h1, h2, h3, h4⟩
  · obtain ⟨-, -, k3⟩ := callStep_ptr (b := s) (t := t) (c := c) hsh
    rcases k3 with k3 | ⟨k3, k4⟩
    · left
      intro q hq
      rw [g2.ts q (by omega)]
      exact h q (by omega)
    · by_cases he : (callStep s t c).1.tsOf s.heap.length = own
      · right; left
        have hin : c.inAddLast = false := by
          by_contra hcon
          have hcon : c.inAddLast = true := by simpa using hcon
          unfold Call.inAddLast at hcon
          unfold callStep at k3
          cases hpc : c.pc <;> simp only [hpc] at hcon k3 <;> simp at k3 hcon
        obtain ⟨e1, e2⟩ := callStep_outside (b := s) (t := t) hin
        rcases e2 with ⟨e2, e3⟩ | ⟨⟨ts, e2⟩, e3⟩
        · omega
        · have hin' : (callStep s t c).2.inAddLast = true := by simp [Call.inAddLast, e2]
          have hb := hex _ (by simp) hin' ⟨_, k4, he⟩
          refine ⟨s.heap.length, _, by simp, hin', k4, by have := hsh.len; omega, by omega, he, ?_, ?_⟩
          · rw [busy_split, if_pos hin'] at hb ⊢
            omega
          · intro ts' p k hk
            rw [e2] at hk; cases hk
      · left
        intro q hq
        by_cases hq' : q < s.heap.length
        · rw [g2.ts q hq']; exact h q hq'
        · have : q = s.heap.length := by omega
          subst this; exact he
  · by_cases hin : c.inAddLast = true
    · -- the call inserting the bucket steps
      rw [busy_split, if_pos hin] at h6
      have hothers := filter_nil_of_busy (show ((pre ++ post).filter Call.inAddLast).length = 0 by omega)
      have hdc : d = c := by
        rcases List.mem_append.1 hd with hd | hd
        · rw [hothers d (by simp [hd])] at h1; cases h1
        · rcases List.mem_cons.1 hd with rfl | hd
          · rfl
          · rw [hothers d (by simp [hd])] at h1; cases h1
      subst hdc
      have hfin : ∀ (b' : BucketCounter) (c' : Call), c'.inAddLast = true →
          busy ⟨b', pre ++ c' :: post⟩ = 1 := by
        intro b' c' h'
        rw [busy_split, if_pos h']; omega
      have hlen := hsh.len
      unfold callStep
      unfold Call.inAddLast at hin
      unfold Call.ptr at h2
      cases hpc : d.pc <;> simp only [hpc, Option.some.injEq] at hin h2 ⊢ <;> (try exact absurd hin (by decide))
      case q1 ts p =>
        subst h2
        refine Or.inr (Or.inl ⟨p, { d with pc := .q2 ts p ((s.buckets.current + 1) % s.buckets.queue.length) },
          by simp, rfl, rfl, h3, h4, h5, hfin _ _ rfl, ?_⟩)
        intro _ _ _ hk; cases hk
      case q2 ts p k =>
        subst h2
        refine Or.inr (Or.inl ⟨p, { d with pc := .q3 ts p }, by simp, rfl, rfl, h3, h4, h5, hfin _ _ rfl, ?_⟩)
        intro _ _ _ hk; cases hk
      case q3 ts p =>
        subst h2
        refine Or.inr (Or.inl ⟨p, { d with pc := .q4 ts p s.buckets.current },
          by simp, rfl, rfl, h3, h4, h5, hfin _ _ rfl, ?_⟩)
        intro _ _ _ hk; cases hk; rfl
      case q4 ts p k =>
        subst h2
        have hk := h7 ts p k hpc
        subst hk
        refine Or.inr (Or.inr ⟨p, h3, by simp only; omega, h5, ?_⟩)
        intro _
        have hcur := hsh.cur
        have hql := hsh.qlen
        have hb0 : busy ⟨s, pre ++ { d with pc := .add ts p } :: post⟩ = 0 := by
          rw [busy_split]; simp only [Call.inAddLast]
          simp only [Bool.false_eq_true, if_false]; omega
        have hall := filter_nil_of_busy hb0
        refine ⟨s.buckets.current, hcur, by simp only; omega, ?_, 0, 0, ?_, le_rfl, ?_, ?_, ?_, ?_⟩
        · simp only
          rw [List.getElem?_set_self (by omega)]
        · rw [waiting_le_busy s _ hb0]; simp only; omega
        · exact ⟨hcur, Or.inl rfl⟩
        · intro _ e he
          have := hall e he
          unfold Call.inAddLast at this
          unfold Call.atQ34
          cases hpe : e.pc <;> simp only [hpe] at this ⊢ <;> simp_all
        · intro h0; omega
        · intro e he
          have := hall e he
          unfold Call.inAddLast at this
          unfold LocOk
          cases hpe : e.pc <;> simp only [hpe] at this ⊢ <;> simp_all
    · have hin : c.inAddLast = false := by simpa using hin
      have hd' : d ∈ pre ++ (callStep s t c).2 :: post := by
        rcases mem_replace' (c' := (callStep s t c).2) hd with rfl | hd
        · rw [hin] at h1; cases h1
        · exact hd
      have hts : (callStep s t c).1.tsOf q = own := by rw [g2.ts q (by omega)]; exact h5
      have hb := hex d hd' h1 ⟨q, h2, hts⟩
      obtain ⟨e1, e2⟩ := callStep_outside (b := s) (t := t) hin
      rw [busy_split, if_neg (by simp [hin])] at h6
      rcases e2 with ⟨e2, e3⟩ | ⟨⟨ts, e2⟩, e3⟩
      · refine Or.inr (Or.inl ⟨q, d, hd', h1, h2, h3, by omega, hts, ?_, ?_⟩)
        · rw [busy_split, if_neg (by simp [e2])]; exact h6
        · intro ts p k hk; rw [e1]; exact h7 ts p k hk
      · exfalso
        have hin' : (callStep s t c).2.inAddLast = true := by simp [Call.inAddLast, e2]
        rw [busy_split, if_pos hin'] at hb
        omega
  · refine Or.inr (Or.inr ⟨q, h1, lt_of_lt_of_le h2 g2.len, by rw [g2.ts q h2]; exact h3, ?_⟩)
    intro hl
    obtain ⟨x, hx⟩ := h4 (le_trans g2.len hl)
    exact ⟨x, hx.step hsh hl⟩

/-- Every reachable state, when the bucket of interval `own` was inserted by a call that was alone inside `addLast`. -/
theorem stage_run (N : Nat) (interval t0 : Int) (u : Bool) (own : Int) (hown : 0 ≤ own) (es : List (Ev Int Int))
    (hex : ∀ k, ∀ d ∈ (conc.run (Machine.start (new interval N t0 u)) (es.take k)).calls, d.inAddLast = true →
      (∃ q, d.ptr = some q ∧ (conc.run (Machine.start (new interval N t0 u)) (es.take k)).shared.tsOf q = own) →
      busy (conc.run (Machine.start (new interval N t0 u)) (es.take k)) ≤ 1) :
    Stage N own (conc.run (Machine.start (new interval N t0 u)) es).shared
      (conc.run (Machine.start (new interval N t0 u)) es).calls := by
  induction es using List.reverseRecOn with
  | nil =>
    left
    intro q hq
    have h := sharedOk_new interval N t0 u
    have hl : (new interval N t0 u).heap.length = N + 1 := by simp [new, Deque.newHeap]
    have hq : q < (new interval N t0 u).heap.length := hq
    show (new interval N t0 u).tsOf q ≠ own
    rw [h.placeholder q (by omega)]; omega
  | append_singleton es e ih =>
    have ih := ih (by
      intro k
      by_cases hk : k ≤ es.length
      · have := hex k
        rwa [List.take_append_of_le_length hk] at this
      · have := hex es.length
        rw [List.take_append_of_le_length le_rfl, List.take_length] at this
        rw [List.take_of_length_le (by omega)]; exact this)
    have hex := hex (es.length + 1)
    rw [List.take_of_length_le (by simp)] at hex
    have hc := cinv_run N _ (sharedOk_new interval N t0 u) es
    rw [Machine.run_snoc] at hex ⊢
    generalize conc.run (Machine.start (new interval N t0 u)) es = p at *
    cases e with
    | spawn a => exact stage_spawn ih a
    | step i x =>
      cases h : p.calls[i]? with
      | none => simpa [Machine.apply, h] using ih
      | some c =>
        obtain ⟨pre, post, h1, _, h2⟩ := conc.apply_step_eq (x := x) h
        rw [h2] at hex ⊢
        obtain ⟨s, cs⟩ := p
        simp only at h1
        subst h1
        exact stage_step hc ih hown hex

/-- At rest, a kept bucket is in the list the queries iterate, if fewer than `N` newer ones exist. -/
theorem Kept.mem_list {N q x : Nat} {b : BucketCounter} {calls : List Call} (h : Kept N q x b calls)
    (hsh : SharedOk N b) (hqN : N < q) (hret : ∀ c ∈ calls, c.returned) (hN : b.heap.length < q + 1 + N) :
    q ∈ b.buckets.getBucketList b.heap := by
  obtain ⟨hx, hq, hs, B, j, k1, k2, k3, k4, k5, k6⟩ := h
  have hql := hsh.qlen
  have hcur := hsh.cur
  have hslot : b.buckets.slot x = q := by unfold Deque.slot; rw [hs]; rfl
  unfold Deque.getBucketList
  simp only
  rw [List.mem_append]
  unfold Ahead at k3
  by_cases hw : x ≤ b.buckets.current
  · left
    refine List.mem_map.2 ⟨x, ?_, hslot⟩
    rw [Deque.loop1_eq _ _ _ le_rfl]
    refine List.mem_map.2 ⟨b.buckets.current - x, ?_, by omega⟩
    rw [List.mem_range]; omega
  · right
    refine List.mem_filter.2 ⟨List.mem_map.2 ⟨x, ?_, hslot⟩, ?_⟩
    · rw [Deque.loop2_eq]
      refine List.mem_map.2 ⟨b.buckets.queue.length - 1 - x, ?_, by omega⟩
      rw [List.mem_range]; omega
    · simp only [decide_eq_true_eq]
      rcases k5 (by omega) with g | ⟨c, hc, g⟩
      · have hp : b.buckets.peek < b.heap.length := by
          unfold Deque.peek Deque.slot
          rw [List.getElem?_eq_getElem (by omega)]
          exact hsh.slots _ (List.getElem_mem _)
        have := hsh.inc q b.buckets.peek hqN g hp
        unfold tsOf Deque.peek at this
        omega
      · obtain ⟨ts, r, hpc⟩ := hret c hc
        simp [Call.willFill, hpc] at g

end BucketCounter
end GoMetrics
