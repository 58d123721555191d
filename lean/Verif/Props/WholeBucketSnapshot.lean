import Verif.Proofs.WholeBucketSnapshot
import Verif.Props.WholeBucketProgress
/-! # C97 — snapshots of a whole compass with a bucket reservoir while others use it -/
namespace GoMetrics
open Whole
open Spec
namespace Whole
open CompassConc (MarkArg Mark Marks)
open BucketPair (Upd SnapPC counted Event eventStep durations readings)

theorem sim_start (bi : Int) (n : Nat) (maxErr maxAdd now t1 t2 tv : Int) (k : Nat) :
    Sim k (init (BucketCounter.new bi n tv true) bi n maxErr maxAdd now t1 t2) (BucketPair.after bi n t1 tv []) :=
  ⟨rfl, rfl, rfl, fun i c h => by simp [init, Machine.start] at h, fun c h => by simp [init, Machine.start] at h, fun _ => rfl⟩

theorem sim_spawn {R : Rounding} {bi : Int} {p : Pool (Parts BucketCounter BucketPC) Call} {k : Nat} {q : Pool BucketPair.Shared Upd × SnapPC} (h : Sim k p q) (u : Use) :
    Sim k ((bucketCompass R bi).apply p (.spawn u)) q := by
  have key : ∀ (i : Nat) (c : Call), (p.calls ++ [⟨u, .start⟩])[i]? = some c → p.calls[i]? = some c ∨ (i = p.calls.length ∧ c = ⟨u, .start⟩) := by
    intro i c hc
    by_cases hi : i < p.calls.length
    · rw [List.getElem?_append_left hi] at hc; exact .inl hc
    · rw [List.getElem?_append_right (by omega)] at hc
      have h0 : i - p.calls.length = 0 := by
        have := (List.getElem?_eq_some_iff.1 hc).1
        simp only [List.length_singleton] at this
        omega
      rw [h0] at hc
      simp only [List.getElem?_cons_zero, Option.some.injEq] at hc
      exact .inr ⟨by omega, hc.symm⟩
  refine ⟨h.count, h.value, h.len, ?_, ?_, ?_⟩
  · intro i c hc
    rcases key i c hc with hc | ⟨-, rfl⟩
    · exact h.upd i c hc
    · trivial
  · intro c hc
    rcases key k c hc with hc | ⟨hk, rfl⟩
    · exact h.snap c hc
    · exact h.fresh (by omega)
  · intro hk
    simp only [Machine.apply, List.length_append, List.length_singleton] at hk
    exact h.fresh (by omega)

theorem after_append (I : Int) (N : Nat) (t1 t2 : Int) (l l' : List Event) :
    BucketPair.after I N t1 t2 (l ++ l') = l'.foldl (eventStep I) (BucketPair.after I N t1 t2 l) := by simp [BucketPair.after]

theorem readings_append (l l' : List Event) : readings (l ++ l') = readings l ++ readings l' := by simp [readings]

/-- The clock readings of a schedule are good. -/
def Times (P : Int → Prop) (es : List (Ev Use (In (Int × Nat)))) : Prop := ∀ i x, Ev.step i x ∈ es → P x.time ∧ P x.res.1

/-- Every schedule of the compass is one of its pair of counters. -/
theorem sim_run (R : Rounding) (bi : Int) (n : Nat) (maxErr maxAdd now t1 t2 tv : Int) (k : Nat) (P : Int → Prop) (es1 es2 : List (Ev Use (In (Int × Nat)))) (l1 : List Event)
    (h1 : Sim k (bucketUsed R bi n maxErr maxAdd now t1 t2 tv es1) (BucketPair.after bi n t1 tv l1)) (ht : Times P es2) :
    ∃ l2, Sim k (bucketUsed R bi n maxErr maxAdd now t1 t2 tv (es1 ++ es2)) (BucketPair.after bi n t1 tv (l1 ++ l2)) ∧ (∀ t ∈ readings l2, P t) ∧
      ((bucketUsed R bi n maxErr maxAdd now t1 t2 tv (es1 ++ es2)).calls.length ≤ k → ∃ l : List (Ev Int Int), l2 = l.map Sum.inl) ∧
      ((∀ c ∈ (bucketUsed R bi n maxErr maxAdd now t1 t2 tv es1).calls, c.recorded? ≠ none → c.over = true) → (∀ d a, Ev.spawn (Use.update d a) ∉ es2) →
        (∀ c ∈ (bucketUsed R bi n maxErr maxAdd now t1 t2 tv (es1 ++ es2)).calls, c.recorded? ≠ none → c.over = true) ∧ ∃ l : List (Int × Nat), l2 = l.map Sum.inr) := by
  induction es2 using List.reverseRecOn with
  | nil => exact ⟨[], by simpa using h1, by simp [readings], fun _ => ⟨[], rfl⟩, fun h _ => ⟨by simpa using h, [], rfl⟩⟩
  | append_singleton es e ih =>
    obtain ⟨l2, g1, g2, g3, g4⟩ := ih (fun i x hx => ht i x (by simp [hx]))
    obtain ⟨-, -, -, hI⟩ := bucket_inv R bi n maxErr maxAdd now t1 t2 tv (es1 ++ es)
    have hsnoc : bucketUsed R bi n maxErr maxAdd now t1 t2 tv (es1 ++ (es ++ [e])) =
        (bucketCompass R bi).apply (bucketUsed R bi n maxErr maxAdd now t1 t2 tv (es1 ++ es)) e := by
      rw [← List.append_assoc]; exact Machine.run_snoc _ _ _ _
    rw [hsnoc]
    clear hsnoc
    have hP : ∀ i x, e = .step i x → P x.time ∧ P x.res.1 := fun i x hx => ht i x (by simp [hx])
    generalize bucketUsed R bi n maxErr maxAdd now t1 t2 tv (es1 ++ es) = p at *
    cases e with
    | spawn u =>
      refine ⟨l2, sim_spawn g1 u, g2, fun hk => ?_, fun ho hn => ?_⟩
      · simp only [Machine.apply, List.length_append, List.length_singleton] at hk
        exact g3 (by omega)
      · obtain ⟨k1, k2⟩ := g4 ho (fun d a hda => hn d a (by simp [hda]))
        refine ⟨fun c hc hr => ?_, k2⟩
        rcases List.mem_append.1 hc with hc | hc
        · exact k1 c hc hr
        · rw [List.mem_singleton] at hc
          subst hc
          cases u with
          | update d a => exact absurd (by simp) (hn d a)
          | rate w => exact absurd rfl hr
          | snapshot => exact absurd rfl hr
    | step i x =>
      cases hc : p.calls[i]? with
      | none =>
        have e0 : (bucketCompass R bi).apply p (.step i x) = p := by simp only [Machine.apply, hc]
        rw [e0]
        exact ⟨l2, g1, g2, g3, fun ho hn => g4 ho (fun d a hda => hn d a (by simp [hda]))⟩
      | some c =>
        obtain ⟨l, hsm, hsim⟩ := sim_step hI g1 hc x
        refine ⟨l2 ++ l, ?_, ?_, ?_, ?_⟩
        · rw [← List.append_assoc, after_append]; exact hsim
        · intro t htm
          rw [readings_append, List.mem_append] at htm
          rcases htm with htm | htm
          · exact g2 t htm
          · have hx := hP i x rfl
            rcases hsm with rfl | ⟨-, rfl⟩ | ⟨-, -, ⟨d, rfl⟩ | ⟨m, t', rfl, rfl | rfl⟩⟩
            · simp [readings] at htm
            · simp only [readings, List.filterMap_cons, List.filterMap_nil, List.mem_singleton] at htm
              subst htm; exact hx.2
            · simp [readings] at htm
            · simp only [readings, List.filterMap_cons, List.filterMap_nil, List.mem_singleton] at htm
              subst htm; exact hx.1
            · simp only [readings, List.filterMap_cons, List.filterMap_nil, List.mem_singleton] at htm
              subst htm; exact hx.2
        · intro hk
          rw [Machine.apply_length] at hk
          obtain ⟨l0, rfl⟩ := g3 hk
          have hi : i < p.calls.length := (List.getElem?_eq_some_iff.1 hc).1
          rcases hsm with rfl | ⟨hik, -⟩ | ⟨-, -, ⟨d, rfl⟩ | ⟨m, t', rfl, -⟩⟩
          · exact ⟨l0, by simp⟩
          · omega
          · exact ⟨l0 ++ [.spawn d], by simp⟩
          · exact ⟨l0 ++ [.step m t'], by simp⟩
        · intro ho hn
          obtain ⟨k1, l0, rfl⟩ := g4 ho (fun d a hda => hn d a (by simp [hda]))
          constructor
          · intro c' hc' hr
            have e0 : (bucketCompass R bi).apply p (.step i x) = ⟨(callStep R (bucket bi) bi p.shared (atTotal p.shared x) c).1,
                p.calls.set i (callStep R (bucket bi) bi p.shared (atTotal p.shared x) c).2⟩ := by simp only [Machine.apply, hc]; rfl
            rw [e0] at hc'
            rcases List.mem_or_eq_of_mem_set hc' with hc' | rfl
            · exact k1 c' hc' hr
            · have huse : (callStep R (bucket bi) bi p.shared (atTotal p.shared x) c).2.use = c.use := step_use R bi _ _ c
              have hov := k1 c (List.mem_of_getElem? hc) (by unfold Call.recorded? at hr ⊢; rw [huse] at hr; exact hr)
              obtain ⟨use, pc⟩ := c
              cases pc <;> first | (cases hov; done) | exact hov
          · rcases hsm with rfl | ⟨-, rfl⟩ | ⟨⟨d, a, hu⟩, hov, -⟩
            · exact ⟨l0, by simp⟩
            · exact ⟨l0 ++ [x.res], by simp⟩
            · have := k1 c (List.mem_of_getElem? hc) (by unfold Call.recorded?; rw [hu]; simp)
              rw [this] at hov; cases hov

section
variable {R : Rounding} {bi : Int} {p0 p : Pool (Parts BucketCounter BucketPC) Call} {Qt : Int → Prop} {Qr : BucketIn → Prop} {n : Nat} {t1 tv : Int} {k : Nat}
  {l : List Event}

/-- A call that is among the counters is an update. -/
theorem marked_update (hI : Inv R (bucket bi) bucketArg bi Qt Qr p0 p) {i m : Nat} {c : Call} (hc : p.calls[i]? = some c) (hm : c.markIx = some m) :
    ∃ d a, c.use = .update d a := by
  have hh := hI.here c (List.mem_of_getElem? hc)
  obtain ⟨use, pc⟩ := c
  cases pc <;> simp only [Call.markIx, reduceCtorEq] at hm <;> (obtain ⟨d, a, hu, -⟩ := hh; exact ⟨d, a, hu⟩)

/-- The duration of an update of the pair is the one of the call of the compass. -/
theorem sim_dur (hI : Inv R (bucket bi) bucketArg bi Qt Qr p0 p) (h : Sim k p (BucketPair.after bi n t1 tv l)) {i m : Nat} {c : Call} (hc : p.calls[i]? = some c)
    (hm : c.markIx = some m) : ∃ d a, c.use = .update d a ∧ (durations l)[m]? = some d := by
  have hl : (BucketPair.after bi n t1 tv l).1.calls.map (fun u => u.value.n) = durations l := by
    rw [BucketPair.after_pool]; exact BucketPair.args_run _ _
  have ht := h.upd i c hc
  rw [← hl]
  obtain ⟨use, pc⟩ := c
  cases pc <;> simp only [Call.markIx, reduceCtorEq, Option.some.injEq] at hm <;> subst hm
  · obtain ⟨d, a, u, mk, h1, h2, h3, -⟩ := ht
    exact ⟨d, a, h1, by rw [List.getElem?_map, h2]; simp [h3]⟩
  · obtain ⟨d, a, u, mk, h1, h2, -, h3, -⟩ := ht
    exact ⟨d, a, h1, by rw [List.getElem?_map, h2]; simp [h3]⟩
  · obtain ⟨d, a, u, mk, h1, h2, -, h3, -⟩ := ht
    exact ⟨d, a, h1, by rw [List.getElem?_map, h2]; simp [h3]⟩
  · obtain ⟨d, a, u, mk, h1, h2, -, h3, -⟩ := ht
    exact ⟨d, a, h1, by rw [List.getElem?_map, h2]; simp [h3]⟩
  · obtain ⟨d, a, u, mk, h1, h2, -, h3, -⟩ := ht
    exact ⟨d, a, h1, by rw [List.getElem?_map, h2]; simp [h3]⟩
  · obtain ⟨d, a, u, h1, h2, h3⟩ := ht
    exact ⟨d, a, h1, by rw [List.getElem?_map, h2]; simp [h3]⟩

theorem sim_len (h : Sim k p (BucketPair.after bi n t1 tv l)) : (durations l).length = p.shared.marks.calls.length := by
  have hl : (BucketPair.after bi n t1 tv l).1.calls.map (fun u => u.value.n) = durations l := by
    rw [BucketPair.after_pool]; exact BucketPair.args_run _ _
  rw [← hl, List.length_map]; exact h.len

/-- Whose update number `m` of the pair is. -/
theorem sim_owner (hI : Inv R (bucket bi) bucketArg bi Qt Qr p0 p) (h : Sim k p (BucketPair.after bi n t1 tv l)) {m : Nat} (hm : m < (durations l).length) :
    ∃ (i : Nat) (c : Call), p.calls[i]? = some c ∧ c.markIx = some m := by
  rw [sim_len h] at hm
  obtain ⟨c, hc, hcm⟩ := owner hI.markIx hm
  obtain ⟨i, hi⟩ := List.getElem?_of_mem hc
  exact ⟨i, c, hi, hcm⟩

/-- The updates of the pair are those of the calls that have come so far. -/
theorem sim_recorded (hI : Inv R (bucket bi) bucketArg bi Qt Qr p0 p) (h : Sim k p (BucketPair.after bi n t1 tv l)) :
    (durations l).Subperm ((recorded p).map Prod.fst) := by
  have e1 : (recorded p).map Prod.fst = p.calls.filterMap (fun c => c.recorded?.map Prod.fst) := by unfold recorded; rw [List.map_filterMap]
  have e2 : (p.calls.filterMap fun c => c.markIx.bind fun m => (durations l)[m]?).Perm (durations l) := by
    have h1 : (p.calls.filterMap fun c => c.markIx.bind fun m => (durations l)[m]?) = (p.calls.filterMap Call.markIx).filterMap fun m => (durations l)[m]? := by
      rw [List.filterMap_filterMap]
    rw [h1]
    have h2 : (List.range (durations l).length).filterMap (fun m => (durations l)[m]?) = durations l := by
      generalize durations l = L
      induction L using List.reverseRecOn with
      | nil => rfl
      | append_singleton L a ih =>
        rw [List.length_append, List.length_singleton, List.range_succ, List.filterMap_append]
        have : (List.range L.length).filterMap (fun m => (L ++ [a])[m]?) = (List.range L.length).filterMap (fun m => L[m]?) := by
          apply List.filterMap_congr
          intro m hm
          rw [List.getElem?_append_left (List.mem_range.1 hm)]
        rw [this, ih]; simp
    have h3 := hI.markIx.filterMap (fun m => (durations l)[m]?)
    rw [← sim_len h, h2] at h3
    exact h3
  refine e2.symm.subperm.trans ?_
  rw [e1]
  apply List.Sublist.subperm
  have key : ∀ c ∈ p.calls, (c.markIx.bind fun m => (durations l)[m]?) = none ∨ (c.markIx.bind fun m => (durations l)[m]?) = c.recorded?.map Prod.fst := by
    intro c hc
    obtain ⟨i, hi⟩ := List.getElem?_of_mem hc
    cases hm : c.markIx with
    | none => exact .inl rfl
    | some m =>
      obtain ⟨d, a, h1, h2⟩ := sim_dur hI h hi hm
      exact .inr (by simp [h2, Call.recorded?, h1])
  revert key
  generalize p.calls = L
  intro key
  induction L with
  | nil => exact .refl _
  | cons c L ih =>
    have ih := ih fun c hc => key c (by simp [hc])
    simp only [List.filterMap_cons]
    rcases key c (by simp) with h | h
    · rw [h]
      simp only
      split
      · exact ih
      · exact ih.cons _
    · rw [h]
      split
      · exact ih
      · exact ih.cons_cons _
end

/-- Take a schedule apart at the beginning of a snapshot. -/
theorem sim_split (R : Rounding) (bi : Int) (n : Nat) (maxErr maxAdd now t1 t2 tv : Int) (P : Int → Prop) (es1 es2 : List (Ev Use (In (Int × Nat))))
    (ht : Times P (es1 ++ .spawn .snapshot :: es2)) :
    ∃ (before : List (Ev Int Int)) (l2 : List Event),
      Sim (bucketUsed R bi n maxErr maxAdd now t1 t2 tv es1).calls.length (bucketUsed R bi n maxErr maxAdd now t1 t2 tv es1)
        (BucketPair.after bi n t1 tv (before.map .inl)) ∧
      Sim (bucketUsed R bi n maxErr maxAdd now t1 t2 tv es1).calls.length (bucketUsed R bi n maxErr maxAdd now t1 t2 tv (es1 ++ .spawn .snapshot :: es2))
        (BucketPair.after bi n t1 tv (before.map .inl ++ l2)) ∧
      (∀ t ∈ readings (before.map .inl ++ l2), P t) ∧
      ((∀ c ∈ (bucketUsed R bi n maxErr maxAdd now t1 t2 tv es1).calls, c.recorded? ≠ none → c.over = true) → (∀ d a, Ev.spawn (Use.update d a) ∉ es2) →
        ∃ xs : List (Int × Nat), l2 = xs.map .inr) := by
  set k := (bucketUsed R bi n maxErr maxAdd now t1 t2 tv es1).calls.length with hk
  obtain ⟨l1, a1, a2, a3, -⟩ := sim_run R bi n maxErr maxAdd now t1 t2 tv k P [] es1 [] (sim_start bi n maxErr maxAdd now t1 t2 tv k)
    (fun i x hx => ht i x (by simp [hx]))
  simp only [List.nil_append] at a1 a3
  obtain ⟨before, rfl⟩ := a3 (le_of_eq hk.symm)
  obtain ⟨l2, b1, b2, -, b3⟩ := sim_run R bi n maxErr maxAdd now t1 t2 tv k P es1 (.spawn .snapshot :: es2) _ a1
    (fun i x hx => ht i x (List.mem_append_right _ hx))
  refine ⟨before, l2, a1, b1, ?_, ?_⟩
  · intro t h
    rw [readings_append, List.mem_append] at h
    exact h.elim (a2 t) (b2 t)
  · intro h1 h2
    exact (b3 h1 (fun d a => by simpa using h2 d a)).2

end Whole

/-- **C97.** As C97_snapshot, for a whole compass with a bucket reservoir: any number of goroutines record events, read rates and take snapshots; all readings of
the clock are in one interval. A `GetSnapshot` that begins after `es1` and is over after `es2` shows as value the sum of the durations of some set `A` of the
recording calls and as count, if not 0, the number of calls in some set `B` that contains `A`. Calls that had returned before the snapshot began are in `B`
unless the count is 0, and in `A` unless `A` is empty. Calls are named by their number. -/
theorem C97_whole_snapshot (R : Rounding) (bi : Int) (hbi : 1000000000 ≤ bi) (hb64 : InI64 bi) (n : Nat) (maxErr maxAdd now t1 t2 tv : Int)
    (es1 es2 : List (Ev Use (In (Int × Nat)))) (j : Int)
    (htime : ∀ i x, Ev.step i x ∈ es1 ++ .spawn .snapshot :: es2 → ∀ t, t = x.time ∨ t = x.res.1 → 1000 ≤ t ∧ InI64 t ∧ slot (bi / 1000000000) t = j) :
    let p1 := bucketUsed R bi n maxErr maxAdd now t1 t2 tv es1
    let p2 := bucketUsed R bi n maxErr maxAdd now t1 t2 tv (es1 ++ .spawn .snapshot :: es2)
    let dur : Nat → Int := fun i => ((p2.calls[i]?.bind Call.recorded?).map Prod.fst).getD 0
    let returned : Nat → Prop := fun i => ∃ c d a, p1.calls[i]? = some c ∧ c.use = .update d a ∧ c.over = true
    ∀ r b, p2.calls[p1.calls.length]? = some ⟨.snapshot, .snapped r⟩ → p2.shared.res.calls[r]? = some (.snap (.done b)) →
    ∃ A B : Finset Nat, A ⊆ B ∧ (∀ i ∈ B, ∃ c d a, p2.calls[i]? = some c ∧ c.use = .update d a) ∧ b.value = i64 (∑ i ∈ A, dur i) ∧
      (A = ∅ ∨ ∀ i, returned i → i ∈ A) ∧ (b.count = 0 ∨ b.count = i64 B.card ∧ ∀ i, returned i → i ∈ B) := by
  intro p1 p2 dur returned r b hsnap hdone
  obtain ⟨before, l2, h1, h2, h3, -⟩ := sim_split R bi n maxErr maxAdd now t1 t2 tv (fun t => 1000 ≤ t ∧ InI64 t ∧ slot (bi / 1000000000) t = j) es1 es2
    (fun i x hx => ⟨htime i x hx _ (.inl rfl), htime i x hx _ (.inr rfl)⟩)
  obtain ⟨-, -, -, hI1⟩ := bucket_inv R bi n maxErr maxAdd now t1 t2 tv es1
  obtain ⟨-, -, -, hI2⟩ := bucket_inv R bi n maxErr maxAdd now t1 t2 tv (es1 ++ .spawn .snapshot :: es2)
  have hd : (BucketPair.after bi n t1 tv (before.map .inl ++ l2)).2 = .done b := by
    have := h2.snap _ hsnap
    change p2.shared.res.calls[r]? = _ at this
    rw [hdone] at this
    simp only [Option.some.injEq, BucketPC.snap.injEq] at this
    exact this.symm
  obtain ⟨A, B, g1, g2, g3, g4, g5⟩ := C97_snapshot bi hbi hb64 n t1 tv before l2 j h3 b hd
  -- the owner of an update of the pair
  have hown : ∀ m : Nat, ∃ i : Nat, m < (BucketPair.durations (before.map .inl ++ l2)).length → ∃ c : Whole.Call, p2.calls[i]? = some c ∧ c.markIx = some m := by
    intro m
    by_cases hm : m < (BucketPair.durations (before.map .inl ++ l2)).length
    · obtain ⟨i, c, k1, k2⟩ := sim_owner hI2 h2 hm
      exact ⟨i, fun _ => ⟨c, k1, k2⟩⟩
    · exact ⟨0, fun h => absurd h hm⟩
  choose f hf using hown
  have hinj : ∀ m ∈ B, ∀ m' ∈ B, f m = f m' → m = m' := by
    intro m hm m' hm' he
    obtain ⟨c, k1, k2⟩ := hf m (g2 m hm)
    obtain ⟨c', k1', k2'⟩ := hf m' (g2 m' hm')
    rw [← he, k1] at k1'
    obtain rfl := Option.some.inj k1'
    rw [k2] at k2'
    exact Option.some.inj k2'
  have hfix : ∀ (i m : Nat) (c : Whole.Call), p2.calls[i]? = some c → c.markIx = some m → m < (BucketPair.durations (before.map .inl ++ l2)).length → f m = i := by
    intro i m c hc hm hlt
    obtain ⟨c', k1, k2⟩ := hf m hlt
    exact ix_inj hI2.markIx k1 hc k2 hm
  have hdur : ∀ m, m < (BucketPair.durations (before.map .inl ++ l2)).length → dur (f m) = (BucketPair.durations (before.map .inl ++ l2))[m]?.getD 0 := by
    intro m hm
    obtain ⟨c, k1, k2⟩ := hf m hm
    obtain ⟨d, a, k3, k4⟩ := sim_dur hI2 h2 k1 k2
    simp only [dur, k1, k4, Option.bind_some, Call.recorded?, k3, Option.map_some, Option.getD_some]
  -- calls that had returned
  have hret : ∀ i, returned i → ∃ m, (∃ (u : BucketPair.Upd) (ts : Int) (p : Nat), (BucketPair.after bi n t1 tv (before.map .inl)).1.calls[m]? = some u ∧
      u.value.pc = .done ts p) ∧ (m < (BucketPair.durations (before.map .inl ++ l2)).length → f m = i) := by
    rintro i ⟨c, d, a, hc, hu, ho⟩
    have hh := hI1.here c (List.mem_of_getElem? hc)
    have ht := h1.upd i c hc
    obtain ⟨use, pc⟩ := c
    simp only at hu
    subst hu
    cases pc with
    | done i' m r' =>
      obtain ⟨d', a', u, mk, -, k2, -, -, k5, -⟩ := ht
      obtain ⟨d2, a2, -, -, -, q, q1, q2, q3⟩ := hh
      change p1.shared.res.calls[r']? = _ at k5
      change p1.shared.res.calls[r']? = _ at q1
      rw [k5] at q1
      obtain rfl := Option.some.inj q1
      have hpc : ∃ ts p, u.value.pc = .done ts p := by
        obtain ⟨⟨x1, x2⟩, ⟨v1, v2⟩⟩ := u
        cases v2 <;> first | (cases q3; done) | exact ⟨_, _, rfl⟩
      obtain ⟨ts, pp, hpc⟩ := hpc
      refine ⟨m, ⟨u, ts, pp, k2, hpc⟩, ?_⟩
      have hat : Machine.At p2 i fun c => c = ⟨.update d a, .done i' m r'⟩ := by
        have e : p2 = (bucketCompass R bi).run p1 (.spawn .snapshot :: es2) := Machine.run_append _ _ _ _
        rw [e]
        exact At_run _ _ _ _ _ ⟨_, hc, rfl⟩ (by rintro s x c rfl; rfl)
      obtain ⟨c, k1, rfl⟩ := hat
      exact hfix i m _ k1 rfl
    | got _ _ => obtain ⟨⟨w, hw⟩, -⟩ := hh; cases hw
    | snapped _ => obtain ⟨hw, -⟩ := hh; cases hw
    | _ => cases ho
  refine ⟨A.image f, B.image f, Finset.image_subset_image g1, ?_, ?_, ?_, ?_⟩
  · intro i hi
    obtain ⟨m, hm, rfl⟩ := Finset.mem_image.1 hi
    obtain ⟨c, k1, k2⟩ := hf m (g2 m hm)
    obtain ⟨d, a, k3⟩ := marked_update hI2 k1 k2
    exact ⟨c, d, a, k1, k3⟩
  · rw [g3, Finset.sum_image fun m hm m' hm' e => hinj m (g1 hm) m' (g1 hm') e]
    congr 1
    exact Finset.sum_congr rfl fun m hm => (hdur m (g2 m (g1 hm))).symm
  · rcases g4 with g4 | g4
    · left; rw [g4]; rfl
    · right
      intro i hi
      obtain ⟨m, k1, k2⟩ := hret i hi
      have hm := g4 m k1
      exact Finset.mem_image.2 ⟨m, hm, k2 (g2 m (g1 hm))⟩
  · rcases g5 with g5 | ⟨g5, g6⟩
    · exact .inl g5
    · refine .inr ⟨?_, ?_⟩
      · rw [g5, Finset.card_image_of_injOn fun m hm m' hm' e => hinj m hm m' hm' e]
      · intro i hi
        obtain ⟨m, k1, k2⟩ := hret i hi
        have hm := g6 m k1
        exact Finset.mem_image.2 ⟨m, hm, k2 (g2 m hm)⟩

/-- **C97.** So, while durations are between 0 and `D` (and sums stay below 2^53), the mean that any snapshot of such a compass shows is a number between 0 and
`D`, whatever else is going on; and its count never exceeds the number of recording calls. -/
theorem C97_whole_mean (R : Rounding) (bi : Int) (hbi : 1000000000 ≤ bi) (hb64 : InI64 bi) (n : Nat) (maxErr maxAdd now t1 t2 tv : Int)
    (es : List (Ev Use (In (Int × Nat)))) (j : Int)
    (htime : ∀ i x, Ev.step i x ∈ es → ∀ t, t = x.time ∨ t = x.res.1 → 1000 ≤ t ∧ InI64 t ∧ slot (bi / 1000000000) t = j)
    (D : Int) (hD : 0 ≤ D) :
    let p2 := bucketUsed R bi n maxErr maxAdd now t1 t2 tv es
    (∀ e ∈ recorded p2, 0 ≤ e.1 ∧ e.1 ≤ D) → ((recorded p2).length : Int) < 2 ^ 53 → D * (recorded p2).length < 2 ^ 53 →
    ∀ (k r : Nat) b, p2.calls[k]? = some ⟨.snapshot, .snapped r⟩ → p2.shared.res.calls[r]? = some (.snap (.done b)) →
    0 ≤ b.count ∧ b.count ≤ (recorded p2).length ∧ 0 ≤ b.value ∧ (b.count = 0 ∨ b.value ≤ D * b.count) ∧
      ∃ m : ℚ, b.getMean .binary64 = .ok (.fin m) ∧ 0 ≤ m ∧ m ≤ D := by
  intro p2 hdur hn hsum k r b hsnap hdone
  obtain ⟨l, h2, h3, -⟩ := sim_run R bi n maxErr maxAdd now t1 t2 tv k (fun t => 1000 ≤ t ∧ InI64 t ∧ slot (bi / 1000000000) t = j) [] es []
    (sim_start bi n maxErr maxAdd now t1 t2 tv k) (fun i x hx => ⟨htime i x hx _ (.inl rfl), htime i x hx _ (.inr rfl)⟩)
  simp only [List.nil_append] at h2
  obtain ⟨-, -, -, hI2⟩ := bucket_inv R bi n maxErr maxAdd now t1 t2 tv es
  have hd : (BucketPair.after bi n t1 tv l).2 = .done b := by
    have := h2.snap _ hsnap
    change p2.shared.res.calls[r]? = _ at this
    rw [hdone] at this
    simp only [Option.some.injEq, BucketPC.snap.injEq] at this
    exact this.symm
  have hsub := sim_recorded hI2 h2
  change (BucketPair.durations l).Subperm ((recorded p2).map Prod.fst) at hsub
  have hlen : ((BucketPair.durations l).length : Int) ≤ (recorded p2).length := by
    have := hsub.length_le
    rw [List.length_map] at this
    exact_mod_cast this
  obtain ⟨g1, g2, g3, g4, g5⟩ := C97_mean bi hbi hb64 n t1 tv l j h3 D hD
    (fun d hd => by
      obtain ⟨e, he, rfl⟩ := List.mem_map.1 (hsub.subset hd)
      exact hdur e he)
    (lt_of_le_of_lt hlen hn) (lt_of_le_of_lt (Int.mul_le_mul_of_nonneg_left hlen hD) hsum) b hd
  exact ⟨g1, le_trans g2 hlen, g3, g4, g5⟩

/-- **C97.** When every recording call is over before a snapshot of such a compass begins, and none begins before it is over, it shows exactly the number of the
calls and the sum of their durations; rates may be read and other snapshots taken meanwhile. -/
theorem C97_whole_quiescent (R : Rounding) (bi : Int) (hbi : 1000000000 ≤ bi) (hb64 : InI64 bi) (n : Nat) (hN : 1 ≤ n) (maxErr maxAdd now t1 t2 tv : Int)
    (es1 es2 : List (Ev Use (In (Int × Nat)))) (j : Int)
    (htime : ∀ i x, Ev.step i x ∈ es1 ++ .spawn .snapshot :: es2 → ∀ t, t = x.time ∨ t = x.res.1 → 1000 ≤ t ∧ InI64 t ∧ slot (bi / 1000000000) t = j)
    (hnone : ∀ d a, Ev.spawn (Use.update d a) ∉ es2) :
    let p1 := bucketUsed R bi n maxErr maxAdd now t1 t2 tv es1
    let p2 := bucketUsed R bi n maxErr maxAdd now t1 t2 tv (es1 ++ .spawn .snapshot :: es2)
    (∀ c ∈ p1.calls, c.recorded? ≠ none → c.over = true) →
    ∀ r b, p2.calls[p1.calls.length]? = some ⟨.snapshot, .snapped r⟩ → p2.shared.res.calls[r]? = some (.snap (.done b)) →
    b.count = i64 (recorded p1).length ∧ b.value = i64 ((recorded p1).map Prod.fst).sum := by
  intro p1 p2 hover r b hsnap hdone
  obtain ⟨before, l2, h1, h2, h3, h4⟩ := sim_split R bi n maxErr maxAdd now t1 t2 tv (fun t => 1000 ≤ t ∧ InI64 t ∧ slot (bi / 1000000000) t = j) es1 es2
    (fun i x hx => ⟨htime i x hx _ (.inl rfl), htime i x hx _ (.inr rfl)⟩)
  obtain ⟨xs, rfl⟩ := h4 hover hnone
  obtain ⟨-, -, -, hI1⟩ := bucket_inv R bi n maxErr maxAdd now t1 t2 tv es1
  have hd : (BucketPair.after bi n t1 tv (before.map .inl ++ xs.map .inr)).2 = .done b := by
    have := h2.snap _ hsnap
    change p2.shared.res.calls[r]? = _ at this
    rw [hdone] at this
    simp only [Option.some.injEq, BucketPC.snap.injEq] at this
    exact this.symm
  have hsub := sim_recorded hI1 h1
  change (BucketPair.durations (before.map .inl)).Subperm ((recorded p1).map Prod.fst) at hsub
  -- every recording call is over, so it has an update of the pair, and that is over
  have hover' : ∀ u ∈ (BucketPair.after bi n t1 tv (before.map .inl)).1.calls, ∃ ts p, u.value.pc = .done ts p := by
    intro u hu
    obtain ⟨m, hm⟩ := List.getElem?_of_mem hu
    have hml : m < (BucketPair.durations (before.map .inl)).length := by
      rw [sim_len h1, ← h1.len]; exact (List.getElem?_eq_some_iff.1 hm).1
    obtain ⟨i, c, k1, k2⟩ := sim_owner hI1 h1 hml
    obtain ⟨d, a, k3⟩ := marked_update hI1 k1 k2
    have ho := hover c (List.mem_of_getElem? k1) (by unfold Call.recorded?; rw [k3]; simp)
    have hh := hI1.here c (List.mem_of_getElem? k1)
    have ht := h1.upd i c k1
    obtain ⟨use, pc⟩ := c
    cases pc with
    | done i' m' r' =>
      simp only [Call.markIx, Option.some.injEq] at k2
      subst k2
      obtain ⟨d', a', u', mk, -, q2, -, -, q5, -⟩ := ht
      rw [hm] at q2
      obtain rfl := Option.some.inj q2
      obtain ⟨d2, a2, -, -, -, q, q1, q2, q3⟩ := hh
      change p1.shared.res.calls[r']? = _ at q5
      change p1.shared.res.calls[r']? = _ at q1
      rw [q5] at q1
      obtain rfl := Option.some.inj q1
      obtain ⟨⟨x1, x2⟩, ⟨v1, v2⟩⟩ := u
      cases v2 <;> first | (cases q3; done) | exact ⟨_, _, rfl⟩
    | got _ _ => cases k2
    | snapped _ => cases k2
    | _ => cases ho
  have hperm : (BucketPair.durations (before.map .inl)).Perm ((recorded p1).map Prod.fst) := by
    refine hsub.perm_of_length_le ?_
    rw [List.length_map, sim_len h1]
    have e1 : p1.shared.marks.calls.length = (p1.calls.filterMap Call.markIx).length := by
      rw [hI1.markIx.length_eq, List.length_range]
    change (recorded p1).length ≤ p1.shared.marks.calls.length
    rw [e1]
    unfold recorded
    have key : ∀ c ∈ p1.calls, c.recorded? ≠ none → c.markIx ≠ none := by
      intro c hc hr
      have ho := hover c hc hr
      have hh := hI1.here c hc
      obtain ⟨use, pc⟩ := c
      cases pc with
      | done i' m' r' => simp [Call.markIx]
      | got _ _ => obtain ⟨⟨w, hw⟩, -⟩ := hh; simp only at hw; subst hw; exact absurd rfl hr
      | snapped _ => obtain ⟨hw, -⟩ := hh; simp only at hw; subst hw; exact absurd rfl hr
      | _ => cases ho
    revert key
    generalize p1.calls = L
    intro key
    induction L with
    | nil => simp
    | cons c L ih =>
      have ih := ih fun c hc => key c (by simp [hc])
      have kc := key c (by simp)
      simp only [List.filterMap_cons]
      cases h1 : c.recorded? with
      | none => cases h2 : c.markIx <;> simp only [List.length_cons] <;> omega
      | some e =>
        cases h2 : c.markIx with
        | none => exact absurd h2 (kc (by rw [h1]; simp))
        | some m => simp only [List.length_cons]; omega
  obtain ⟨g1, g2⟩ := C97_quiescent bi hbi hb64 n hN t1 tv before xs j h3 hover' b hd
  rw [g1, g2, hperm.length_eq, hperm.sum_eq, List.length_map]
  exact ⟨rfl, rfl⟩

/-- A step of call `i` whose readings of the clock are all 21 s, in the interval that begins at 20 s. -/
def Whole.tock (i : Nat) : Ev Use (In (Int × Nat)) := .step i ⟨0, 21000, (21000, 0)⟩

/-- An update of 100 that returns, one of 60 that is inside `totalCount.Update()`, and a rate being read. -/
def Whole.lively1 : List (Ev Use (In (Int × Nat))) :=
  .spawn (.update 100 ⟨true, "", ""⟩) :: List.replicate 40 (tock 0) ++ .spawn (.update 60 ⟨false, "e", ""⟩) :: List.replicate 9 (tock 1) ++ [.spawn (.rate .m1), tock 2]

/-- A snapshot reads the values; then the second update goes on until it has recorded its duration; then the snapshot goes on. -/
def Whole.lively2 : List (Ev Use (In (Int × Nat))) :=
  List.replicate 16 (tock 3) ++ List.replicate 12 (tock 1) ++ [tock 2] ++ List.replicate 40 (tock 3)

deriving instance DecidableEq for Whole.Call

theorem Whole.tock_input {i : Nat} {x : In (Int × Nat)} {es : List (Ev Use (In (Int × Nat)))} (hes : ∀ e ∈ es, (∃ u, e = .spawn u) ∨ ∃ k, e = tock k)
    (h : Ev.step i x ∈ es) : x = ⟨0, 21000, (21000, 0)⟩ := by
  rcases hes _ h with h | h
  · obtain ⟨u, hu⟩ := h; cases hu
  · obtain ⟨k, hk⟩ := h
    unfold tock at hk
    exact (Ev.step.inj hk).2

theorem Whole.lively_events (e : Ev Use (In (Int × Nat))) (h : e ∈ lively1 ++ .spawn .snapshot :: lively2) : (∃ u, e = .spawn u) ∨ ∃ k, e = tock k := by
  simp only [lively1, lively2, List.mem_append, List.mem_cons, List.mem_replicate, List.not_mem_nil, or_false, List.cons_append] at h
  casesm* _ ∨ _ <;> first | exact .inl ⟨_, h⟩ | exact .inr ⟨_, h⟩ | exact .inr ⟨_, h.2⟩

/-- The hypotheses of C97_whole_snapshot and C97_whole_mean are met by a schedule in which a snapshot overlaps an update: it counts the update, and does not
have its duration. -/
example : (∀ i x, Ev.step i x ∈ lively1 ++ .spawn .snapshot :: lively2 → ∀ t, t = x.time ∨ t = x.res.1 → 1000 ≤ t ∧ InI64 t ∧ slot (10000000000 / 1000000000) t = 2) ∧
    (let p1 := bucketUsed .exact 10000000000 5 10 10 0 0 0 0 lively1
     let p2 := bucketUsed .exact 10000000000 5 10 10 0 0 0 0 (lively1 ++ .spawn .snapshot :: lively2)
     p2.calls[p1.calls.length]? = some ⟨.snapshot, .snapped 1⟩ ∧ p2.shared.res.calls[1]? = some (.snap (.done ⟨2, 100⟩)) ∧
     (recorded p2).map Prod.fst = [100, 60]) := by
  refine ⟨fun i x h t ht => ?_, ?_⟩
  · obtain rfl := tock_input lively_events h
    obtain rfl : t = 21000 := by rcases ht with h | h <;> exact h
    exact ⟨by norm_num, by unfold InI64; norm_num, by unfold slot; norm_num⟩
  · decide +kernel

/-- The hypotheses of C97_whole_quiescent are met after the update that returned. -/
example : let es1 := Whole.lively1.take 41
    let p1 := bucketUsed .exact 10000000000 5 10 10 0 0 0 0 es1
    let p2 := bucketUsed .exact 10000000000 5 10 10 0 0 0 0 (es1 ++ .spawn .snapshot :: List.replicate 60 (tock 1))
    (∀ c ∈ p1.calls, c.recorded? ≠ none → c.over = true) ∧ p2.calls[p1.calls.length]? = some ⟨.snapshot, .snapped 1⟩ ∧
      p2.shared.res.calls[1]? = some (.snap (.done ⟨1, 100⟩)) ∧ (recorded p1).map Prod.fst = [100] := by
  decide +kernel

end GoMetrics
