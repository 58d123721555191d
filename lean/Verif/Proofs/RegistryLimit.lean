import Verif.Proofs.RegistrySeq
/-! # Registry: the limit under concurrency, enumerations -/
namespace GoMetrics
namespace Registry

/-- Number of real metrics in a map. -/
def realCount (m : GoMap GoStr Entry) : Nat := m.countP (fun x => x.2.metric.isReal)

/-- Number of calls in progress. -/
def inFlight (cs : List PC) : Nat := cs.countP (fun c => !c.over)

theorem countP_disjoint {α : Type} (f g h : α → Bool) (l : List α) (hf : ∀ x ∈ l, f x = true → h x = true)
    (hg : ∀ x ∈ l, g x = true → h x = true) (hd : ∀ x ∈ l, ¬ (f x = true ∧ g x = true)) :
    l.countP f + l.countP g ≤ l.countP h := by
  induction l with
  | nil => simp
  | cons a l ih =>
    have := ih (fun x hx => hf x (by simp [hx])) (fun x hx => hg x (by simp [hx])) (fun x hx => hd x (by simp [hx]))
    have h1 := hf a (by simp)
    have h2 := hg a (by simp)
    have h3 := hd a (by simp)
    simp only [List.countP_cons]
    cases hfa : f a <;> cases hga : g a <;> simp_all <;> first | omega | (split <;> omega)

/-- The invariant behind the bound. -/
def LimitInv (P : Nat) (s : Mem) (cs : List PC) : Prop :=
  ∀ r, (realCount (s.regs r).metricsMap : Int) + cs.countP (PC.armed r) ≤ max 0 (s.regs r).maxMetricCount + P - 1

theorem limit_step {n0 P : Nat} {s : Mem} {pre : List PC} {c : PC} {post : List PC}
    (h1 : Inv1 n0 s (pre ++ c :: post)) (h4 : Inv4 s (pre ++ c :: post)) (hP : 1 ≤ P)
    (hfl : inFlight (pre ++ c :: post) ≤ P) (hlen : (pre ++ c :: post).length < 2147483648)
    (h : LimitInv P s (pre ++ c :: post)) : LimitInv P (callStep s c).1 (pre ++ (callStep s c).2 :: post) := by
  have hu := fun r hr => (h1.unborn r hr).1
  have keep : (∀ r, ((callStep s c).1.regs r).metricsMap = (s.regs r).metricsMap) →
      (∀ r, ((callStep s c).1.regs r).maxMetricCount = (s.regs r).maxMetricCount) →
      (∀ r, (callStep s c).2.armed r = true → c.armed r = true) →
      LimitInv P (callStep s c).1 (pre ++ (callStep s c).2 :: post) := by
    intro e1 e2 ha r
    have := h r
    rw [e1, e2]
    have h2 := countP_replace (PC.armed r) pre post c (callStep s c).2
    have h3 := ha r
    cases hx : (callStep s c).2.armed r with
    | false => rw [hx] at h2; simp only [Bool.false_eq_true, if_false] at h2; split at h2 <;> omega
    | true => rw [hx, h3 hx] at h2; simp only [if_true] at h2; omega
  cases c with
  | readEnable q g => apply keep (fun _ => rfl) (fun _ => rfl); intro r; simp only [callStep]; split <;> simp [PC.armed]
  | loadGroup q g =>
    cases hg : s.groups.get? g <;> apply keep <;> simp [callStep, hg, PC.armed]
  | storeGroup q g =>
    intro r
    have hm : ((callStep s (.storeGroup q g)).1.regs r).metricsMap = (s.regs r).metricsMap := maps_same s hu _ (by simp) r
    obtain ⟨rid, f⟩ : ∃ rid, (callStep s (.storeGroup q g)).2 = .load q rid := by
      simp only [callStep]; split <;> exact ⟨_, rfl⟩
    have hc : (pre ++ (callStep s (.storeGroup q g)).2 :: post).countP (PC.armed r) =
        (pre ++ PC.storeGroup q g :: post).countP (PC.armed r) := by
      simp [f, List.countP_append, List.countP_cons, PC.armed]
    rw [hm, hc]
    by_cases hr : r < s.nextReg
    · have := (step_mono s hu (.storeGroup q g)).limits r hr
      rw [this]; exact h r
    · -- an unborn registry is empty and nobody is about to store in it
      have he := hu r (by omega)
      have hz : (pre ++ PC.storeGroup q g :: post).countP (PC.armed r) = 0 := by
        rw [List.countP_eq_zero]
        intro d hd ha
        cases d with
        | store q' r' m' =>
          simp only [PC.armed, Bool.and_eq_true, beq_iff_eq] at ha
          obtain ⟨rfl, -⟩ := ha
          have hloc := h1.loc _ hd q' r' rfl
          have hb := h1.base
          unfold RightReg at hloc
          cases ht : q'.target with
          | direct d => rw [ht] at hloc; simp only at hloc; omega
          | group g => rw [ht] at hloc; have := (h1.groupRange _ _ hloc).2; omega
        | _ => simp [PC.armed] at ha
      rw [he, hz]
      simp [realCount]
      omega
  | load q rid =>
    cases hg : (s.regs rid).metricsMap.get? q.name.hash <;> apply keep <;> simp [callStep, hg, PC.armed]
  | create q rid => apply keep (fun _ => rfl) (fun _ => rfl); simp [callStep, PC.armed]
  | check q rid m =>
    by_cases hr : (s.regs rid).metricsCount ≥ (s.regs rid).maxMetricCount
    · apply keep (fun _ => rfl) (fun _ => rfl)
      intro r
      simp [callStep, hr, PC.armed, Metric.isReal]
    · intro r
      have hmem : (callStep s (.check q rid m)).1 = s := rfl
      have hpc : (callStep s (.check q rid m)).2 = .store q rid m := by simp [callStep, hr]
      rw [hmem, hpc]
      have h2 := countP_replace (PC.armed r) pre post (.check q rid m) (.store q rid m)
      by_cases hrr : r = rid
      · subst hrr
        have hc := h4.count r
        have hdis : (pre ++ post).countP (PC.armed r) + (pre ++ post).countP (PC.incrAt r) ≤ (pre ++ post).countP (fun c => !c.over) := by
          apply countP_disjoint
          · intro x _ hx; cases x <;> simp_all [PC.armed, PC.over]
          · intro x _ hx; cases x <;> simp_all [PC.incrAt, PC.over]
          · rintro x _ ⟨hx, hy⟩; cases x <;> simp_all [PC.armed, PC.incrAt]
        have hfl' := hfl
        unfold inFlight at hfl'
        simp only [List.countP_append, List.countP_cons, show PC.armed r (.check q r m) = false from rfl,
          show PC.incrAt r (.check q r m) = false from rfl, show PC.over (.check q r m) = false from rfl] at hdis hfl' h2 hc
        have hle : realCount (s.regs r).metricsMap ≤ (s.regs r).metricsMap.length := List.countP_le_length
        have hp := h4.past r
        have hp' : (pre ++ PC.check q r m :: post).countP PC.past ≤ (pre ++ PC.check q r m :: post).length := List.countP_le_length
        have hi : pre.countP (PC.incrAt r) + post.countP (PC.incrAt r) ≤ pre.length + post.length :=
          Nat.add_le_add List.countP_le_length List.countP_le_length
        simp only [List.length_append, List.length_cons] at hlen hp'
        have hcount : (s.regs r).metricsCount =
            (s.regs r).metricsMap.length - (pre.countP (PC.incrAt r) + post.countP (PC.incrAt r) : Nat) := by
          rw [hc]
          push_cast
          simp only [add_zero, Bool.false_eq_true, if_false, Nat.cast_zero]
          apply i32_of_range
          · push_cast; omega
          · push_cast; omega
        simp only [List.countP_append, List.countP_cons]
        push_cast at hcount ⊢
        simp only [Bool.not_false, if_true] at hfl'
        have hx : (if PC.armed r (.store q r m) = true then (1:Int) else 0) ≤ 1 := by split <;> simp
        push Not at hr
        omega
      · have : ¬ rid = r := fun e => hrr e.symm
        have h3 := h r
        simp only [PC.armed, Bool.false_eq_true, if_false, this, beq_iff_eq, Bool.and_eq_true, false_and] at h2
        rw [h2]
        simpa using h3
  | store q rid m =>
    cases hg : (s.regs rid).metricsMap.get? q.name.hash with
    | some e => apply keep <;> simp [callStep, hg, PC.armed]
    | none =>
      intro r
      have h2 := countP_replace (PC.armed r) pre post (.store q rid m) (.incr q rid m)
      have h3 := h r
      simp only [callStep, hg, setReg_regs]
      by_cases hr : r = rid
      · subst hr
        rw [if_pos rfl]
        simp only
        rw [GoMap.set_of_none _ hg]
        unfold realCount at h3 ⊢
        rw [List.countP_append, List.countP_singleton]
        simp only [PC.armed] at h2
        cases hm : m.isReal <;>
          simp only [hm, Bool.false_eq_true, if_false, if_true, beq_self_eq_true, Bool.and_true, Bool.and_false] at h2 ⊢ <;>
          push_cast <;> omega
      · rw [if_neg hr]
        have : ¬ rid = r := fun e => hr e.symm
        simp only [PC.armed, Bool.false_eq_true, if_false, this, beq_iff_eq, Bool.and_eq_true, false_and] at h2
        rw [h2]
        simpa using h3
  | incr q rid m =>
    apply keep
    · intro r; exact maps_same s hu _ (by simp) r
    · intro r; simp only [callStep, setReg_regs]; by_cases hr : r = rid <;> simp [hr]
    · simp [callStep, PC.armed]
  | assert q r m => apply keep (fun _ => rfl) (fun _ => rfl); intro r; simp only [callStep]; split <;> simp [PC.armed]
  | done q r m => apply keep (fun _ => rfl) (fun _ => rfl); simp [callStep, PC.armed]
  | panicked q r => apply keep (fun _ => rfl) (fun _ => rfl); simp [callStep, PC.armed]
  | setEnable b => apply keep (fun _ => rfl) (fun _ => rfl); simp [callStep, PC.armed]
  | setDone b => apply keep (fun _ => rfl) (fun _ => rfl); simp [callStep, PC.armed]

theorem limit_all (limits : List Int) (P : Nat) (hP : 1 ≤ P) (es : List (Ev Call Unit)) (hes : SchedOk limits.length es)
    (hfl : ∀ es', es' <+: es → inFlight (conc.run (Machine.start (initial limits)) es').calls ≤ P)
    (hlen : (conc.run (Machine.start (initial limits)) es).calls.length < 2147483648) :
    LimitInv P (conc.run (Machine.start (initial limits)) es).shared (conc.run (Machine.start (initial limits)) es).calls := by
  induction es using List.reverseRecOn with
  | nil => intro r; simp [Machine.run, Machine.start, initial, realCount]; omega
  | append_singleton es e ih =>
    have hok : SchedOk limits.length es := fun a ha => hes a (by simp [ha])
    have hcalls : (conc.run (Machine.start (initial limits)) es).calls.length ≤
        (conc.run (Machine.start (initial limits)) (es ++ [e])).calls.length := by
      rw [Machine.run_snoc]
      cases e with
      | spawn a => simp [Machine.apply]
      | step i x =>
        simp only [Machine.apply]
        split <;> simp
    have ih' := ih hok (fun es' h => hfl es' (h.trans (List.prefix_append _ _))) (Nat.lt_of_le_of_lt hcalls hlen)
    have hinv := inv_all limits es hok
    have hfl' := hfl es (List.prefix_append _ _)
    have hl' := Nat.lt_of_le_of_lt hcalls hlen
    rw [Machine.run_snoc]
    generalize conc.run (Machine.start (initial limits)) es = p at *
    cases e with
    | spawn a =>
      intro r
      have := ih' r
      simp only [Machine.apply, List.countP_append, List.countP_singleton]
      rw [show (conc.call a).armed r = false from (begin_flags a).2.2 r]
      simpa using this
    | step i x =>
      cases h : p.calls[i]? with
      | none => simpa [Machine.apply, h] using ih'
      | some c =>
        obtain ⟨pre, post, e1, _, e2⟩ := conc.apply_step_eq (x := x) h
        rw [e2]
        rw [e1] at hinv hfl' hl' ih'
        exact limit_step hinv.i1 hinv.i4 hP hfl' hl' ih'

/-! ## Enumerations -/

theorem foldl_set_append (f : Entry → Bool) (l acc : GoMap GoStr Entry) (hw : GoMap.WF (acc ++ l)) :
    l.foldl (fun res e => if f e.2 then GoMap.set res e.1 e.2 else res) acc = acc ++ l.filter (fun e => f e.2) := by
  induction l generalizing acc with
  | nil => simp
  | cons a l ih =>
    obtain ⟨k, e⟩ := a
    have hk : GoMap.get? acc k = none := by
      rw [GoMap.get?_eq_none_iff]
      intro hmem
      simp only [GoMap.WF, GoMap.keys, List.map_append, List.map_cons, List.nodup_append] at hw
      exact hw.2.2 _ hmem _ (by simp) rfl
    simp only [List.foldl_cons]
    cases hf : f e with
    | true =>
      simp only [if_true]
      rw [GoMap.set_of_none _ hk, ih]
      · simp [List.filter_cons, hf]
      · simpa [GoMap.WF] using hw
    | false =>
      simp only [Bool.false_eq_true, if_false]
      rw [ih]
      · simp [List.filter_cons, hf]
      · simp only [GoMap.WF, GoMap.keys, List.map_append, List.map_cons] at hw ⊢
        refine hw.sublist ?_
        exact List.Sublist.append_left (List.sublist_cons_self _ _) _

theorem collect_eq (f : Entry → Bool) (l : GoMap GoStr Entry) (hw : GoMap.WF l) : collect f l = l.filter (fun e => f e.2) := by
  unfold collect
  rw [foldl_set_append f l [] (by simpa using hw)]
  simp

theorem getMetrics_eq (l : GoMap GoStr Entry) (hw : GoMap.WF l) : getMetrics l = l := by
  have := foldl_set_append (fun _ => true) l [] (by simpa using hw)
  simpa [getMetrics] using this

theorem lastUpdate_fold (first second : Metric → Int) (l : GoMap GoStr Entry) (acc : Int)
    (hfs : ∀ x ∈ l, first x.2.metric ≤ second x.2.metric) :
    let res := l.foldl (fun result e => if result < first e.2.metric then second e.2.metric else result) acc
    acc ≤ res ∧ (∀ x ∈ l, first x.2.metric ≤ res) ∧ (res = acc ∨ ∃ x ∈ l, res = second x.2.metric) := by
  induction l generalizing acc with
  | nil => simp
  | cons a l ih =>
    have h1 := hfs a (by simp)
    have := ih (if acc < first a.2.metric then second a.2.metric else acc) (fun x hx => hfs x (by simp [hx]))
    simp only [List.foldl_cons] at this ⊢
    obtain ⟨a1, a2, a3⟩ := this
    have hacc : acc ≤ (if acc < first a.2.metric then second a.2.metric else acc) ∧
        first a.2.metric ≤ (if acc < first a.2.metric then second a.2.metric else acc) := by
      split <;> constructor <;> omega
    refine ⟨le_trans hacc.1 a1, ?_, ?_⟩
    · intro x hx
      rcases List.mem_cons.1 hx with rfl | hx
      · exact le_trans hacc.2 a1
      · exact a2 x hx
    · rcases a3 with a3 | ⟨x, hx, a3⟩
      · rw [a3]
        by_cases hc : acc < first a.2.metric
        · rw [if_pos hc]; exact Or.inr ⟨a, by simp, rfl⟩
        · rw [if_neg hc]; exact Or.inl rfl
      · exact Or.inr ⟨x, by simp [hx], a3⟩

/-! ## Sequential results -/

theorem getOn_result (s : Mem) (q : Req) (rid : Nat) :
    ∃ e, ((getOn s q rid).1.regs rid).metricsMap.get? q.name.hash = some e ∧
      (getOn s q rid).2 = if e.metric.kind = q.kind then .done q (some rid) e.metric else .panicked q rid := by
  unfold getOn
  cases h : (s.regs rid).metricsMap.get? q.name.hash with
  | some e => exact ⟨e, h, rfl⟩
  | none =>
    have hk : (if (s.regs rid).metricsCount ≥ (s.regs rid).maxMetricCount then Metric.nop q.kind
        else creator q.kind q.name.level s.fresh).kind = q.kind := by
      split
      · rfl
      · exact creator_kind _ _ _
    exact ⟨⟨q.name, _⟩, by simp only [setReg_self, GoMap.get?_set_self]; rfl, (if_pos hk).symm⟩

/-- A lookup that reaches a registry works on the registry of its target. -/
theorem exec_reaches {n0 : Nat} (s : Mem) (q : Req) (hok : (Call.lookup q).ok n0) (hr : s.enable = true ∨ ∃ r, q.target = .direct r) :
    ∃ s' rid, exec s (.lookup q) = getOn s' q rid ∧ registryOf n0 (getOn s' q rid).1 q.target = some rid := by
  cases ht : q.target with
  | direct r =>
    simp only [Call.ok, ht] at hok
    exact ⟨s, r, exec_direct s q r ht, by simp [registryOf, hok]⟩
  | group g =>
    have he : s.enable = true := by rcases hr with h | ⟨r, h⟩ <;> [exact h; simp [ht] at h]
    rw [exec_group s q g ht]
    unfold getManaged
    rw [if_pos he]
    cases hg : s.groups.get? g with
    | some rid => exact ⟨s, rid, rfl, by simp only [registryOf, (getOn_globals s q rid).1, hg]⟩
    | none => exact ⟨_, s.nextReg, rfl, by simp only [registryOf, (getOn_globals _ q _).1, GoMap.get?_set_self]⟩

/-- What a lookup after the history `h` does. -/
theorem seq_result (limits : List Int) (h : List Call) (q : Req) (hok : ∀ c ∈ h ++ [.lookup q], c.ok limits.length)
    (hr : enabledAfter true h = true ∨ ∃ r, q.target = .direct r)
    (hsm : (firsts (asked q.target true (h ++ [.lookup q]))).length ≤ 2147483647) :
    ∃ (i : Nat) (q0 : Req) (rid : Nat) (m : Metric), (firsts (asked q.target true (h ++ [.lookup q])))[i]? = some q0 ∧
      q0.name.hash = q.name.hash ∧ m.kind = q0.kind ∧ (m.isReal = true ↔ (i : Int) < limitOf limits q.target) ∧
      (exec (runSeq (initial limits) h) (.lookup q)).2 = if q0.kind = q.kind then .done q (some rid) m else .panicked q rid := by
  have hi := seqInv_all limits h (fun c hc => hok c (by simp [hc]))
  have hi' := seqInv_all limits (h ++ [.lookup q]) hok
  obtain ⟨s', rid, he, hreg⟩ := exec_reaches (n0 := limits.length) (runSeq (initial limits) h) q (hok _ (by simp)) (by rw [hi.en]; exact hr)
  rw [runSeq_snoc, he] at hi'
  obtain ⟨e, hget, hres⟩ := getOn_result s' q rid
  obtain ⟨-, hshape⟩ := (hi'.reg _ _ hreg).2 hsm
  obtain ⟨i, hi1, hi2⟩ := List.getElem_of_mem (GoMap.mem_of_get? hget)
  have hsi := congrArg (fun l => l[i]?) hshape
  simp only [shape, expected, List.getElem?_map, List.getElem?_eq_getElem hi1, hi2, Option.map_some] at hsi
  rw [List.getElem?_zipIdx] at hsi
  cases hq : (firsts (asked q.target true (h ++ [.lookup q])))[i]? with
  | none => rw [hq] at hsi; simp at hsi
  | some q0 =>
    rw [hq] at hsi
    simp only [Option.map_some, Option.some.injEq, Prod.mk.injEq, zero_add] at hsi
    obtain ⟨e1, e2, e3, e4⟩ := hsi
    refine ⟨i, q0, rid, e.metric, hq, e1.symm, e3, by rw [e4]; simp, ?_⟩
    rw [he, hres, e3]

theorem mono_exec {n0 : Nat} {s : Mem} (h : Inv1 n0 s []) {a : Call} (ha : a.ok n0) : Mono s (exec s a).1 := by
  have key : ∀ n s c, Inv1 n0 s [c] → Mono s (solo n (s, c)).1 := by
    intro n
    induction n with
    | zero => intro s c h; exact Mono.refl s
    | succ n ih =>
      intro s c h
      exact (step_mono s (fun r hr => (h.unborn r hr).1) c).trans (ih _ _ (inv1_step (pre := []) (post := []) h))
  exact key 9 s (begin a) (inv1_spawn (cs := []) ha h)

theorem mono_runSeq {n0 : Nat} (h : List Call) (hok : ∀ c ∈ h, c.ok n0) {s : Mem} (hi : Inv1 n0 s []) :
    Mono s (runSeq s h) ∧ Inv1 n0 (runSeq s h) [] := by
  induction h generalizing s with
  | nil => exact ⟨Mono.refl s, hi⟩
  | cons c h ih =>
    have := ih (fun c hc => hok c (by simp [hc])) (inv1_exec hi (hok c (by simp)))
    exact ⟨(mono_exec hi (hok c (by simp))).trans this.1, this.2⟩

end Registry
end GoMetrics
