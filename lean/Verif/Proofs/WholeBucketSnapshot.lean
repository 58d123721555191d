import Verif.Props.WholeBucket
/-! # A snapshot of a whole compass with a bucket reservoir is a snapshot of its pair of counters -/
namespace GoMetrics
namespace Whole
open CompassConc (MarkArg Mark Marks)
open BucketPair (Upd SnapPC counted Event eventStep)

/-- A call of the counters, and the first inner call of an update of the pair. -/
def InTotal (k : Mark) (u : BucketCounter.Call) : Prop :=
  match k.pc with
  | .total c => u = c ∧ counted c = false
  | .crashed => True
  | _ => counted u = true

/-- A call of the compass, and its update of the pair. -/
def Tied (s : Parts BucketCounter BucketPC) (q : Pool BucketPair.Shared Upd) (c : Call) : Prop :=
  match c.pc with
  | .total _ m => ∃ d a u k, c.use = .update d a ∧ q.calls[m]? = some u ∧ u.value = ⟨d, .start⟩ ∧ s.marks.calls[m]? = some k ∧ InTotal k u.count
  | .res _ m r | .rest _ m r | .done _ m r | .resPanicked _ m r => ∃ d a u k, c.use = .update d a ∧ q.calls[m]? = some u ∧ counted u.count = true ∧
      u.value.n = d ∧ s.res.calls[r]? = some (.upd u.value) ∧ s.marks.calls[m]? = some k ∧ pastTotal k = true
  | .crashed _ m => ∃ d a u, c.use = .update d a ∧ q.calls[m]? = some u ∧ u.value.n = d
  | _ => True

/-- A `GetSnapshot` of the compass, and the snapshot of the pair. -/
def SnapTied (s : Pool BucketCounter BucketPC) (pc : SnapPC) (c : Call) : Prop :=
  match c.pc with
  | .start => pc = .align
  | .snap r | .snapped r => s.calls[r]? = some (.snap pc)
  | _ => True

/-- The compass, with its call number `k`, and the pair of counters. -/
structure Sim (k : Nat) (p : Pool (Parts BucketCounter BucketPC) Call) (q : Pool BucketPair.Shared Upd × SnapPC) : Prop where
  count : q.1.shared.count = p.shared.marks.shared.total
  value : q.1.shared.value = p.shared.res.shared
  len : q.1.calls.length = p.shared.marks.calls.length
  upd : ∀ (i : Nat) (c : Call), p.calls[i]? = some c → Tied p.shared q.1 c
  snap : ∀ c, p.calls[k]? = some c → SnapTied p.shared.res q.2 c
  fresh : p.calls.length ≤ k → q.2 = .align

theorem Tied.frame {s s' : Parts BucketCounter BucketPC} {q q' : Pool BucketPair.Shared Upd} {c : Call} (h : Tied s q c)
    (hm : ∀ m, c.markIx = some m → s'.marks.calls[m]? = s.marks.calls[m]? ∧ q'.calls[m]? = q.calls[m]?)
    (hr : ∀ r, c.resIx = some r → s'.res.calls[r]? = s.res.calls[r]?) : Tied s' q' c := by
  obtain ⟨use, pc⟩ := c
  cases pc with
  | total i m => obtain ⟨h1, h2⟩ := hm m rfl; simp only [Tied, h1, h2] at h ⊢; exact h
  | res i m r => obtain ⟨h1, h2⟩ := hm m rfl; have h3 := hr r rfl; simp only [Tied, h1, h2, h3] at h ⊢; exact h
  | rest i m r => obtain ⟨h1, h2⟩ := hm m rfl; have h3 := hr r rfl; simp only [Tied, h1, h2, h3] at h ⊢; exact h
  | done i m r => obtain ⟨h1, h2⟩ := hm m rfl; have h3 := hr r rfl; simp only [Tied, h1, h2, h3] at h ⊢; exact h
  | resPanicked i m r => obtain ⟨h1, h2⟩ := hm m rfl; have h3 := hr r rfl; simp only [Tied, h1, h2, h3] at h ⊢; exact h
  | crashed i m => obtain ⟨h1, h2⟩ := hm m rfl; simp only [Tied, h2] at h ⊢; exact h
  | _ => trivial

theorem SnapTied.frame {s s' : Pool BucketCounter BucketPC} {pc : SnapPC} {c : Call} (h : SnapTied s pc c)
    (hr : ∀ r, c.resIx = some r → s'.calls[r]? = s.calls[r]?) : SnapTied s' pc c := by
  obtain ⟨use, pc'⟩ := c
  cases pc' with
  | start => exact h
  | snap r => have h3 := hr r rfl; simp only [SnapTied, h3] at h ⊢; exact h
  | snapped r => have h3 := hr r rfl; simp only [SnapTied, h3] at h ⊢; exact h
  | _ => trivial

theorem ix_lt {α : Type} {ix : α → Option Nat} {l : List α} {n m i : Nat} {a : α} (hp : (l.filterMap ix).Perm (List.range n)) (ha : l[i]? = some a)
    (hm : ix a = some m) : m < n :=
  List.mem_range.1 (hp.mem_iff.1 (List.mem_filterMap.2 ⟨a, List.mem_of_getElem? ha, hm⟩))

theorem nodup_inj {α : Type} {ix : α → Option Nat} {l : List α} (hn : (l.filterMap ix).Nodup) {m i j : Nat} {a b : α} (ha : l[i]? = some a) (hb : l[j]? = some b)
    (hma : ix a = some m) (hmb : ix b = some m) : i = j := by
  induction l generalizing i j with
  | nil => simp at ha
  | cons c l ih =>
    have hl : (l.filterMap ix).Nodup := by
      rw [List.filterMap_cons] at hn
      split at hn
      · exact hn
      · exact hn.of_cons
    have key : ∀ (j : Nat) (b : α), ix c = some m → l[j]? = some b → ix b = some m → False := by
      intro j b h1 h2 h3
      rw [List.filterMap_cons, h1] at hn
      exact (List.nodup_cons.1 hn).1 (List.mem_filterMap.2 ⟨b, List.mem_of_getElem? h2, h3⟩)
    cases i with
    | zero =>
      simp only [List.getElem?_cons_zero, Option.some.injEq] at ha
      subst ha
      cases j with
      | zero => rfl
      | succ j => exact (key j b hma (by simpa using hb) hmb).elim
    | succ i =>
      cases j with
      | zero =>
        simp only [List.getElem?_cons_zero, Option.some.injEq] at hb
        subst hb
        exact (key i a hmb (by simpa using ha) hma).elim
      | succ j => exact congrArg (· + 1) (ih hl (by simpa using ha) (by simpa using hb))

theorem ix_inj {α : Type} {ix : α → Option Nat} {l : List α} {n m i j : Nat} {a b : α} (hp : (l.filterMap ix).Perm (List.range n)) (ha : l[i]? = some a)
    (hb : l[j]? = some b) (hma : ix a = some m) (hmb : ix b = some m) : i = j :=
  nodup_inj (hp.nodup_iff.2 List.nodup_range) ha hb hma hmb

section
variable {R : Rounding} {bi : Int} {p0 p : Pool (Parts BucketCounter BucketPC) Call} {Qt : Int → Prop} {Qr : BucketIn → Prop}

/-- One step of a call, given what it does part by part. -/
theorem Sim.next (hI : Inv R (bucket bi) bucketArg bi Qt Qr p0 p) {k : Nat} {q q' : Pool BucketPair.Shared Upd × SnapPC} (h : Sim k p q) {i : Nat} {c c' : Call}
    {s' : Parts BucketCounter BucketPC} (hc : p.calls[i]? = some c) (h1 : q'.1.shared.count = s'.marks.shared.total) (h2 : q'.1.shared.value = s'.res.shared)
    (h3 : q'.1.calls.length = s'.marks.calls.length)
    (hm : ∀ m, c.markIx ≠ some m → m < p.shared.marks.calls.length → s'.marks.calls[m]? = p.shared.marks.calls[m]? ∧ q'.1.calls[m]? = q.1.calls[m]?)
    (hr : ∀ r, c.resIx ≠ some r → r < p.shared.res.calls.length → s'.res.calls[r]? = p.shared.res.calls[r]?)
    (ht : Tied s' q'.1 c') (hs : i = k → SnapTied s'.res q'.2 c') (hs' : i ≠ k → q'.2 = q.2) : Sim k ⟨s', p.calls.set i c'⟩ q' := by
  obtain ⟨hi, -⟩ := List.getElem?_eq_some_iff.1 hc
  have hr' : ∀ (j : Nat) (d : Call) (r : Nat), i ≠ j → p.calls[j]? = some d → d.resIx = some r → s'.res.calls[r]? = p.shared.res.calls[r]? := by
    intro j d r hij hd hdr
    exact hr r (fun e => hij (ix_inj hI.resIx hc hd e hdr)) (ix_lt hI.resIx hd hdr)
  refine ⟨h1, h2, h3, ?_, ?_, ?_⟩
  · intro j d hd
    by_cases hij : i = j
    · subst hij
      rw [List.getElem?_set_self hi] at hd
      obtain rfl := Option.some.inj hd
      exact ht
    · simp only [List.getElem?_set_ne hij] at hd
      refine (h.upd j d hd).frame (fun m hdm => ?_) (fun r => hr' j d r hij hd)
      exact hm m (fun e => hij (ix_inj hI.markIx hc hd e hdm)) (ix_lt hI.markIx hd hdm)
  · intro d hd
    by_cases hik : i = k
    · subst hik
      rw [List.getElem?_set_self hi] at hd
      obtain rfl := Option.some.inj hd
      exact hs rfl
    · simp only [List.getElem?_set_ne hik] at hd
      rw [hs' hik]
      exact (h.snap d hd).frame (fun r => hr' k d r hik hd)
  · intro hk
    simp only [List.length_set] at hk
    rw [hs' (by omega)]
    exact h.fresh hk

/-- Nothing that matters happens. -/
theorem Sim.same (hI : Inv R (bucket bi) bucketArg bi Qt Qr p0 p) {k : Nat} {q : Pool BucketPair.Shared Upd × SnapPC} (h : Sim k p q) {i : Nat} {c c' : Call}
    {s' : Parts BucketCounter BucketPC} (hc : p.calls[i]? = some c) (h1 : s'.marks = p.shared.marks) (h2 : s'.res = p.shared.res) (ht : Tied p.shared q.1 c')
    (hs : i = k → SnapTied p.shared.res q.2 c') : Sim k ⟨s', p.calls.set i c'⟩ q := by
  refine h.next hI hc (by rw [h1]; exact h.count) (by rw [h2]; exact h.value) (by rw [h1]; exact h.len) (fun m _ _ => ⟨by rw [h1], rfl⟩) (fun r _ _ => by rw [h2]) ?_ ?_
    (fun _ => rfl)
  · exact ht.frame (fun m _ => ⟨by rw [h1], rfl⟩) (fun r _ => by rw [h2])
  · intro e; exact (hs e).frame (fun r _ => by rw [h2])
end

theorem pastTotal_step (s : Marks) (t : Int) (m : Mark) (h : pastTotal m = true) :
    (CompassConc.markStep s t m).1.total = s.total ∧ pastTotal (CompassConc.markStep s t m).2 = true := by
  obtain ⟨a, pc⟩ := m
  have hA : ∀ a, pastTotal ⟨a, CompassConc.atAddon a⟩ = true := by intro a; unfold CompassConc.atAddon; split <;> rfl
  have hE : ∀ a, pastTotal ⟨a, CompassConc.atError a⟩ = true := by
    intro a; unfold CompassConc.atError; split
    · rfl
    · exact hA a
  cases pc with
  | total c => cases h
  | success c =>
    refine ⟨rfl, ?_⟩
    simp only [CompassConc.markStep, CompassConc.follow]
    split
    · exact hE a
    · rfl
    · rfl
  | lock w => simp only [CompassConc.markStep]; split <;> exact ⟨rfl, rfl⟩
  | find w => simp only [CompassConc.markStep]; repeat' split
              all_goals exact ⟨rfl, rfl⟩
  | make w => exact ⟨rfl, rfl⟩
  | insert w b => exact ⟨rfl, rfl⟩
  | unlock w f => cases f <;> exact ⟨rfl, rfl⟩
  | hit w c =>
    simp only [CompassConc.markStep]
    split
    · exact ⟨rfl, rfl⟩
    · refine ⟨rfl, ?_⟩
      simp only [CompassConc.follow]
      split
      · cases w
        · exact hA a
        · rfl
      · rfl
      · rfl
  | done => exact ⟨rfl, rfl⟩
  | panicked w => exact ⟨rfl, rfl⟩
  | crashed => exact ⟨rfl, rfl⟩

theorem pastTotal_counted {k : Mark} {u : BucketCounter.Call} (h : pastTotal k = true) (hk : k.pc ≠ .crashed) (hu : InTotal k u) : counted u = true := by
  obtain ⟨a, pc⟩ := k
  cases pc with
  | total c => cases h
  | crashed => exact absurd rfl hk
  | _ => exact hu

theorem inTotal_step (s : Marks) (t : Int) (k : Mark) (u : BucketCounter.Call) (h : pastTotal k = false) (hu : InTotal k u) :
    counted u = false ∧ (CompassConc.markStep s t k).1.total = (BucketCounter.callStep s.total t u).1 ∧
    InTotal (CompassConc.markStep s t k).2 (BucketCounter.callStep s.total t u).2 := by
  obtain ⟨a, pc⟩ := k
  have hA : ∀ a u, counted u = true → InTotal ⟨a, CompassConc.atAddon a⟩ u := by intro a u h; unfold CompassConc.atAddon; split <;> exact h
  have hE : ∀ a u, counted u = true → InTotal ⟨a, CompassConc.atError a⟩ u := by
    intro a u h; unfold CompassConc.atError; split
    · exact h
    · exact hA a u h
  have hS : ∀ a u, counted u = true → InTotal ⟨a, CompassConc.atSuccess a⟩ u := by
    intro a u h; unfold CompassConc.atSuccess; split
    · exact h
    · exact hE a u h
  cases pc with
  | total c =>
    obtain ⟨rfl, hc⟩ := hu
    refine ⟨hc, rfl, ?_⟩
    simp only [CompassConc.markStep]
    generalize (BucketCounter.callStep s.total t u).2 = v
    obtain ⟨n, pc⟩ := v
    cases pc with
    | done ts p => exact hS a _ rfl
    | panicked => trivial
    | _ => exact ⟨rfl, rfl⟩
  | _ => cases h

theorem conc_spawn (q : Pool BucketPair.Shared Upd) (d : Int) :
    BucketPair.conc.apply q (.spawn d) = ⟨q.shared, q.calls ++ [⟨⟨1, .start⟩, ⟨d, .start⟩⟩]⟩ := rfl

theorem markIx_get {α : Type} (l : List α) (a : α) (m : Nat) (h : m < l.length) : (l ++ [a])[m]? = l[m]? := List.getElem?_append_left h

/-- What a step of the compass is for the pair. -/
def Small (k i : Nat) (x : In (Int × Nat)) (c : Call) (l : List Event) : Prop :=
  l = [] ∨ (i = k ∧ l = [.inr x.res]) ∨
  ((∃ d a, c.use = .update d a) ∧ c.over = false ∧ ((∃ d, l = [.inl (.spawn d)]) ∨ ∃ m t, l = [.inl (.step m t)] ∧ (t = x.time ∨ t = x.res.1)))

/-- Every step of a call of the compass is at most one step of the pair. -/
theorem sim_step {R : Rounding} {bi : Int} {p0 p : Pool (Parts BucketCounter BucketPC) Call} {Qt : Int → Prop} {Qr : BucketIn → Prop}
    (hI : Inv R (bucket bi) bucketArg bi Qt Qr p0 p) {k : Nat} {q : Pool BucketPair.Shared Upd × SnapPC} (h : Sim k p q) {i : Nat} {c : Call}
    (hc : p.calls[i]? = some c) (x : In (Int × Nat)) :
    ∃ l, Small k i x c l ∧ Sim k ((bucketCompass R bi).apply p (.step i x)) (l.foldl (eventStep bi) q) := by
  have hap : (bucketCompass R bi).apply p (.step i x) =
      ⟨(callStep R (bucket bi) bi p.shared (atTotal p.shared x) c).1, p.calls.set i (callStep R (bucket bi) bi p.shared (atTotal p.shared x) c).2⟩ := by
    simp only [Machine.apply, hc]; rfl
  rw [hap]
  clear hap
  have hh := hI.here c (List.mem_of_getElem? hc)
  have ht := h.upd i c hc
  have hsn : i = k → SnapTied p.shared.res q.2 c := fun e => h.snap c (e ▸ hc)
  obtain ⟨use, pc⟩ := c
  have hq : ∀ {m}, m < p.shared.marks.calls.length → m < q.1.calls.length := fun {m} hm => by rw [h.len]; exact hm
  cases pc with
  | start =>
    cases use with
    | snapshot =>
      refine ⟨[], .inl rfl, h.next hI hc h.count h.value h.len (fun m _ _ => ⟨rfl, rfl⟩) (fun r _ hr => markIx_get _ _ _ hr) trivial ?_ (fun _ => rfl)⟩
      intro e
      have := hsn e
      change q.2 = .align at this
      change (p.shared.res.calls ++ [BucketPC.snap .align])[p.shared.res.calls.length]? = some (.snap q.2)
      rw [this]; simp
    | update d a => exact ⟨[], .inl rfl, h.same hI hc rfl rfl trivial (fun _ => trivial)⟩
    | rate w => exact ⟨[], .inl rfl, h.same hI hc rfl rfl trivial (fun _ => trivial)⟩
  | tick j =>
    obtain ⟨hu, t, ht1, -⟩ := hh
    simp only at hu ht1
    simp only [callStep, ht1]
    by_cases ho : tickOver t = true
    · rw [if_pos ho]
      cases use with
      | snapshot => exact absurd rfl hu
      | update d a =>
        refine ⟨[.inl (.spawn d)], .inr (.inr ⟨⟨d, a, rfl⟩, rfl, .inl ⟨d, rfl⟩⟩), ?_⟩
        refine h.next hI hc h.count h.value ?_ (fun m _ hm => ⟨markIx_get _ _ _ hm, markIx_get _ _ _ (hq hm)⟩) (fun _ _ _ => rfl) ?_ (fun _ => trivial) (fun _ => rfl)
        · simp only [List.foldl_cons, List.foldl_nil, eventStep, spawn_length, h.len]
        · refine ⟨d, a, ⟨⟨1, .start⟩, ⟨d, .start⟩⟩, CompassConc.marking.call a, rfl, ?_, rfl, ?_, rfl, rfl⟩
          · change (q.1.calls ++ [_])[p.shared.marks.calls.length]? = _
            rw [← h.len]; simp [BucketPair.conc]
          · simp [Machine.apply]
      | rate w => exact ⟨[], .inl rfl, h.same hI hc rfl rfl trivial (fun _ => trivial)⟩
    · rw [if_neg ho]
      cases feeds t with
      | none => exact ⟨[], .inl rfl, h.same hI hc rfl rfl trivial (fun _ => trivial)⟩
      | some wn => exact ⟨[], .inl rfl, h.same hI hc rfl rfl trivial (fun _ => trivial)⟩
  | avg j w l =>
    obtain ⟨-, -, e, he, -⟩ := hh
    simp only [callStep, he]
    by_cases ho : avgOver e = true
    · rw [if_pos ho]; exact ⟨[], .inl rfl, h.same hI hc rfl rfl trivial (fun _ => trivial)⟩
    · rw [if_neg ho]; exact ⟨[], .inl rfl, h.same hI hc rfl rfl trivial (fun _ => trivial)⟩
  | total j m =>
    obtain ⟨d, a, u, mk, hu, hqu, hv, hmk, hin⟩ := ht
    simp only at hu hmk
    subst hu
    simp only [callStep, hmk]
    by_cases hp : pastTotal mk = true
    · rw [if_pos hp]
      by_cases hcr : mk.pc = .crashed
      · rw [if_pos hcr]
        exact ⟨[], .inl rfl, h.same hI hc rfl rfl ⟨d, a, u, rfl, hqu, by rw [hv]⟩ (fun _ => trivial)⟩
      · rw [if_neg hcr]
        refine ⟨[], .inl rfl, h.next hI hc h.count h.value h.len (fun _ _ _ => ⟨rfl, rfl⟩) (fun r _ hr => markIx_get _ _ _ hr) ?_ (fun _ => trivial) (fun _ => rfl)⟩
        refine ⟨d, a, u, mk, rfl, hqu, pastTotal_counted hp hcr hin, by rw [hv], ?_, hmk, hp⟩
        rw [hv]
        simp [Machine.apply, bucket, bucketConc]
    · rw [if_neg hp]
      obtain ⟨hn, g1, g2⟩ := inTotal_step p.shared.marks.shared x.time mk u.count (by simpa using hp) hin
      have hml : m < p.shared.marks.calls.length := (List.getElem?_eq_some_iff.1 hmk).1
      have e1 : CompassConc.marking.apply p.shared.marks (.step m (atTotal p.shared x).time) =
          ⟨(CompassConc.markStep p.shared.marks.shared x.time mk).1, p.shared.marks.calls.set m (CompassConc.markStep p.shared.marks.shared x.time mk).2⟩ := by
        simp only [Machine.apply, hmk]; rfl
      have e2 : List.foldl (eventStep bi) q [.inl (.step m x.time)] =
          (⟨{ q.1.shared with count := (BucketCounter.callStep q.1.shared.count x.time u.count).1 },
            q.1.calls.set m { u with count := (BucketCounter.callStep q.1.shared.count x.time u.count).2 }⟩, q.2) := by
        simp only [List.foldl_cons, List.foldl_nil, eventStep, BucketPair.apply_some hqu, BucketPair.updStep, hn, Bool.false_eq_true, if_false]
      refine ⟨[.inl (.step m x.time)], .inr (.inr ⟨⟨d, a, rfl⟩, rfl, .inr ⟨m, _, rfl, .inl rfl⟩⟩), ?_⟩
      rw [e1, e2]
      refine h.next hI hc ?_ h.value ?_ ?_ (fun _ _ _ => rfl) ?_ (fun _ => trivial) (fun _ => rfl)
      · change _ = (CompassConc.markStep p.shared.marks.shared x.time mk).1.total
        rw [g1, h.count]
      · simp only [List.length_set]; exact h.len
      · intro m' hm' _
        have : m ≠ m' := fun e => hm' (by rw [← e]; rfl)
        exact ⟨List.getElem?_set_ne this, List.getElem?_set_ne this⟩
      · refine ⟨d, a, _, _, rfl, List.getElem?_set_self (hq hml), hv, List.getElem?_set_self hml, ?_⟩
        rw [h.count]; exact g2
  | res j m r =>
    obtain ⟨d, a, u, mk, hu, hqu, hcu, hv, hru, hmk, hp⟩ := ht
    simp only at hu hru
    subst hu
    simp only [callStep, hru]
    cases ho : (bucket bi).over (.upd u.value) with
    | some b =>
      cases b with
      | true => exact ⟨[], .inl rfl, h.same hI hc rfl rfl ⟨d, a, u, mk, rfl, hqu, hcu, hv, hru, hmk, hp⟩ (fun _ => trivial)⟩
      | false => exact ⟨[], .inl rfl, h.same hI hc rfl rfl ⟨d, a, u, mk, rfl, hqu, hcu, hv, hru, hmk, hp⟩ (fun _ => trivial)⟩
    | none =>
      have hrl : r < p.shared.res.calls.length := (List.getElem?_eq_some_iff.1 hru).1
      have hml : m < p.shared.marks.calls.length := (List.getElem?_eq_some_iff.1 hmk).1
      have e1 : (bucket bi).machine.apply p.shared.res (.step r (atTotal p.shared x).res) =
          ⟨(BucketCounter.callStep p.shared.res.shared x.res.1 u.value).1, p.shared.res.calls.set r (.upd (BucketCounter.callStep p.shared.res.shared x.res.1 u.value).2)⟩ := by
        simp only [Machine.apply, hru]; rfl
      have e2 : List.foldl (eventStep bi) q [.inl (.step m x.res.1)] =
          (⟨{ q.1.shared with value := (BucketCounter.callStep q.1.shared.value x.res.1 u.value).1 },
            q.1.calls.set m { u with value := (BucketCounter.callStep q.1.shared.value x.res.1 u.value).2 }⟩, q.2) := by
        simp only [List.foldl_cons, List.foldl_nil, eventStep, BucketPair.apply_some hqu, BucketPair.updStep, hcu, if_true]
      refine ⟨[.inl (.step m x.res.1)], .inr (.inr ⟨⟨d, a, rfl⟩, rfl, .inr ⟨m, _, rfl, .inr rfl⟩⟩), ?_⟩
      rw [e1, e2]
      refine h.next hI hc h.count ?_ ?_ ?_ ?_ ?_ (fun _ => trivial) (fun _ => rfl)
      · rw [h.value]
      · simp only [List.length_set]; exact h.len
      · intro m' hm' _
        have : m ≠ m' := fun e => hm' (by rw [← e]; rfl)
        exact ⟨rfl, List.getElem?_set_ne this⟩
      · intro r' hr' _
        have : r ≠ r' := fun e => hr' (by rw [← e]; rfl)
        exact List.getElem?_set_ne this
      · refine ⟨d, a, _, mk, rfl, List.getElem?_set_self (hq hml), hcu, ?_, ?_, hmk, hp⟩
        · change (BucketCounter.callStep q.1.shared.value x.res.1 u.value).2.n = d
          rw [(BucketCounter.callStep_const _ _ _).2.2.2]; exact hv
        · change (p.shared.res.calls.set r _)[r]? = _
          rw [List.getElem?_set_self hrl, h.value]
  | rest j m r =>
    obtain ⟨d, a, u, mk, hu, hqu, hcu, hv, hru, hmk, hp⟩ := ht
    simp only at hu hmk
    subst hu
    simp only [callStep, hmk]
    by_cases ho : markOver mk = true
    · rw [if_pos ho]
      exact ⟨[], .inl rfl, h.same hI hc rfl rfl ⟨d, a, u, mk, rfl, hqu, hcu, hv, hru, hmk, hp⟩ (fun _ => trivial)⟩
    · rw [if_neg ho]
      obtain ⟨g1, g2⟩ := pastTotal_step p.shared.marks.shared x.time mk hp
      have hml : m < p.shared.marks.calls.length := (List.getElem?_eq_some_iff.1 hmk).1
      have e1 : CompassConc.marking.apply p.shared.marks (.step m (atTotal p.shared x).time) =
          ⟨(CompassConc.markStep p.shared.marks.shared x.time mk).1, p.shared.marks.calls.set m (CompassConc.markStep p.shared.marks.shared x.time mk).2⟩ := by
        simp only [Machine.apply, hmk]; rfl
      rw [e1]
      refine ⟨[], .inl rfl, h.next hI hc ?_ h.value ?_ ?_ (fun _ _ _ => rfl) ?_ (fun _ => trivial) (fun _ => rfl)⟩
      · change _ = (CompassConc.markStep p.shared.marks.shared x.time mk).1.total
        rw [g1]; exact h.count
      · simp only [List.length_set]; exact h.len
      · intro m' hm' _
        have : m ≠ m' := fun e => hm' (by rw [← e]; rfl)
        exact ⟨List.getElem?_set_ne this, rfl⟩
      · exact ⟨d, a, u, _, rfl, hqu, hcu, hv, hru, List.getElem?_set_self hml, g2⟩
  | rate j =>
    cases use <;> exact ⟨[], .inl rfl, h.same hI hc rfl rfl trivial (fun _ => trivial)⟩
  | snap r =>
    obtain ⟨hu, s, hs1, hs2⟩ := hh
    simp only at hu hs1
    subst hu
    simp only [callStep, hs1]
    cases s with
    | upd c => cases hs2
    | snap sp =>
      by_cases ho : ((bucket bi).over (.snap sp)).isSome = true
      · rw [if_pos ho]
        exact ⟨[], .inl rfl, h.same hI hc rfl rfl trivial (fun e => hsn e)⟩
      · rw [if_neg ho]
        have hrl : r < p.shared.res.calls.length := (List.getElem?_eq_some_iff.1 hs1).1
        have e1 : (bucket bi).machine.apply p.shared.res (.step r (atTotal p.shared x).res) =
            ⟨p.shared.res.shared, p.shared.res.calls.set r (.snap (BucketPair.snapStep bi ⟨p.shared.marks.shared.total, p.shared.res.shared⟩ x.res sp))⟩ := by
          simp only [Machine.apply, hs1]; rfl
        rw [e1]
        have hrr : ∀ r', (⟨.snapshot, .snap r⟩ : Call).resIx ≠ some r' → r' < p.shared.res.calls.length →
            (p.shared.res.calls.set r (.snap (BucketPair.snapStep bi ⟨p.shared.marks.shared.total, p.shared.res.shared⟩ x.res sp)))[r']? =
              p.shared.res.calls[r']? := by
          intro r' hr' _
          have : r ≠ r' := fun e => hr' (by rw [← e]; rfl)
          exact List.getElem?_set_ne this
        by_cases hik : i = k
        · refine ⟨[.inr x.res], .inr (.inl ⟨hik, rfl⟩), ?_⟩
          refine h.next hI hc h.count h.value h.len (fun _ _ _ => ⟨rfl, rfl⟩) hrr trivial (fun _ => ?_) (fun e => absurd hik e)
          have := hsn hik
          change p.shared.res.calls[r]? = _ at this
          rw [hs1] at this
          simp only [Option.some.injEq, BucketPC.snap.injEq] at this
          change (p.shared.res.calls.set r _)[r]? = _
          rw [List.getElem?_set_self hrl]
          simp only [List.foldl_cons, List.foldl_nil, eventStep]
          rw [← this, ← h.count, ← h.value]
        · exact ⟨[], .inl rfl, h.next hI hc h.count h.value h.len (fun _ _ _ => ⟨rfl, rfl⟩) hrr trivial (fun e => absurd e hik) (fun _ => rfl)⟩
  | done j m r => exact ⟨[], .inl rfl, h.same hI hc rfl rfl ht (fun _ => trivial)⟩
  | resPanicked j m r => exact ⟨[], .inl rfl, h.same hI hc rfl rfl ht (fun _ => trivial)⟩
  | crashed j m => exact ⟨[], .inl rfl, h.same hI hc rfl rfl ht (fun _ => trivial)⟩
  | got j v => exact ⟨[], .inl rfl, h.same hI hc rfl rfl trivial (fun _ => trivial)⟩
  | snapped r => exact ⟨[], .inl rfl, h.same hI hc rfl rfl trivial hsn⟩

end Whole
end GoMetrics
