import Verif.Model.FastCompassConc
import Verif.Proofs.RWLock
import Verif.Props.FastCompass
/-! # C80 — a fast compass recorded to by many goroutines

Every theorem quantifies over every schedule `es` of any number of `Record` calls, interleaved between single map accesses, loads, stores and
compare-and-swaps, with any clock readings. -/
namespace GoMetrics
open FastCompassConc

theorem GoMap.set_set {κ ν : Type} [DecidableEq κ] (m : GoMap κ ν) (k : κ) (v w : ν) : (m.set k v).set k w = m.set k w := by
  induction m with
  | nil => simp [GoMap.set]
  | cons e t ih =>
    obtain ⟨k', v'⟩ := e
    by_cases h : k' = k
    · simp [GoMap.set, h]
    · simp [GoMap.set, h, ih]

theorem GoMap.set_get {κ ν : Type} [DecidableEq κ] (m : GoMap κ ν) (k : κ) (v : ν) (h : m.get? k = some v) : m.set k v = m := by
  induction m with
  | nil => simp [GoMap.get?] at h
  | cons e t ih =>
    obtain ⟨k', v'⟩ := e
    by_cases hk : k' = k
    · simp [GoMap.get?, hk] at h; simp [GoMap.set, hk, h]
    · simp only [GoMap.get?, hk, if_false] at h
      simp [GoMap.set, hk, ih h]

namespace FastCompassConc

/-- The compass with the counter of `cat` replaced. -/
def withCounter (fc : FastCompass) (cat : String) (b : BucketCounter) : FastCompass :=
  { fc with subCategories := fc.subCategories.set cat b }

/-- The steps of `UpdateN` on a counter, up to its end. -/
theorem alone_update {fc fc' : FastCompass} {a : Arg} {b : BucketCounter} {c : BucketCounter.Call} {ins : List Int} {r : Bool}
    (h : guarded.Alone (withCounter fc a.subCategory b) (a, .update c) ins fc' r) :
    ∃ t ins', ins = t :: ins' ∧
      ((∃ ts p, (BucketCounter.callStep b t c).2.pc = .done ts p ∧ r = false ∧ fc' = withCounter fc a.subCategory (BucketCounter.callStep b t c).1) ∨
       ((BucketCounter.callStep b t c).2.pc = .panicked ∧ r = true ∧ fc' = withCounter fc a.subCategory (BucketCounter.callStep b t c).1) ∨
       ((∀ ts p, (BucketCounter.callStep b t c).2.pc ≠ .done ts p) ∧ (BucketCounter.callStep b t c).2.pc ≠ .panicked ∧
        guarded.Alone (withCounter fc a.subCategory (BucketCounter.callStep b t c).1) (a, .update (BucketCounter.callStep b t c).2) ins' fc' r)) := by
  have key : ∀ t, wstep (withCounter fc a.subCategory b) t (a, .update c) =
      (match (BucketCounter.callStep b t c).2.pc with
      | .done _ _ => (withCounter fc a.subCategory (BucketCounter.callStep b t c).1, .inr false)
      | .panicked => (withCounter fc a.subCategory (BucketCounter.callStep b t c).1, .inr true)
      | _ => (withCounter fc a.subCategory (BucketCounter.callStep b t c).1, .inl (a, .update (BucketCounter.callStep b t c).2))) := by
    intro t
    simp only [wstep, withCounter, GoMap.get?_set_self, GoMap.set_set]
    cases (BucketCounter.callStep b t c).2.pc <;> rfl
  cases h with
  | last h =>
    rename_i t
    refine ⟨t, [], rfl, ?_⟩
    rw [show guarded.wstep = wstep from rfl, key] at h
    cases hp : (BucketCounter.callStep b t c).2.pc <;> simp only [hp, Prod.mk.injEq, Sum.inr.injEq, reduceCtorEq, and_false] at h
    · exact Or.inl ⟨_, _, rfl, h.2.symm, h.1.symm⟩
    · exact Or.inr (Or.inl ⟨rfl, h.2.symm, h.1.symm⟩)
  | more h h2 =>
    rename_i t _ _ ins'
    refine ⟨t, ins', rfl, Or.inr (Or.inr ?_)⟩
    rw [show guarded.wstep = wstep from rfl, key] at h
    cases hp : (BucketCounter.callStep b t c).2.pc <;> simp only [hp, Prod.mk.injEq, Sum.inl.injEq, reduceCtorEq, and_false] at h <;>
      (obtain ⟨rfl, rfl⟩ := h; exact ⟨by simp, by simp, h2⟩)

/-- One step of an uninterrupted `UpdateN` that does not end it. -/
theorem alone_go {fc fc' : FastCompass} {a : Arg} {b b' : BucketCounter} {c c' : BucketCounter.Call} {ins : List Int} {r : Bool}
    (h : guarded.Alone (withCounter fc a.subCategory b) (a, .update c) ins fc' r) (hs : ∀ t, BucketCounter.callStep b t c = (b', c'))
    (h1 : ∀ ts p, c'.pc ≠ .done ts p) (h2 : c'.pc ≠ .panicked) :
    ∃ ins', (∀ x ∈ ins', x ∈ ins) ∧ guarded.Alone (withCounter fc a.subCategory b') (a, .update c') ins' fc' r := by
  obtain ⟨t, ins', rfl, h | h | h⟩ := alone_update h
  · obtain ⟨ts, p, h, -⟩ := h; rw [hs] at h; exact absurd h (h1 ts p)
  · rw [hs] at h; exact absurd h.1 h2
  · rw [hs] at h; exact ⟨ins', fun x hx => by simp [hx], h.2.2⟩

theorem alone_updateN {fc fc' : FastCompass} {a : Arg} {b : BucketCounter} {n : Int} {ins : List Int} {r : Bool}
    (h : guarded.Alone (withCounter fc a.subCategory b) (a, .update ⟨n, .start⟩) ins fc' r) :
    ∃ t ∈ ins, (b.updateN t n).lift (withCounter fc a.subCategory) = if r then .panic fc' else .ok fc' := by
  have hadd : ∀ {b : BucketCounter} {ts : Int} {p : Nat} {ins : List Int},
      guarded.Alone (withCounter fc a.subCategory b) (a, .update ⟨n, .add ts p⟩) ins fc' r →
      r = false ∧ fc' = withCounter fc a.subCategory { b with heap := BucketCounter.addAt b.heap p n } := by
    intro b ts p ins h
    obtain ⟨t, ins', -, h | h | h⟩ := alone_update h
    · obtain ⟨_, _, _, h1, h2⟩ := h; exact ⟨h1, h2⟩
    · simp [BucketCounter.callStep] at h
    · simp [BucketCounter.callStep] at h
  obtain ⟨ins1, s1, h⟩ := alone_go h (b' := b.bumpTotal n) (c' := ⟨n, .clock⟩) (fun t => rfl) (by simp) (by simp)
  obtain ⟨t, ins2, rfl, h'⟩ := alone_update h
  clear h
  have h := h'
  clear h'
  refine ⟨t, s1 t (by simp), ?_⟩
  unfold BucketCounter.updateN
  simp only
  generalize b.bumpTotal n = b1 at *
  cases ha : BucketCounter.alignTimestamp b1.interval t with
  | none =>
    have e2 : BucketCounter.callStep b1 t ⟨n, .clock⟩ = (b1, ⟨n, .panicked⟩) := by simp [BucketCounter.callStep, ha]
    rw [e2] at h
    rcases h with h | h | h
    · simp at h
    · obtain ⟨-, rfl, rfl⟩ := h; rfl
    · simp at h
  | some ts =>
    have e2 : BucketCounter.callStep b1 t ⟨n, .clock⟩ = (b1, ⟨n, .load ts⟩) := by simp [BucketCounter.callStep, ha]
    rw [e2] at h
    rcases h with h | h | ⟨-, -, h⟩
    · simp at h
    · simp at h
    by_cases hg : ts > (b1.heap.at b1.latestBucket).timestamp
    · obtain ⟨_, -, h⟩ := alone_go h (b' := b1) (c' := ⟨n, .cas ts b1.latestBucket⟩)
        (fun t => by simp [BucketCounter.callStep, hg]) (by simp) (by simp)
      obtain ⟨_, -, h⟩ := alone_go h (b' := { b1 with heap := b1.heap ++ [⟨ts, 0⟩], latestBucket := b1.heap.length })
        (c' := ⟨n, .q1 ts b1.heap.length⟩) (fun t => by simp [BucketCounter.callStep]) (by simp) (by simp)
      obtain ⟨_, -, h⟩ := alone_go h (fun t => rfl) (by simp) (by simp)
      obtain ⟨_, -, h⟩ := alone_go h (fun t => rfl) (by simp) (by simp)
      obtain ⟨_, -, h⟩ := alone_go h (fun t => rfl) (by simp) (by simp)
      obtain ⟨_, -, h⟩ := alone_go h (fun t => rfl) (by simp) (by simp)
      obtain ⟨rfl, rfl⟩ := hadd h
      simp [BucketCounter.credit, hg, Deque.addLast, Res.lift]
    · obtain ⟨_, -, h⟩ := alone_go h (b' := b1) (c' := ⟨n, .add ts b1.latestBucket⟩)
        (fun t => by simp [BucketCounter.callStep, hg]) (by simp) (by simp)
      obtain ⟨rfl, rfl⟩ := hadd h
      simp [BucketCounter.credit, hg, Res.lift]

/-- A `Record` that nobody interrupts does what the sequential `Record` does, with clock readings among those supplied. -/
theorem alone_record {fc fc' : FastCompass} {a : Arg} {ins : List Int} {r : Bool} (h : guarded.Alone fc (guarded.enter a) ins fc' r) :
    ∃ t0 t, t0 ∈ ins ∧ t ∈ ins ∧ fc.record ⟨t0, t, a.duration, a.subCategory⟩ = if r then .panic fc' else .ok fc' := by
  have hne : ∃ x, x ∈ ins := by cases h <;> exact ⟨_, List.mem_cons_self⟩
  obtain ⟨x0, hx0⟩ := hne
  unfold FastCompass.record
  dsimp only
  change guarded.Alone fc (a, .check) ins fc' r at h
  by_cases hv : a.duration < 0 ∨ a.subCategory.length = 0
  · refine ⟨x0, x0, hx0, hx0, ?_⟩
    rw [if_pos hv]
    cases h with
    | last h =>
      simp only [guarded, wstep, if_pos hv, Prod.mk.injEq, Sum.inr.injEq] at h
      obtain ⟨rfl, rfl⟩ := h; rfl
    | more h => simp only [guarded, wstep, if_pos hv] at h; simp at h
  · simp only [if_neg hv]
    cases h with
    | last h => simp only [guarded, wstep, if_neg hv] at h; simp at h
    | more h1 h =>
      simp only [guarded, wstep, if_neg hv, Prod.mk.injEq, Sum.inl.injEq] at h1
      obtain ⟨rfl, rfl⟩ := h1
      cases hg : fc.subCategories.get? a.subCategory with
      | some b =>
        cases h with
        | last h => simp [guarded, wstep, hg] at h
        | more h1 h =>
          rename_i ins2
          simp only [guarded, wstep, hg, Prod.mk.injEq, Sum.inl.injEq] at h1
          obtain ⟨rfl, rfl⟩ := h1
          have e : fc = withCounter fc a.subCategory b := by unfold withCounter; rw [GoMap.set_get _ _ _ hg]
          rw [e] at h
          obtain ⟨t, ht, h⟩ := alone_updateN h
          exact ⟨x0, t, hx0, by simp [ht], by rw [← h]; rfl⟩
      | none =>
        cases h with
        | last h => simp [guarded, wstep, hg] at h
        | more h1 h =>
          simp only [guarded, wstep, hg, Prod.mk.injEq, Sum.inl.injEq] at h1
          obtain ⟨rfl, rfl⟩ := h1
          by_cases hl : (fc.subCategories.length : Int) ≥ fc.maxSubCategoryCount
          · refine ⟨x0, x0, hx0, hx0, ?_⟩
            simp only [if_pos hl]
            cases h with
            | last h =>
              simp only [guarded, wstep, if_pos hl, Prod.mk.injEq, Sum.inr.injEq] at h
              obtain ⟨rfl, rfl⟩ := h; rfl
            | more h => simp only [guarded, wstep, if_pos hl] at h; simp at h
          · simp only [if_neg hl]
            cases h with
            | last h => simp only [guarded, wstep, if_neg hl] at h; simp at h
            | more h1 h =>
              simp only [guarded, wstep, if_neg hl, Prod.mk.injEq, Sum.inl.injEq] at h1
              obtain ⟨rfl, rfl⟩ := h1
              cases h with
              | last h =>
                rename_i t0
                refine ⟨t0, t0, by simp, by simp, ?_⟩
                simp only [guarded, wstep] at h
                cases hn : BucketCounter.newImpl fc.bucketInterval fc.numberOfBuckets t0 false with
                | none =>
                  simp only [hn, Prod.mk.injEq, Sum.inr.injEq] at h
                  obtain ⟨rfl, rfl⟩ := h; rfl
                | some b => simp [hn] at h
              | more h1 h =>
                rename_i t0 _ _ _
                simp only [guarded, wstep] at h1
                cases hn : BucketCounter.newImpl fc.bucketInterval fc.numberOfBuckets t0 false with
                | none => simp [hn] at h1
                | some b =>
                  simp only [hn, Prod.mk.injEq, Sum.inl.injEq] at h1
                  obtain ⟨rfl, rfl⟩ := h1
                  cases h with
                  | last h => simp [guarded, wstep] at h
                  | more h1 h =>
                    simp only [guarded, wstep, Prod.mk.injEq, Sum.inl.injEq] at h1
                    obtain ⟨rfl, rfl⟩ := h1
                    obtain ⟨t, ht, h⟩ := alone_updateN h
                    refine ⟨t0, t, by simp, by simp [ht], ?_⟩
                    simp only [hn]
                    rw [← h]; rfl

/-- The state after schedule `es` on a fresh compass. -/
def after (interval : Int) (N : Nat) (limit : Int) (es : List (Ev (Arg ⊕ Empty) Int)) :=
  guarded.machine.run (Guarded.init (FastCompass.new interval N limit)) es

/-- The arguments of the `Record` calls that are through (have at most the unlocking left to do). -/
abbrev recorded (p : Pool (Guard FastCompass Arg Int Bool) (GuardPC Arg (Arg × RecPC) Int Bool Empty Empty Empty)) : List Arg :=
  Guarded.written p

/-- The recorded durations, in whole ms, of one category. -/
def durations (cat : String) (l : List Arg) : List Int :=
  (l.filter fun a => 0 ≤ a.duration ∧ a.subCategory = cat).map fun a => a.duration / 1000000

end FastCompassConc

/-- **C80.** In every interleaving `es` of `Record` calls there is one order `hist` of the calls that are through, with clock readings that were
delivered, such that: whenever nobody is inside `Record`, the compass is what those calls leave behind one after the other (so C14 to C17 say what
every getter returns); and whatever was through after a part `es1` of the schedule comes first. -/
theorem C80_linearizable (interval : Int) (N : Nat) (limit : Int) (es : List (Ev (Arg ⊕ Empty) Int)) :
    ∃ hist : List FastCompass.Rec, (hist.map fun r => (⟨r.duration, r.subCategory⟩ : Arg)).Perm (recorded (after interval N limit es)) ∧
      (∀ r ∈ hist, (∃ i, Ev.step i r.t0 ∈ es) ∧ ∃ i, Ev.step i r.t ∈ es) ∧
      ((after interval N limit es).shared.writer = false →
        (after interval N limit es).shared.obj = (FastCompass.new interval N limit).run hist) ∧
      (∀ es1 es2, es = es1 ++ es2 →
        ((hist.take (recorded (after interval N limit es1)).length).map fun r => (⟨r.duration, r.subCategory⟩ : Arg)).Perm
          (recorded (after interval N limit es1))) := by
  obtain ⟨hist, h1, h2, h3, h4, -⟩ := Guarded.linearization (G := guarded)
    (fun fc (a : Arg) (w : Int × Int) => (fc.record ⟨w.1, w.2, a.duration, a.subCategory⟩).state)
    (fun ins w => w.1 ∈ ins ∧ w.2 ∈ ins)
    (fun fc a ins fc' r h => by
      obtain ⟨t0, t, g1, g2, g3⟩ := alone_record h
      refine ⟨(t0, t), ⟨g1, g2⟩, ?_⟩
      show fc' = (fc.record ⟨t0, t, a.duration, a.subCategory⟩).state
      rw [g3]; cases r <;> rfl)
    (FastCompass.new interval N limit) es
  let tr : Arg × (Int × Int) → FastCompass.Rec := fun e => ⟨e.2.1, e.2.2, e.1.duration, e.1.subCategory⟩
  have hfst : ∀ l : List (Arg × (Int × Int)), (l.map tr).map (fun r => (⟨r.duration, r.subCategory⟩ : Arg)) = l.map Prod.fst := by
    intro l; rw [List.map_map]; rfl
  refine ⟨hist.map tr, ?_, ?_, ?_, ?_⟩
  · rw [hfst]; exact h1
  · intro r hr
    obtain ⟨e, he, rfl⟩ := List.mem_map.1 hr
    obtain ⟨ins, i1, i2, i3⟩ := h2 e he
    exact ⟨i1 _ i2, i1 _ i3⟩
  · intro hw
    have h3 := h3 hw
    unfold FastCompass.run
    rw [List.foldl_map]
    exact h3
  · intro es1 es2 he
    rw [← List.map_take, hfst]
    exact h4 es1 es2 he

theorem FastCompass.admitted_valid (limit : Int) (h : List FastCompass.Rec) (cat : String) (hc : cat ∈ Spec.admitted limit h) :
    ∃ r ∈ h, Spec.validRec r = true ∧ r.subCategory = cat := by
  induction h using List.reverseRecOn with
  | nil => simp [Spec.admitted] at hc
  | append_singleton h r ih =>
    rw [FastCompass.admitted_append] at hc
    split at hc
    · rename_i hv
      rcases List.mem_append.1 hc with hc | hc
      · obtain ⟨r', h1, h2⟩ := ih hc
        exact ⟨r', by simp [h1], h2⟩
      · exact ⟨r, by simp, hv.1, (List.mem_singleton.1 hc).symm⟩
    · obtain ⟨r', h1, h2⟩ := ih hc
      exact ⟨r', by simp [h1], h2⟩

namespace FastCompassConc
/-- If all readings fall into one interval, everything is credited to it. -/
theorem credited_const (I ts : Int) (hts : 0 ≤ ts) (l : List (Int × Int)) (h : ∀ e ∈ l, Spec.intervalStart I e.1 = ts) :
    ∀ m, m = -1 ∨ m = ts → Spec.credited I m l = l.map fun e => (ts, e.2) := by
  induction l with
  | nil => intro m _; rfl
  | cons e t ih =>
    intro m hm
    obtain ⟨x, n⟩ := e
    have hx : Spec.intervalStart I x = ts := h _ List.mem_cons_self
    have hmax : max m ts = ts := by rcases hm with rfl | rfl <;> omega
    simp only [Spec.credited, hx, hmax, List.map_cons]
    rw [ih (fun e he => h e (List.mem_cons_of_mem _ he)) ts (Or.inr rfl)]

end FastCompassConc

/-- **C80.** No `Record` is lost: when all clock readings fall into the interval of `ts` (s), then, with nobody inside `Record`, the getters report for
every category that has been admitted exactly one interval, with the number and the summed milliseconds of all the calls for it, whatever the
interleaving was (below the packing limits). -/
theorem C80_no_lost_record (interval : Int) (N : Nat) (limit : Int) (hI : 1000000000 ≤ interval) (hN : 1 ≤ N)
    (es : List (Ev (Arg ⊕ Empty) Int)) (ts : Int) (hts : 0 ≤ ts)
    (hclock : ∀ i x, Ev.step i x ∈ es → Spec.intervalStart (interval / 1000000000) x = ts)
    (hidle : (after interval N limit es).shared.writer = false)
    (cat : String) (hcat : (((after interval N limit es).shared.obj).subCategories.get? cat).isSome = true)
    (hcnt : (durations cat (recorded (after interval N limit es))).length < 2 ^ 26)
    (hrt : (durations cat (recorded (after interval N limit es))).sum < 2 ^ 38)
    (clock : String → Int) (hnow : ts ≤ Spec.intervalStart (interval / 1000000000) (clock cat)) :
    (∃ m mc, (after interval N limit es).shared.obj.getMethodCountPerCategorySince clock 0 = some m ∧ m.get? cat = some mc ∧
      ∀ k v, mc.get? k = some v ↔ k = 1000 * ts ∧ v = (durations cat (recorded (after interval N limit es))).length) ∧
    (∃ m mc, (after interval N limit es).shared.obj.getMethodRtPerCategorySince clock 0 = some m ∧ m.get? cat = some mc ∧
      ∀ k v, mc.get? k = some v ↔ k = 1000 * ts ∧ v = (durations cat (recorded (after interval N limit es))).sum) := by
  obtain ⟨hist, h1, h2, h3, -⟩ := C80_linearizable interval N limit es
  have h3 := h3 hidle
  have hs := FastCompass.run_spec interval N limit hist
  rw [h3] at hcat ⊢
  have hadm : cat ∈ Spec.admitted limit hist := by
    rw [← hs.2.2.2.2.1]
    by_contra hc
    obtain ⟨v, hv⟩ := Option.isSome_iff_exists.1 hcat
    exact hc ((GoMap.mem_keys_iff _ _).2 ⟨v, hv⟩)
  obtain ⟨r0, hr0, hv0, hc0⟩ := FastCompass.admitted_valid limit hist cat hadm
  have hne : cat ≠ "" := by
    unfold Spec.validRec at hv0
    rw [← hc0]; simp at hv0; exact hv0.2
  -- the records of the category are those of the calls
  have hperm : ((Spec.recordsOf cat hist).map Prod.snd).Perm (durations cat (recorded (after interval N limit es))) := by
    have := (h1.filter (fun a => decide (0 ≤ a.duration ∧ a.subCategory = cat))).map fun a => a.duration / 1000000
    refine List.Perm.trans (List.Perm.of_eq ?_) this
    unfold Spec.recordsOf
    rw [List.map_map, List.filter_map, List.map_map]
    congr 1
    apply List.filter_congr
    intro r _
    unfold Spec.validRec
    by_cases hr : r.subCategory = cat
    · simp [hr, hne]
    · simp [hr]
  have hread : ∀ e ∈ Spec.recordsOf cat hist, Spec.intervalStart (interval / 1000000000) e.1 = ts := by
    intro e he
    unfold Spec.recordsOf at he
    obtain ⟨r, hr, rfl⟩ := List.mem_map.1 he
    obtain ⟨i, hi⟩ := (h2 r (List.mem_filter.1 hr).1).2
    exact hclock i _ hi
  have hcred := credited_const (interval / 1000000000) ts hts _ hread (-1) (Or.inl rfl)
  have hnum : Spec.number (Spec.credited (interval / 1000000000) (-1) (Spec.recordsOf cat hist)) ts =
      (durations cat (recorded (after interval N limit es))).length := by
    rw [hcred]
    unfold Spec.number
    rw [List.filter_eq_self.2 (by intro e he; obtain ⟨e', -, rfl⟩ := List.mem_map.1 he; simp), List.length_map, ← hperm.length_eq, List.length_map]
  have ham : Spec.amount (Spec.credited (interval / 1000000000) (-1) (Spec.recordsOf cat hist)) ts =
      (durations cat (recorded (after interval N limit es))).sum := by
    rw [hcred]
    unfold Spec.amount
    rw [List.filter_eq_self.2 (by intro e he; obtain ⟨e', -, rfl⟩ := List.mem_map.1 he; simp), List.map_map, ← hperm.sum_eq]
    rfl
  have hrep : ∀ x, Spec.Reported (Spec.credited (interval / 1000000000) (-1) (Spec.recordsOf cat hist)) N 0
      (Spec.intervalStart (interval / 1000000000) (clock cat)) x ↔ x = ts := by
    intro x
    unfold Spec.Reported
    rw [hcred]
    constructor
    · rintro ⟨hx, -⟩
      simp only [List.map_map, List.mem_map, Function.comp] at hx
      obtain ⟨_, _, rfl⟩ := hx; rfl
    · rintro rfl
      refine ⟨?_, hts, ?_, by omega, hnow⟩
      · rw [List.map_map, List.mem_map]
        refine ⟨(r0.t, r0.duration / 1000000), ?_, rfl⟩
        unfold Spec.recordsOf
        rw [List.mem_map]
        exact ⟨r0, List.mem_filter.2 ⟨hr0, by simp [hv0, hc0]⟩, rfl⟩
      · have : Spec.laterIntervals ((Spec.recordsOf cat hist).map fun e => (x, e.2)) x = ∅ := by
          unfold Spec.laterIntervals
          rw [Finset.filter_eq_empty_iff]
          intro y hy
          rw [List.mem_toFinset, List.map_map, List.mem_map] at hy
          obtain ⟨_, _, rfl⟩ := hy
          simp
        rw [this, Finset.card_empty]; omega
  have hpos : 0 ≤ (durations cat (recorded (after interval N limit es))).sum := by
    apply List.sum_nonneg
    intro x hx
    unfold durations at hx
    obtain ⟨a, ha, rfl⟩ := List.mem_map.1 hx
    have := (List.mem_filter.1 ha).2
    simp only [decide_eq_true_eq] at this
    omega
  constructor
  · obtain ⟨m, g1, g2, g3⟩ := C15_count_with_carry interval N limit hI hist clock 0 (by norm_num)
    obtain ⟨mc, hmc⟩ := Option.isSome_iff_exists.1 ((g2 cat).2 hadm)
    refine ⟨m, mc, g1, hmc, fun k v => ?_⟩
    rw [g3 cat mc hmc k v]
    constructor
    · rintro ⟨x, rfl, hx, rfl⟩
      obtain rfl := (hrep x).1 hx
      refine ⟨rfl, ?_⟩
      rw [hnum, ham, Int.ediv_eq_zero_of_lt hpos hrt, add_zero, Int.emod_eq_of_lt (by positivity) (by exact_mod_cast hcnt)]
    · rintro ⟨rfl, rfl⟩
      refine ⟨ts, rfl, (hrep ts).2 rfl, ?_⟩
      rw [hnum, ham, Int.ediv_eq_zero_of_lt hpos hrt, add_zero, Int.emod_eq_of_lt (by positivity) (by exact_mod_cast hcnt)]
  · obtain ⟨m, g1, g2, g3⟩ := C15_rt_modulo interval N limit hI hist clock 0 (by norm_num)
    obtain ⟨mc, hmc⟩ := Option.isSome_iff_exists.1 ((g2 cat).2 hadm)
    refine ⟨m, mc, g1, hmc, fun k v => ?_⟩
    rw [g3 cat mc hmc k v]
    constructor
    · rintro ⟨x, rfl, hx, rfl⟩
      obtain rfl := (hrep x).1 hx
      exact ⟨rfl, by rw [ham, Int.emod_eq_of_lt hpos hrt]⟩
    · rintro ⟨rfl, rfl⟩
      exact ⟨ts, rfl, (hrep ts).2 rfl, by rw [ham, Int.emod_eq_of_lt hpos hrt]⟩

namespace FastCompassConc
/-- How far a `Record` inside the lock has got, as far as the number of categories goes. -/
def Room (limit : Int) (fc : FastCompass) (l : Arg × RecPC) : Prop :=
  fc.maxSubCategoryCount = limit ∧ (fc.subCategories.length : Int) ≤ max limit 0 ∧
    match l.2 with
    | .limit => fc.subCategories.get? l.1.subCategory = none
    | .make => fc.subCategories.get? l.1.subCategory = none ∧ (fc.subCategories.length : Int) < limit
    | .insert _ => fc.subCategories.get? l.1.subCategory = none ∧ (fc.subCategories.length : Int) < limit
    | _ => True

theorem length_set_le {κ ν : Type} [DecidableEq κ] (m : GoMap κ ν) (k : κ) (v : ν) : (m.set k v).length ≤ m.length + 1 := by
  induction m with
  | nil => simp [GoMap.set]
  | cons e t ih =>
    obtain ⟨k', v'⟩ := e
    by_cases h : k' = k
    · simp [GoMap.set, h]
    · simp [GoMap.set, h]; omega

theorem length_set_of_get {κ ν : Type} [DecidableEq κ] (m : GoMap κ ν) (k : κ) (v w : ν) (h : m.get? k = some w) :
    (m.set k v).length = m.length := by
  induction m with
  | nil => simp [GoMap.get?] at h
  | cons e t ih =>
    obtain ⟨k', v'⟩ := e
    by_cases hk : k' = k
    · simp [GoMap.set, hk]
    · simp only [GoMap.get?, hk, if_false] at h
      simp [GoMap.set, hk, ih h]

theorem room_step {limit : Int} {fc fc' : FastCompass} {t : Int} {l l' : Arg × RecPC} (h : Room limit fc l)
    (hs : wstep fc t l = (fc', .inl l')) : Room limit fc' l' := by
  obtain ⟨a, pc⟩ := l
  obtain ⟨h1, h2, h3⟩ := h
  cases pc with
  | check =>
    simp only [wstep] at hs
    split at hs
    · simp at hs
    · simp only [Prod.mk.injEq, Sum.inl.injEq] at hs; obtain ⟨rfl, rfl⟩ := hs; exact ⟨h1, h2, trivial⟩
  | lookup =>
    simp only [wstep] at hs
    cases hg : fc.subCategories.get? a.subCategory with
    | some b => simp only [hg, Prod.mk.injEq, Sum.inl.injEq] at hs; obtain ⟨rfl, rfl⟩ := hs; exact ⟨h1, h2, trivial⟩
    | none => simp only [hg, Prod.mk.injEq, Sum.inl.injEq] at hs; obtain ⟨rfl, rfl⟩ := hs; exact ⟨h1, h2, hg⟩
  | limit =>
    simp only [wstep] at hs
    split at hs
    · simp at hs
    · rename_i hl
      simp only [Prod.mk.injEq, Sum.inl.injEq] at hs; obtain ⟨rfl, rfl⟩ := hs
      exact ⟨h1, h2, h3, by omega⟩
  | make =>
    simp only [wstep] at hs
    cases hn : BucketCounter.newImpl fc.bucketInterval fc.numberOfBuckets t false with
    | none => simp [hn] at hs
    | some b => simp only [hn, Prod.mk.injEq, Sum.inl.injEq] at hs; obtain ⟨rfl, rfl⟩ := hs; exact ⟨h1, h2, h3⟩
  | insert b =>
    simp only [wstep, Prod.mk.injEq, Sum.inl.injEq] at hs
    obtain ⟨rfl, rfl⟩ := hs
    have := length_set_le fc.subCategories a.subCategory b
    obtain ⟨-, h4⟩ := h3
    exact ⟨h1, by simp only; omega, trivial⟩
  | update c =>
    simp only [wstep] at hs
    cases hg : fc.subCategories.get? a.subCategory with
    | none => simp [hg] at hs
    | some b =>
      simp only [hg] at hs
      have := length_set_of_get fc.subCategories a.subCategory (BucketCounter.callStep b t c).1 b hg
      split at hs <;> simp only [Prod.mk.injEq, Sum.inl.injEq, reduceCtorEq, and_false] at hs
      obtain ⟨rfl, rfl⟩ := hs
      exact ⟨h1, by simp only; rw [this]; exact h2, trivial⟩

end FastCompassConc

/-- **C80.** At every moment of every interleaving, also with `Record` calls half done, there are at most as many categories as the limit allows. -/
theorem C80_limit (interval : Int) (N : Nat) (limit : Int) (es : List (Ev (Arg ⊕ Empty) Int)) :
    ((after interval N limit es).shared.obj.subCategories.length : Int) ≤ max limit 0 := by
  obtain ⟨-, -, -, ⟨sq, h4, h5, h6⟩, -, -⟩ := Guarded.inv_run (G := guarded) (FastCompass.new interval N limit) es
  change (((guarded.machine.run (Guarded.init (FastCompass.new interval N limit)) es)).shared.obj.subCategories.length : Int) ≤ _
  have hsq : sq.maxSubCategoryCount = limit ∧ (sq.subCategories.length : Int) ≤ max limit 0 := by
    obtain ⟨hist, -, -, g3⟩ := h4.refine (fun fc (a : Arg) (w : Int × Int) => (fc.record ⟨w.1, w.2, a.duration, a.subCategory⟩).state)
      (fun ins w => w.1 ∈ ins ∧ w.2 ∈ ins)
      (fun fc a ins fc' r h => by
        obtain ⟨t0, t, g1, g2, g3⟩ := alone_record h
        refine ⟨(t0, t), ⟨g1, g2⟩, ?_⟩
        show fc' = (fc.record ⟨t0, t, a.duration, a.subCategory⟩).state
        rw [g3]; cases r <;> rfl)
    have := g3 _ sq List.prefix_rfl h4
    let tr : Arg × (Int × Int) → FastCompass.Rec := fun e => ⟨e.2.1, e.2.2, e.1.duration, e.1.subCategory⟩
    have hrun : sq = (FastCompass.new interval N limit).run
        ((hist.take (guarded.machine.run (Guarded.init (FastCompass.new interval N limit)) es).shared.log.length).map tr) := by
      unfold FastCompass.run
      rw [List.foldl_map]; exact this
    rw [hrun]
    exact ⟨(FastCompass.run_spec interval N limit _).1, C16_limit interval N limit _⟩
  by_cases hin : ∃ a ins l, GuardPC.wIn a ins l ∈ (guarded.machine.run (Guarded.init (FastCompass.new interval N limit)) es).calls
  · obtain ⟨a, ins, l, hm⟩ := hin
    have hp := h5 a ins l hm
    have : Room limit (guarded.machine.run (Guarded.init (FastCompass.new interval N limit)) es).shared.obj l := by
      generalize (guarded.machine.run (Guarded.init (FastCompass.new interval N limit)) es).shared.obj = o at hp
      have key : ∀ s l xs s' l', Guarded.Part guarded s l xs s' l' → Room limit s l → Room limit s' l' := by
        intro s l xs s' l' h
        induction h with
        | nil => exact id
        | snoc _ hs ih => intro h; exact room_step (ih h) hs
      exact key _ _ _ _ _ hp ⟨hsq.1, hsq.2, trivial⟩
    exact this.2.1
  · rw [h6 (fun a ins l hm => hin ⟨a, ins, l, hm⟩)]
    exact hsq.2

/-- **C80.** With an interval of at least a second no `Record` panics, in any interleaving. -/
theorem C80_no_panic (interval : Int) (N : Nat) (limit : Int) (hI : 1000000000 ≤ interval) (es : List (Ev (Arg ⊕ Empty) Int))
    (a : Arg) (r : Bool)
    (h : GuardPC.wOut a r ∈ (after interval N limit es).calls ∨ GuardPC.wDone a r ∈ (after interval N limit es).calls) : r = false := by
  obtain ⟨sq, h1, h2, -⟩ := Guarded.linearizable (G := guarded) (FastCompass.new interval N limit) es
  have hmem : (a, r) ∈ (after interval N limit es).calls.filterMap Guarded.wEntry := by
    rw [List.mem_filterMap]
    rcases h with h | h
    · exact ⟨_, h, rfl⟩
    · exact ⟨_, h, rfl⟩
  have hmem := h2.mem_iff.2 hmem
  have key : ∀ log sq, guarded.Sequential (FastCompass.new interval N limit) log sq →
      (∃ hist, sq = (FastCompass.new interval N limit).run hist) ∧ ∀ e ∈ log, e.2.2 = false := by
    intro log sq h
    generalize hs0 : FastCompass.new interval N limit = s0 at h ⊢
    induction h with
    | nil => exact ⟨⟨[], rfl⟩, by simp⟩
    | snoc hs ha ih =>
      rename_i hh s1 a ins r s2
      obtain ⟨⟨hist, rfl⟩, ih2⟩ := ih
      obtain ⟨t0, t, -, -, hrec⟩ := alone_record ha
      refine ⟨⟨hist ++ [⟨t0, t, a.duration, a.subCategory⟩], ?_⟩, ?_⟩
      · unfold FastCompass.run at hrec ⊢
        rw [List.foldl_append]
        simp only [List.foldl_cons, List.foldl_nil]
        rw [hrec]; cases r <;> rfl
      · intro e he
        rcases List.mem_append.1 he with he | he
        · exact ih2 e he
        · rw [List.mem_singleton.1 he]
          cases r with
          | false => rfl
          | true =>
            exfalso
            have hp : ((s0.run hist).record ⟨t0, t, a.duration, a.subCategory⟩).panicked = true := by rw [hrec]; rfl
            rw [← hs0] at hp
            obtain ⟨s1, s2, s3, -, s5, s6, -⟩ := FastCompass.run_spec interval N limit hist
            have hupd : ∀ (b : BucketCounter) (n : Int), b.interval = interval → (b.updateN t n).panicked = false := by
              intro b n hb
              exact (C08_no_panic b (Or.inl (by rw [hb]; exact hI)) t n 0 .update).1
            have hl : ∀ (x : Res BucketCounter) (f : BucketCounter → FastCompass), (x.lift f).panicked = x.panicked := by
              intro x f; cases x <;> rfl
            unfold FastCompass.record at hp
            split at hp
            · simp [Res.panicked] at hp
            · split at hp
              · rename_i b hg
                rw [hl] at hp
                have hcat : a.subCategory ∈ Spec.admitted limit hist := by
                  rw [← s5]; exact (GoMap.mem_keys_iff _ _).2 ⟨b, hg⟩
                obtain ⟨t0', hb⟩ := s6 _ hcat
                rw [hb] at hg
                have hb' : b.interval = interval := by
                  rw [← Option.some.inj hg, BucketCounter.run_interval]; rfl
                rw [hupd b _ hb'] at hp
                simp at hp
              · split at hp
                · simp [Res.panicked] at hp
                · split at hp
                  · rename_i hn
                    rw [s3] at hn
                    simp [BucketCounter.newImpl] at hn
                  · rename_i b hn
                    rw [hl] at hp
                    rw [s2, s3] at hn
                    have hb' : b.interval = interval := by
                      unfold BucketCounter.newImpl at hn
                      split at hn
                      · simp at hn
                      · rw [← Option.some.inj hn]; rfl
                    rw [hupd b _ hb'] at hp
                    simp at hp
  obtain ⟨e, he, hee⟩ := List.mem_map.1 hmem
  have := (key _ sq h1).2 e he
  simp only [Prod.mk.injEq] at hee
  rw [← hee.2]; exact this

namespace FastCompassConc
/-- Two overlapping `Record` calls for a new category, and a rejected third one. -/
def demo : List (Ev (Arg ⊕ Empty) Int) :=
  [.spawn (.inl ⟨3000000, "ok"⟩), .spawn (.inl ⟨4999999, "ok"⟩), .spawn (.inl ⟨0, "x"⟩), .step 0 61000, .step 1 61000] ++
    List.replicate 17 (.step 0 61000) ++ List.replicate 12 (.step 1 62000) ++ List.replicate 10 (.step 2 62000)
end FastCompassConc

/-- The hypotheses of the theorems above are met: one call waits while the other creates the category. -/
example : (after 60000000000 10 1 demo).shared.writer = false ∧
    recorded (after 60000000000 10 1 demo) = [⟨3000000, "ok"⟩, ⟨4999999, "ok"⟩, ⟨0, "x"⟩] ∧
    (after 60000000000 10 1 demo).shared.obj.getMethodCountPerCategorySince (fun _ => 62000) 0 = some [("ok", [(60000, 2)])] ∧
    (after 60000000000 10 1 demo).shared.obj.getMethodRtPerCategorySince (fun _ => 62000) 0 = some [("ok", [(60000, 7)])] ∧
    durations "ok" (recorded (after 60000000000 10 1 demo)) = [3, 4] := by decide +kernel

/-- In the middle of it, the first call holds the lock. -/
example : (after 60000000000 10 1 (demo.take 8)).shared.writer = true := by decide +kernel

end GoMetrics
