import Verif.Proofs.Fair
import Verif.Props.Progress
/-! # C100 — under a fair scheduler every call ends -/
namespace GoMetrics
open Machine

/-! ## Wait-free methods -/

/-- **C100.** `Update`/`UpdateN` of a bucket counter. -/
theorem C100_bucket_counter (b : BucketCounter) : BucketCounter.conc.FairlyEnds b BucketCounter.Call.ended (fun _ => True) :=
  (C87_bucket_counter b).fairlyEnds _ _

/-- **C100.** Looking a metric up, and `SetEnable`. -/
theorem C100_registry (s : Registry.Mem) : Registry.conc.FairlyEnds s Registry.PC.ended (fun _ => True) := (C87_registry s).fairlyEnds _ _

/-- **C100.** The calls of a decaying reservoir. -/
theorem C100_decaying (A : EDR.Arith) (s : EDRConc.Shared) : (EDRConc.machine A).FairlyEnds s EDRConc.PC.ended (fun _ => True) :=
  (C87_decaying A s).fairlyEnds _ _

/-! ## Averages -/

namespace EWMA

/-- How far a call is from its end; a `Tick` whose swap would fail is further away than one that has not loaded yet. -/
def PC.left (s : Shared) : PC → Nat
  | .update _ => 1
  | .updated _ => 0
  | .load => 8
  | .cas old => if s.e.uncounted = old then 7 else 9
  | .enter _ _ => 6
  | .read _ _ _ => 5
  | .store _ _ _ _ => 4
  | .setInit _ _ => 3
  | .unlock _ _ => 2
  | .done _ _ => 0

/-- How often a call will still change the count. -/
def PC.changes : PC → Nat
  | .update _ | .load | .cas _ => 1
  | _ => 0

theorem left_le (s s' : Shared) (d : PC) : d.left s' ≤ d.left s + 2 := by
  cases d <;> simp only [PC.left] <;> (try split) <;> (try split) <;> omega

theorem left_same {s s' : Shared} (h : s'.e.uncounted = s.e.uncounted) (d : PC) : d.left s' ≤ d.left s := by
  cases d <;> simp [PC.left, h]

/-- Why the calls of an average end. -/
def ranked (R : Rounding) (e : EWMA) : (conc R).Ranked ⟨e, false⟩ PC.ended (fun _ => True) where
  ok _ _ := True
  ok_run _ _ _ := trivial
  b := 2
  ch := PC.changes
  r := fun s c => c.left s
  help s c := c.ended = false ∧ (c.crit = true ∨ s.held = false ∨ ∀ own n, c ≠ .enter own n)
  move s x c _ := by
    cases c with
    | update n => exact .change rfl (by simp [PC.changes]) (fun d => left_le s _ d) (by simp [PC.left])
    | updated n => exact .stay rfl (by simp [PC.ended])
    | load => exact .on rfl (by simp [PC.changes]) (fun _ => le_refl _) (by simp [PC.left])
    | cas old =>
      by_cases ho : s.e.uncounted = old
      · refine .change (s' := { s with e := { s.e with uncounted := 0 } }) (c' := .enter true old) (by simp [conc, callStep, ho]) (by simp [PC.changes])
          (fun d => left_le s _ d) (by simp [PC.left, ho])
      · exact .on (s' := s) (c' := .load) (by simp [conc, callStep, ho]) (by simp [PC.changes]) (fun _ => le_refl _) (by simp [PC.left, ho])
    | enter own n =>
      cases hh : s.held
      · exact .on (s' := { s with held := true }) (c' := .read own n (s.e.instantRate R n)) (by simp [conc, callStep, hh]) (by simp [PC.changes])
          (left_same rfl) (by simp [PC.left])
      · exact .stay (by simp [conc, callStep, hh]) (by simp [PC.crit, hh])
    | read own n i => exact .on rfl (by simp [PC.changes]) (fun _ => le_refl _) (by simp [PC.left])
    | store own n ini new => cases ini <;> exact .on rfl (by simp [PC.changes]) (left_same rfl) (by simp [PC.left])
    | setInit own n => exact .on rfl (by simp [PC.changes]) (left_same rfl) (by simp [PC.left])
    | unlock own n => exact .on rfl (by simp [PC.changes]) (left_same rfl) (by simp [PC.left])
    | done own n => exact .stay rfl (by simp [PC.ended])
  some es := by
    rintro ⟨c, hc, ho⟩
    obtain ⟨l, h⟩ := serial_run R e es
    by_cases hh : ((conc R).run (Machine.start ⟨e, false⟩) es).shared.held = true
    · have hx := h.excl
      rw [if_pos hh] at hx
      obtain ⟨d, hd⟩ := List.exists_mem_of_length_pos (by omega : 0 < (((conc R).run (Machine.start ⟨e, false⟩) es).calls.filter PC.crit).length)
      obtain ⟨hd, hcr⟩ := List.mem_filter.1 hd
      have : d.ended = false := by cases d <;> simp [PC.crit] at hcr <;> rfl
      exact ⟨d, hd, this, this, .inl hcr⟩
    · exact ⟨c, hc, ho, ho, .inr (.inl (by simpa using hh))⟩
  idle s x c h := by cases c <;> first | rfl | cases h

end EWMA

/-- **C100.** `Update`, `Tick` and `TickN` of an average. -/
theorem C100_ewma (R : Rounding) (e : EWMA) : (EWMA.conc R).FairlyEnds ⟨e, false⟩ EWMA.PC.ended (fun _ => True) := (EWMA.ranked R e).fairly.ends

/-! ## `HashKey` -/

namespace MetricName

/-- How far a call is from its end. -/
def PC.left (s : Shared) : PC → Nat
  | .fast => s.tags.length + 12
  | .lock => s.tags.length + 11
  | .recheck => s.tags.length + 10
  | .writeKey => s.tags.length + 9
  | .lenCheck => s.tags.length + 8
  | .writeSep => s.tags.length + 7
  | .range => s.tags.length + 6
  | .loop rest => rest.length + 5
  | .setDone => 4
  | .unlock => 3
  | .ret => 2
  | .setKey _ | .setTags _ => 1
  | .returned _ | .finished => 0

/-- What an assignment can add to the tags. -/
def PC.changes : PC → Nat
  | .setTags t => t.length + 1
  | _ => 0

theorem left_same {s s' : Shared} (h : s'.tags = s.tags) (d : PC) : d.left s' ≤ d.left s := by
  cases d <;> simp [PC.left, h]

/-- Why `HashKey` ends. -/
def ranked (key : GoStr) (tags : GoMap GoStr GoStr) : conc.Ranked { key := key, tags := tags } PC.ended (fun _ => True) where
  ok _ _ := True
  ok_run _ _ _ := trivial
  b := 1
  ch := PC.changes
  r := fun s c => c.left s
  help s c := c.ended = false ∧ (s.locked = false ∨ c ≠ .lock)
  move s x c _ := by
    cases c with
    | fast =>
      cases hd : s.done
      · exact .on (s' := s) (c' := .lock) (by simp [conc, callStep, hd]) (by simp [PC.changes]) (fun _ => le_refl _) (by simp [PC.left])
      · exact .on (s' := s) (c' := .ret) (by simp [conc, callStep, hd]) (by simp [PC.changes]) (fun _ => le_refl _) (by simp only [PC.left]; omega)
    | lock =>
      cases hl : s.locked
      · exact .on (s' := { s with locked := true }) (c' := .recheck) (by simp [conc, callStep, hl]) (by simp [PC.changes]) (left_same rfl) (by simp [PC.left])
      · exact .stay (by simp [conc, callStep, hl]) (by simp [hl])
    | recheck =>
      cases hd : s.done
      · exact .on (s' := s) (c' := .writeKey) (by simp [conc, callStep, hd]) (by simp [PC.changes]) (fun _ => le_refl _) (by simp [PC.left])
      · exact .on (s' := s) (c' := .unlock) (by simp [conc, callStep, hd]) (by simp [PC.changes]) (fun _ => le_refl _) (by simp only [PC.left]; omega)
    | writeKey => exact .on rfl (by simp [PC.changes]) (left_same rfl) (by simp [PC.left])
    | lenCheck =>
      by_cases ht : s.tags.length ≤ 0
      · exact .on (s' := s) (c' := .setDone) (by simp only [conc, callStep, if_pos ht]) (by simp [PC.changes]) (left_same rfl) (by simp only [PC.left]; omega)
      · exact .on (s' := s) (c' := .writeSep) (by simp only [conc, callStep, if_neg ht]) (by simp [PC.changes]) (left_same rfl) (by simp only [PC.left]; omega)
    | writeSep => exact .on rfl (by simp [PC.changes]) (left_same rfl) (by simp [PC.left])
    | range =>
      refine .on rfl (by simp [PC.changes]) (left_same rfl) ?_
      simp only [PC.left]
      split
      · rename_i hp
        rw [(List.isPerm_iff.1 hp).length_eq]; omega
      · omega
    | loop rest => cases rest <;> exact .on rfl (by simp [PC.changes]) (left_same rfl) (by simp [PC.left])
    | setDone => exact .on rfl (by simp [PC.changes]) (left_same rfl) (by simp [PC.left])
    | unlock => exact .on rfl (by simp [PC.changes]) (left_same rfl) (by simp [PC.left])
    | ret => exact .on rfl (by simp [PC.changes]) (left_same rfl) (by simp [PC.left])
    | returned h => exact .stay rfl (by simp [PC.ended])
    | setKey k => exact .on rfl (by simp [PC.changes]) (left_same rfl) (by simp [PC.left])
    | setTags t =>
      refine .change rfl (by simp [PC.changes]) (fun d => ?_) (by simp [PC.left])
      simp only [PC.changes]
      cases d <;> simp only [PC.left] <;> omega
    | finished => exact .stay rfl (by simp [PC.ended])
  some es := by
    rintro ⟨c, hc, ho⟩
    have h := inv_all key tags es
    by_cases hh : (conc.run (Machine.start { key := key, tags := tags }) es).shared.locked = true
    · have hx := h.lock
      rw [if_pos hh] at hx
      obtain ⟨d, hd, hcr⟩ := List.countP_pos_iff.1 (by omega : 0 < (conc.run (Machine.start { key := key, tags := tags }) es).calls.countP PC.holds)
      have : d.ended = false := by cases d <;> simp [PC.holds] at hcr <;> rfl
      exact ⟨d, hd, this, this, .inr (by rintro rfl; cases hcr)⟩
    · exact ⟨c, hc, ho, ho, .inl (by simpa using hh)⟩
  idle s x c h := by cases c <;> first | rfl | cases h

end MetricName

/-- **C100.** `HashKey`, beside assignments to the fields of the name. -/
theorem C100_hash_key (key : GoStr) (tags : GoMap GoStr GoStr) :
    MetricName.conc.FairlyEnds { key := key, tags := tags } MetricName.PC.ended (fun _ => True) := (MetricName.ranked key tags).fairly.ends

/-! ## Objects guarded by a lock -/

namespace Guarded
variable {S A L I R Q K V : Type} (G : Guarded S A L I R Q K V)

/-- What is needed of the code between lock and unlock: it gets nearer its end with every step (of a writing method: with every good one), and
writing does not put reading back. -/
structure Short (ok : S → L → Prop) (good : I → Prop) where
  wr : L → Nat
  wmax : Nat
  enter : ∀ a, wr (G.enter a) ≤ wmax
  write : ∀ o x l o' l', ok o l → G.wstep o x l = (o', .inl l') → wr l' < wr l ∨ (¬ good x ∧ wr l' ≤ wr l)
  rr : S → K → Nat
  rmax : S → Nat
  look : ∀ o q, rr o (G.look q) ≤ rmax o
  read : ∀ o k k', G.rstep o k = .inl k' → rr o k' < rr o k
  keep : ∀ o x l, (∀ k, rr (G.wstep o x l).1 k ≤ rr o k) ∧ rmax (G.wstep o x l).1 ≤ rmax o

variable {G}

/-- How far a call is from its end. -/
def Short.left {ok : S → L → Prop} {good : I → Prop} (h : G.Short ok good) (s : Guard S A I R) : GuardPC A L I R Q K V → Nat
  | .wWait _ => h.wmax + 3
  | .wIn _ _ l => h.wr l + 2
  | .wOut _ _ => 1
  | .rWait _ => h.rmax s.obj + 3
  | .rIn _ k => h.rr s.obj k + 2
  | .rOut _ _ => 1
  | .wDone _ _ | .rDone _ _ => 0

theorem Short.left_mono {ok : S → L → Prop} {good : I → Prop} (h : G.Short ok good) {s s' : Guard S A I R} (h1 : ∀ k, h.rr s'.obj k ≤ h.rr s.obj k)
    (h2 : h.rmax s'.obj ≤ h.rmax s.obj) (d : GuardPC A L I R Q K V) : h.left s' d ≤ h.left s d := by
  cases d <;> simp only [Short.left] <;> first | omega | (rename_i k; have := h1 k; omega)

/-- Why the calls of a guarded object end. -/
def ranked {ok : S → L → Prop} {good : I → Prop} (h : G.Short ok good) (hok : ∀ sq a ins s l, Part G sq (G.enter a) ins s l → ok s l) (s0 : S) :
    G.machine.Ranked { obj := s0 } ended good where
  ok s c := ∀ a ins l, c = .wIn a ins l → ok s.obj l
  ok_run es c hc a ins l e := by
    have hi : Inv G s0 (G.machine.run (Machine.start { obj := s0 }) es) := inv_run s0 es
    obtain ⟨sq, -, h5, -⟩ := hi.seq
    subst e
    exact hok _ _ _ _ _ (h5 a ins l hc)
  b := 0
  ch _ := 0
  r := h.left
  help s c := ended c = false ∧ (∀ a, c = .wWait a → s.writer = false ∧ s.readers = 0) ∧ (∀ q, c = .rWait q → s.writer = false)
  move s x c hc := by
    cases c with
    | wWait a =>
      by_cases hb : s.writer = true ∨ 0 < s.readers
      · refine .stay (by simp only [machine, callStep, if_pos hb]) ?_
        rintro ⟨-, h1, -⟩
        obtain ⟨g1, g2⟩ := h1 a rfl
        rw [g1, g2] at hb
        simp at hb
      · exact .on (s' := { s with writer := true }) (c' := .wIn a [] (G.enter a)) (by simp only [machine, callStep, if_neg hb]) (le_refl _)
          (h.left_mono (fun _ => le_refl _) (le_refl _)) (by have := h.enter a; simp only [Short.left]; omega)
    | wIn a ins l =>
      have hk := h.keep s.obj x l
      cases hw : G.wstep s.obj x l with
      | mk o t =>
        rw [hw] at hk
        cases t with
        | inl l' =>
          have e1 : G.machine.step s x (.wIn a ins l) = ({ s with obj := o }, .wIn a (ins ++ [x]) l') := by simp only [machine, callStep, hw]
          rcases h.write _ _ _ _ _ (hc a ins l rfl) hw with g | ⟨g1, g2⟩
          · exact .on e1 (le_refl _) (h.left_mono hk.1 hk.2) (by simp only [Short.left]; omega)
          · rw [e1]
            refine .inr (.inr ⟨fun g => g1 g.2, le_refl _, h.left_mono hk.1 hk.2, by simp only [Short.left]; omega, fun d hd => hd, fun _ => ?_⟩)
            exact ⟨rfl, (by intro a e; cases e), (by intro q e; cases e)⟩
        | inr r =>
          exact .on (s' := { s with obj := o, log := s.log ++ [(a, ins ++ [x], r)] }) (c' := .wOut a r) (by simp only [machine, callStep, hw]) (le_refl _)
            (h.left_mono hk.1 hk.2) (by simp only [Short.left]; omega)
    | wOut a r => exact .on rfl (le_refl _) (h.left_mono (fun _ => le_refl _) (le_refl _)) (by simp [Short.left])
    | wDone a r => exact .stay rfl (by simp [ended])
    | rWait q =>
      by_cases hb : s.writer = true
      · refine .stay (by simp only [machine, callStep, if_pos hb]) ?_
        rintro ⟨-, -, h1⟩
        rw [h1 q rfl] at hb
        cases hb
      · exact .on (s' := { s with readers := s.readers + 1 }) (c' := .rIn q (G.look q)) (by simp only [machine, callStep, if_neg hb]) (le_refl _)
          (h.left_mono (fun _ => le_refl _) (le_refl _)) (by have := h.look s.obj q; simp only [Short.left]; omega)
    | rIn q k =>
      cases hr : G.rstep s.obj k with
      | inl k' =>
        exact .on (s' := s) (c' := .rIn q k') (by simp only [machine, callStep, hr]) (le_refl _) (fun _ => le_refl _)
          (by have := h.read _ _ _ hr; simp only [Short.left]; omega)
      | inr v =>
        exact .on (s' := s) (c' := .rOut q v) (by simp only [machine, callStep, hr]) (le_refl _) (fun _ => le_refl _) (by simp only [Short.left]; omega)
    | rOut q v => exact .on rfl (le_refl _) (h.left_mono (fun _ => le_refl _) (le_refl _)) (by simp [Short.left])
    | rDone q v => exact .stay rfl (by simp [ended])
  some es := by
    rintro ⟨c, hc, ho⟩
    have h : Inv G s0 (G.machine.run (Machine.start { obj := s0 }) es) := inv_run s0 es
    generalize G.machine.run (Machine.start { obj := s0 }) es = p at h hc
    by_cases hin : ∃ d ∈ p.calls, wHolds d = true ∨ rHolds d = true
    · obtain ⟨d, hd, hh⟩ := hin
      refine ⟨d, hd, ?_, ?_, ?_, ?_⟩
      · cases d <;> simp [wHolds, rHolds] at hh <;> rfl
      · cases d <;> simp [wHolds, rHolds] at hh <;> rfl
      · rintro a rfl; simp [wHolds, rHolds] at hh
      · rintro a rfl; simp [wHolds, rHolds] at hh
    · have hno : ∀ d ∈ p.calls, wHolds d = false ∧ rHolds d = false := by
        intro d hd
        constructor <;> (by_contra hne; exact hin ⟨d, hd, by simp_all⟩)
      have e1 : p.shared.writer = false := by
        have := h.writer
        rw [List.filter_eq_nil_iff.2 (fun d hd => by simp [(hno d hd).1])] at this
        by_contra hne
        rw [if_pos (by simpa using hne)] at this
        simp at this
      have e2 : p.shared.readers = 0 := by
        have := h.readers
        rw [List.filter_eq_nil_iff.2 (fun d hd => by simp [(hno d hd).2])] at this
        simpa using this.symm
      exact ⟨c, hc, ho, ho, fun _ _ => ⟨e1, e2⟩, fun _ _ => e1⟩
  idle s x c h := by cases c <;> first | rfl | cases h

end Guarded

namespace UniformConc

/-- How far `UpdateN` is from its end. -/
def WPC.left : WPC → Nat
  | .inc _ => 5
  | .cmp _ => 4
  | .draw _ _ => 3
  | .fill _ => 1
  | .store _ _ => 1

/-- How far `Size` or `GetSnapshot` is from its end. -/
def RPC.left (u : UniformReservoir) : RPC → Nat
  | .sizeCmp => 2
  | .sizeCount => 1
  | .copy done => u.values.length - done.length

/-- A word of the lower half is accepted, whatever the number of positions. -/
theorem accepts_low {n w : Int} (h1 : 1 ≤ n) (h2 : InI64 n) (hw : 0 ≤ w ∧ w ≤ 4611686018427387904) : UniformReservoir.accepts n w = true := by
  obtain ⟨w1, w2⟩ := hw
  unfold InI64 at h2
  have hm : w.tmod n = w % n := Int.tmod_eq_emod_of_nonneg w1
  have h3 := Int.emod_nonneg w (by omega : n ≠ 0)
  have h4 := Int.emod_lt_of_pos w (by omega : 0 < n)
  have h5 : w < n → w % n = w := fun h => Int.emod_eq_of_lt w1 h
  simp only [UniformReservoir.accepts, hm, decide_eq_true_eq]
  generalize w % n = m at h3 h4 h5
  have hle : m ≤ w := by
    by_cases h : w < n
    · rw [h5 h]
    · omega
  have hsum : w - m + n - 1 < 9223372036854775808 := by
    by_cases h : w < n
    · rw [h5 h]; omega
    · omega
  rw [i64_of_in (x := w - m) (by unfold InI64; omega)]
  by_cases hb : w - m + n ≤ 9223372036854775807
  · rw [i64_of_in (x := w - m + n) (by unfold InI64; omega), i64_of_in (x := w - m + n - 1) (by unfold InI64; omega)]
    omega
  · have e : w - m + n = 9223372036854775808 := by omega
    rw [e]
    decide

theorem length_wstep (u : UniformReservoir) (x : Int) (l : WPC) : (wstep u x l).1.values.length = u.values.length := by
  cases l <;> simp only [wstep] <;> (repeat' split) <;> simp

/-- The critical sections are short. -/
def short : guarded.Short sane (fun w => 0 ≤ w ∧ w ≤ 4611686018427387904) where
  wr := WPC.left
  wmax := 5
  enter a := le_refl _
  write o x l o' l' hs hw := by
    cases l with
    | inc v =>
      simp only [guarded, wstep, Prod.mk.injEq, Sum.inl.injEq] at hw
      obtain ⟨rfl, rfl⟩ := hw
      exact .inl (by simp [WPC.left])
    | cmp v =>
      simp only [guarded, wstep, Prod.mk.injEq, Sum.inl.injEq] at hw
      obtain ⟨rfl, rfl⟩ := hw
      split <;> exact .inl (by simp [WPC.left])
    | fill v => simp only [guarded, wstep] at hw; split at hw <;> simp at hw
    | draw v n =>
      simp only [guarded, wstep, Prod.mk.injEq, Sum.inl.injEq] at hw
      obtain ⟨rfl, rfl⟩ := hw
      split
      · exact .inl (by simp [WPC.left])
      · rename_i hn
        exact .inr ⟨fun g => hn (accepts_low hs.1 hs.2 g), by simp [WPC.left]⟩
    | store v index => simp only [guarded, wstep] at hw; (repeat' split at hw) <;> simp at hw
  rr := RPC.left
  rmax u := u.values.length + 2
  look o q := by cases q <;> simp [guarded, RPC.left]
  read o k k' hr := by
    cases k with
    | sizeCmp =>
      simp only [guarded, rstep] at hr
      split at hr <;> simp at hr
      subst hr
      simp [RPC.left]
    | sizeCount => simp [guarded, rstep] at hr
    | copy done =>
      simp only [guarded, rstep] at hr
      split at hr
      · rename_i v hv
        have hlt := (List.getElem?_eq_some_iff.1 hv).1
        simp only [Sum.inl.injEq] at hr
        subst hr
        simp only [RPC.left, List.length_append, List.length_cons, List.length_nil]
        omega
      · simp at hr
  keep o x l := by
    have := length_wstep o x l
    change (∀ k, RPC.left (wstep o x l).1 k ≤ RPC.left o k) ∧ (wstep o x l).1.values.length + 2 ≤ o.values.length + 2
    refine ⟨fun k => ?_, by omega⟩
    cases k <;> simp only [RPC.left, this] <;> omega

/-- Why the calls of a uniform reservoir end. -/
def ranked (u : UniformReservoir) : guarded.machine.Ranked { obj := u } Guarded.ended (fun w => 0 ≤ w ∧ w ≤ 4611686018427387904) :=
  Guarded.ranked short (fun _ _ _ _ _ h => part_sane h) u

end UniformConc

/-- **C100.** `UpdateN`, `Size` and `GetSnapshot` of a uniform reservoir end, if the random source gives every call, again and again, a word of the lower
half (at most 2^62). -/
theorem C100_uniform (u : UniformReservoir) : UniformConc.guarded.machine.FairlyEnds { obj := u } Guarded.ended (fun w => 0 ≤ w ∧ w ≤ 4611686018427387904) :=
  (UniformConc.ranked u).fairly.ends

namespace FastCompassConc

/-- How far `Record` is from its end. -/
def left : Arg × RecPC → Nat
  | (_, .check) => 14
  | (_, .lookup) => 13
  | (_, .limit) => 12
  | (_, .make) => 11
  | (_, .insert _) => 10
  | (_, .update c) => CompassConc.callRank c.pc

/-- The critical sections are short. -/
def short : guarded.Short (fun _ _ => True) (fun _ => True) where
  wr := left
  wmax := 14
  enter a := le_refl _
  write fc t l fc' l' _ hw := by
    left
    obtain ⟨a, pc⟩ := l
    change wstep fc t (a, pc) = _ at hw
    cases pc with
    | check => simp only [wstep] at hw; split at hw <;> simp at hw; obtain ⟨-, rfl⟩ := hw; simp [left]
    | lookup => simp only [wstep] at hw; split at hw <;> simp at hw <;> obtain ⟨-, rfl⟩ := hw <;> simp [left, CompassConc.callRank]
    | limit => simp only [wstep] at hw; split at hw <;> simp at hw; obtain ⟨-, rfl⟩ := hw; simp [left]
    | make => simp only [wstep] at hw; split at hw <;> simp at hw; obtain ⟨-, rfl⟩ := hw; simp [left]
    | insert b => simp only [wstep] at hw; simp at hw; obtain ⟨-, rfl⟩ := hw; simp [left, CompassConc.callRank]
    | update c =>
      cases hb : fc.subCategories.get? a.subCategory with
      | none => simp only [wstep, hb] at hw; simp at hw
      | some b =>
        have hr := CompassConc.callStep_rank b t c
        have hlt : ∀ pc', (BucketCounter.callStep b t c).2.pc = pc' → 0 < CompassConc.callRank pc' →
            left (a, .update (BucketCounter.callStep b t c).2) < left (a, .update c) := by
          intro pc' e h0
          simp only [left]
          rw [← e] at h0
          omega
        simp only [wstep, hb] at hw
        split at hw
        · simp at hw
        · simp at hw
        · rename_i h1 h2
          simp only [Prod.mk.injEq, Sum.inl.injEq] at hw
          obtain ⟨-, rfl⟩ := hw
          refine hlt _ rfl ?_
          cases hp : (BucketCounter.callStep b t c).2.pc <;> first | (simp [CompassConc.callRank]; done) | exact absurd hp (h1 _ _) | exact absurd hp h2
  rr _ k := nomatch k
  rmax _ := 0
  look _ q := nomatch q
  read _ k := nomatch k
  keep _ _ _ := ⟨(fun k => nomatch k), le_refl _⟩

end FastCompassConc

/-- **C100.** `Record` of a fast compass. -/
theorem C100_fast_compass (fc : FastCompass) : FastCompassConc.guarded.machine.FairlyEnds { obj := fc } Guarded.ended (fun _ => True) :=
  (Guarded.ranked FastCompassConc.short (fun _ _ _ _ _ _ => trivial) fc).fairly.ends

/-- **C100 refuted without a condition on the random source.** Fair turns are not enough for the uniform reservoir: the third `Update` of a reservoir of size 1,
given the largest word at every draw, draws forever (impl/uniform_reservoir.go:72-84). -/
theorem C100_uniform_refuted : ¬ ∀ u : UniformReservoir, UniformConc.guarded.machine.FairlyEnds { obj := u } Guarded.ended (fun _ => True) := by
  intro h
  let w : Int := 9223372036854775807
  let before : List (Ev (Int ⊕ UniformConc.Query) Int) :=
    [.spawn (.inl 5)] ++ List.replicate 5 (.step 0 w) ++ [.spawn (.inl 6)] ++ List.replicate 6 (.step 1 w) ++ [.spawn (.inl 7)] ++ List.replicate 3 (.step 2 w)
  let f : Nat → Nat × Int := fun k => (k % 3, w)
  have hb : ∃ s a b ins n, UniformConc.guarded.machine.run (start { obj := UniformReservoir.new 1 }) before = ⟨s, [.wDone 5 a, .wDone 6 b, .wIn 7 ins (.draw 7 n)]⟩ ∧
      UniformReservoir.accepts n w = false := by
    refine ⟨(UniformConc.guarded.machine.run (start { obj := UniformReservoir.new 1 }) before).shared, false, false, [w, w], 3, ?_, by decide +kernel⟩
    have e : (UniformConc.guarded.machine.run (start { obj := UniformReservoir.new 1 }) before).calls = [.wDone 5 false, .wDone 6 false, .wIn 7 [w, w] (.draw 7 3)] := by
      decide +kernel
    rw [← e]
  obtain ⟨s, a, b, ins, n, hb, ha⟩ := hb
  have hk : ∀ k, ∃ ins, UniformConc.guarded.machine.run (start { obj := UniformReservoir.new 1 }) (before ++ firstTurns f k) = ⟨s, [.wDone 5 a, .wDone 6 b, .wIn 7 ins (.draw 7 n)]⟩ := by
    intro k
    induction k with
    | zero => exact ⟨ins, by simpa [firstTurns] using hb⟩
    | succ k ih =>
      obtain ⟨ins, ih⟩ := ih
      rw [firstTurns_succ, ← List.append_assoc, run_snoc, ih]
      have : k % 3 = 0 ∨ k % 3 = 1 ∨ k % 3 = 2 := by omega
      rcases this with e | e | e
      · exact ⟨ins, by simp [f, e, Machine.apply, Guarded.machine, Guarded.callStep]⟩
      · exact ⟨ins, by simp [f, e, Machine.apply, Guarded.machine, Guarded.callStep]⟩
      · refine ⟨ins ++ [w], ?_⟩
        simp [f, e, Machine.apply, Guarded.machine, Guarded.callStep, UniformConc.guarded, UniformConc.wstep, ha]
  obtain ⟨m, hm⟩ := h (UniformReservoir.new 1) before f (by
    rw [hb]
    intro i hi m
    exact ⟨3 * m + i, by omega, by simp only [f]; simp only [List.length_cons, List.length_nil] at hi; omega, trivial⟩)
  obtain ⟨ins', e⟩ := hk m
  have := hm m (le_refl _) (.wIn 7 ins' (.draw 7 n)) (by rw [e]; simp)
  cases this

end GoMetrics
