import Verif.Proofs.Progress
import Verif.Proofs.EWMAConc
import Verif.Proofs.RWLock
import Verif.Model.Registry
import Verif.Model.EDRConc
import Verif.Model.UniformConc
import Verif.Model.FastCompassConc
import Verif.Model.CompassConc
import Verif.Props.MetricName
import Verif.Props.EWMA
import Verif.Props.CompassUpdateConc
import Verif.Props.BucketReader
/-! # C87 — every call comes to its end -/
namespace GoMetrics
open Machine

/-! ## Wait-free methods -/

namespace BucketCounter
/-- `UpdateN` returned, or divided by zero. -/
def Call.ended (c : Call) : Bool :=
  match c.pc with
  | .done _ _ | .panicked => true
  | _ => false
end BucketCounter

/-- **C87.** `Update`/`UpdateN` of a bucket counter is wait-free: whatever the others do, it takes at most 9 steps of its own. -/
theorem C87_bucket_counter (b : BucketCounter) : BucketCounter.conc.WaitFree b BucketCounter.Call.ended 9 := by
  refine waitFree_of_rank _ (rank := fun c => CompassConc.callRank c.pc) (fun s x c => CompassConc.callStep_rank s x c) ?_ ?_ b
  · rintro ⟨n, pc⟩; cases pc <;> simp [CompassConc.callRank]
  · rintro ⟨n, pc⟩ h; cases pc <;> simp [CompassConc.callRank] at h <;> rfl

/-- The bound is reached. -/
example :
    let p := BucketCounter.conc.run (Machine.start (BucketCounter.new 1000000000 2 0 true)) (.spawn 1 :: List.replicate 8 (.step 0 5000))
    p.calls.map BucketCounter.Call.ended = [false] := by decide +kernel

namespace Registry
/-- A lookup or `SetEnable` is over. -/
def PC.ended : PC → Bool
  | .done _ _ _ | .panicked _ _ | .setDone _ => true
  | _ => false

/-- How many steps are left, at most. -/
def PC.rank : PC → Nat
  | .readEnable _ _ => 9
  | .loadGroup _ _ => 8
  | .storeGroup _ _ => 7
  | .load _ _ => 6
  | .create _ _ => 5
  | .check _ _ _ => 4
  | .store _ _ _ => 3
  | .incr _ _ _ => 2
  | .assert _ _ _ => 1
  | .setEnable _ => 1
  | .done _ _ _ | .panicked _ _ | .setDone _ => 0
end Registry

/-- **C87.** Looking a metric up (`GetCompass`, `GetFastCompass`, on a registry or through the manager) and `SetEnable` are wait-free: at most 9 steps. -/
theorem C87_registry (s : Registry.Mem) : Registry.conc.WaitFree s Registry.PC.ended 9 := by
  refine waitFree_of_rank _ (rank := Registry.PC.rank) ?_ ?_ ?_ s
  · intro s x c
    cases c <;> simp only [Registry.conc, Registry.callStep] <;> (repeat' split) <;> simp [Registry.PC.rank]
  · intro c; cases c <;> simp [Registry.PC.rank]
  · intro c h; cases c <;> simp [Registry.PC.rank] at h <;> rfl

namespace EDRConc
/-- `UpdateN`, `GetSnapshot` or `Size` is over. -/
def PC.ended : PC → Bool
  | .updated _ _ _ _ | .snapshot _ | .sized _ | .panicked _ => true
  | _ => false

/-- How many steps are left, at most. -/
def PC.rank : PC → Nat
  | .tick _ => 8
  | .check _ _ => 7
  | .reread _ _ _ => 6
  | .cas _ _ _ _ => 5
  | .lockScale _ => 4
  | .time _ => 3
  | .weigh _ _ => 2
  | .lockRecord _ _ _ _ _ _ => 1
  | .lockSnap => 1
  | .size1 => 2
  | .size2 => 1
  | .updated _ _ _ _ | .snapshot _ | .sized _ | .panicked _ => 0

theorem rank_after (act : Act) : PC.rank (after act) ≤ 3 := by cases act <;> simp [after, PC.rank]

/-- Every step of a call brings it nearer its end. -/
theorem rank_step (A : EDR.Arith) (s : Shared) (x : In) (c : PC) : PC.rank ((machine A).step s x c).2 ≤ PC.rank c - 1 := by
  cases c with
  | check act now =>
    simp only [machine, callStep]
    split
    · simp [PC.rank]
    · exact le_trans (rank_after act) (by simp [PC.rank])
  | cas act now due next =>
    simp only [machine, callStep]
    split
    · simp [PC.rank]
    · exact le_trans (rank_after act) (by simp [PC.rank])
  | lockScale act => exact rank_after act
  | _ => simp only [machine, callStep] <;> (repeat' split) <;> simp [PC.rank]
end EDRConc

/-- **C87.** The calls of a decaying reservoir take at most 8 steps, one of which is a critical section (`rescaleIfNeeded` tries its swap only once). -/
theorem C87_decaying (A : EDR.Arith) (s : EDRConc.Shared) : (EDRConc.machine A).WaitFree s EDRConc.PC.ended 8 := by
  refine waitFree_of_rank _ (rank := EDRConc.PC.rank) ?_ ?_ ?_ s
  · exact EDRConc.rank_step A
  · intro c; cases c <;> simp [EDRConc.PC.rank]
  · intro c h; cases c <;> simp [EDRConc.PC.rank] at h <;> rfl

/-! ## Methods that lock -/

namespace EWMA
/-- `Update`, `Tick` or `TickN` returned. -/
def PC.ended : PC → Bool
  | .updated _ | .done _ _ => true
  | _ => false

theorem ends (R : Rounding) (s : Shared) (c : PC) (h : c.crit = true ∨ s.held = false) : (conc R).Ends PC.ended s c := by
  have hu : ∀ s own c, (conc R).Ends PC.ended s (.unlock own c) := fun s own c => .step _ () rfl (.now _ rfl)
  have hi : ∀ s own c, (conc R).Ends PC.ended s (.setInit own c) := fun s own c => .step _ () rfl (hu _ _ _)
  have hs : ∀ s own c ini new, (conc R).Ends PC.ended s (.store own c ini new) := by
    intro s own c ini new
    cases ini
    · exact .step _ () rfl (hi _ _ _)
    · exact .step _ () rfl (hu _ _ _)
  have hr : ∀ s own c i, (conc R).Ends PC.ended s (.read own c i) := fun s own c i => .step _ () rfl (hs _ _ _ _ _)
  have he : ∀ (s : Shared) own c, s.held = false → (conc R).Ends PC.ended s (.enter own c) := by
    intro s own c hh
    refine .step _ () ?_ (hr { s with held := true } own c (s.e.instantRate R c))
    simp [conc, callStep, hh]
  have hc : ∀ (s : Shared), s.held = false → (conc R).Ends PC.ended s (.cas s.e.uncounted) := by
    intro s hh
    refine .step _ () ?_ (he { s with e := { s.e with uncounted := 0 } } true s.e.uncounted hh)
    simp [conc, callStep]
  have hl : ∀ (s : Shared), s.held = false → (conc R).Ends PC.ended s .load := fun s hh => .step _ () rfl (hc s hh)
  cases c with
  | update n => exact .step _ () rfl (.now _ rfl)
  | updated n => exact .now _ rfl
  | load => exact hl s (h.resolve_left (by simp [PC.crit]))
  | cas old =>
    have hh := h.resolve_left (by simp [PC.crit])
    by_cases ho : s.e.uncounted = old
    · subst ho; exact hc s hh
    · refine .step _ () ?_ (hl s hh)
      simp [conc, callStep, ho]
  | enter own c => exact he s own c (h.resolve_left (by simp [PC.crit]))
  | read own c i => exact hr _ _ _ _
  | store own c ini new => exact hs _ _ _ _ _
  | setInit own c => exact hi _ _ _
  | unlock own c => exact hu _ _ _
  | done own c => exact .now _ rfl
end EWMA

/-- **C87.** `Update`, `Tick` and `TickN` of an average are free of deadlock. -/
theorem C87_ewma (R : Rounding) (e : EWMA) : (EWMA.conc R).NeverStuck ⟨e, false⟩ EWMA.PC.ended := by
  apply neverStuck_of_one
  rintro es ⟨c, hc, ho⟩
  obtain ⟨l, h⟩ := EWMA.serial_run R e es
  by_cases hh : ((EWMA.conc R).run (Machine.start ⟨e, false⟩) es).shared.held = true
  · have hx := h.excl
    rw [if_pos hh] at hx
    obtain ⟨d, hd⟩ := List.exists_mem_of_length_pos (by omega : 0 < (((EWMA.conc R).run (Machine.start ⟨e, false⟩) es).calls.filter EWMA.PC.crit).length)
    obtain ⟨hd, hcr⟩ := List.mem_filter.1 hd
    refine ⟨d, hd, ?_, EWMA.ends R _ d (.inl hcr)⟩
    cases d <;> simp [EWMA.PC.crit] at hcr <;> rfl
  · exact ⟨c, hc, ho, EWMA.ends R _ c (.inr (by simpa using hh))⟩

namespace MetricName
/-- `HashKey` returned, or the assignment was made. -/
def PC.ended : PC → Bool
  | .returned _ | .finished => true
  | _ => false

theorem ends (s : Shared) (c : PC) (h : c.holds = true ∨ s.locked = false) : conc.Ends PC.ended s c := by
  have hret : ∀ s, conc.Ends PC.ended s .ret := fun s => .step _ [] rfl (.now _ rfl)
  have hun : ∀ s, conc.Ends PC.ended s .unlock := fun s => .step _ [] rfl (hret _)
  have hdone : ∀ s, conc.Ends PC.ended s .setDone := fun s => .step _ [] rfl (hun _)
  have hloop : ∀ rest s, conc.Ends PC.ended s (.loop rest) := by
    intro rest
    induction rest with
    | nil => intro s; exact .step _ [] rfl (hdone _)
    | cons t rest ih => intro s; exact .step _ [] rfl (ih _)
  have hrange : ∀ s, conc.Ends PC.ended s .range := fun s => .step _ [] rfl (hloop _ _)
  have hsep : ∀ s, conc.Ends PC.ended s .writeSep := fun s => .step _ [] rfl (hrange _)
  have hlen : ∀ s, conc.Ends PC.ended s .lenCheck := by
    intro s
    by_cases ht : s.tags.length ≤ 0
    · exact .step _ [] (by simp only [conc, callStep, if_pos ht]) (hdone s)
    · exact .step _ [] (by simp only [conc, callStep, if_neg ht]) (hsep s)
  have hkey : ∀ s, conc.Ends PC.ended s .writeKey := fun s => .step _ [] rfl (hlen _)
  have hre : ∀ s, conc.Ends PC.ended s .recheck := by
    intro s
    cases hd : s.done
    · exact .step _ [] (by simp only [conc, callStep, hd]; rfl) (hkey s)
    · exact .step _ [] (by simp only [conc, callStep, hd]; rfl) (hun s)
  have hlock : ∀ s : Shared, s.locked = false → conc.Ends PC.ended s .lock := by
    intro s hl
    exact .step _ [] (by simp only [conc, callStep, hl]; rfl) (hre { s with locked := true })
  cases c with
  | fast =>
    have hl := h.resolve_left (by simp [PC.holds])
    cases hd : s.done
    · exact .step _ [] (by simp only [conc, callStep, hd]; rfl) (hlock s hl)
    · exact .step _ [] (by simp only [conc, callStep, hd]; rfl) (hret s)
  | lock => exact hlock s (h.resolve_left (by simp [PC.holds]))
  | recheck => exact hre s
  | writeKey => exact hkey s
  | lenCheck => exact hlen s
  | writeSep => exact hsep s
  | range => exact hrange s
  | loop rest => exact hloop rest s
  | setDone => exact hdone s
  | unlock => exact hun s
  | ret => exact hret s
  | returned h => exact .now _ rfl
  | setKey k => exact .step _ [] rfl (.now _ rfl)
  | setTags t => exact .step _ [] rfl (.now _ rfl)
  | finished => exact .now _ rfl
end MetricName

/-- **C87.** `HashKey` is free of deadlock. -/
theorem C87_hash_key (key : GoStr) (tags : GoMap GoStr GoStr) : MetricName.conc.NeverStuck { key := key, tags := tags } MetricName.PC.ended := by
  apply neverStuck_of_one
  rintro es ⟨c, hc, ho⟩
  have h := MetricName.inv_all key tags es
  by_cases hh : (MetricName.conc.run (Machine.start { key := key, tags := tags }) es).shared.locked = true
  · have hx := h.lock
    rw [if_pos hh] at hx
    obtain ⟨d, hd, hcr⟩ := List.countP_pos_iff.1 (by omega : 0 < (MetricName.conc.run (Machine.start { key := key, tags := tags }) es).calls.countP MetricName.PC.holds)
    refine ⟨d, hd, ?_, MetricName.ends _ d (.inl hcr)⟩
    cases d <;> simp [MetricName.PC.holds] at hcr <;> rfl
  · exact ⟨c, hc, ho, MetricName.ends _ c (.inr (by simpa using hh))⟩

namespace Guarded
variable {S A L I R Q K V : Type} (G : Guarded S A L I R Q K V)

/-- The call returned or panicked. -/
def ended : GuardPC A L I R Q K V → Bool
  | .wDone _ _ | .rDone _ _ => true
  | _ => false

theorem ends_wIn {s : Guard S A I R} {a : A} {ins : List I} {o : S} {l : L} {xs : List I} {s' : S} {r : R} (h : G.Alone o l xs s' r) (ho : s.obj = o) :
    G.machine.Ends ended s (.wIn a ins l) := by
  induction h generalizing s ins with
  | @last o x l o' r hw =>
    refine .step _ x (s' := { s with obj := o', log := s.log ++ [(a, ins ++ [x], r)] }) (c' := .wOut a r) ?_ (.step _ x rfl (.now _ rfl))
    simp only [machine, callStep, ho, hw]
  | @more o x l o' l' xs o'' r hw _ ih =>
    refine .step _ x (s' := { s with obj := o' }) (c' := .wIn a (ins ++ [x]) l') ?_ (ih rfl)
    simp only [machine, callStep, ho, hw]

theorem ends_rIn [Inhabited I] {s : Guard S A I R} {q : Q} {o : S} {k : K} {v : V} (h : G.Sees o k v) (ho : s.obj = o) :
    G.machine.Ends ended s (.rIn q k) := by
  induction h with
  | @last k v hr =>
    refine .step _ default (s' := s) (c' := .rOut q v) ?_ (.step _ default rfl (.now _ rfl))
    simp only [machine, callStep, ho, hr]
  | @more k k' v hr _ ih =>
    refine .step _ default (s' := s) (c' := .rIn q k') ?_ ih
    simp only [machine, callStep, ho, hr]

/-- If the sections between lock and unlock can always be brought to their end, an object guarded by a lock is free of deadlock. -/
theorem neverStuck [Inhabited I] (hw : ∀ sq a ins s l, Part G sq (G.enter a) ins s l → ∃ xs s' r, G.Alone s l xs s' r) (hr : ∀ s k, ∃ v, G.Sees s k v) (s0 : S) :
    G.machine.NeverStuck { obj := s0 } ended := by
  apply neverStuck_of_one
  rintro es ⟨c, hc, ho⟩
  have h : Inv G s0 (G.machine.run (Machine.start { obj := s0 }) es) := inv_run s0 es
  generalize G.machine.run (Machine.start { obj := s0 }) es = p at h hc
  obtain ⟨sq, -, h5, -⟩ := h.seq
  by_cases hin : ∃ d ∈ p.calls, wHolds d = true ∨ rHolds d = true
  · obtain ⟨d, hd, hh⟩ := hin
    refine ⟨d, hd, ?_, ?_⟩
    · cases d <;> simp [wHolds, rHolds] at hh <;> rfl
    · cases d with
      | wIn a ins l =>
        obtain ⟨xs, s', r, ha⟩ := hw _ _ _ _ _ (h5 a ins l hd)
        exact ends_wIn G ha rfl
      | wOut a r => exact .step _ default rfl (.now _ rfl)
      | rIn q k =>
        obtain ⟨v, hv⟩ := hr p.shared.obj k
        exact ends_rIn G hv rfl
      | rOut q v => exact .step _ default rfl (.now _ rfl)
      | wWait a => simp [wHolds, rHolds] at hh
      | wDone a r => simp [wHolds, rHolds] at hh
      | rWait q => simp [wHolds, rHolds] at hh
      | rDone q v => simp [wHolds, rHolds] at hh
  · have hno : ∀ d ∈ p.calls, wHolds d = false ∧ rHolds d = false := by
      intro d hd
      constructor <;> (by_contra hne; exact hin ⟨d, hd, by simp_all⟩)
    have e1 : p.shared.writer = false := by
      have := h.writer
      rw [List.filter_eq_nil_iff.2 (fun d hd => by simp [(hno d hd).1])] at this
      by_contra hne
      rw [if_pos (by simpa using hne)] at this
      simp at this
    have e2 : p.shared.readers = 0 := by
      have := h.readers
      rw [List.filter_eq_nil_iff.2 (fun d hd => by simp [(hno d hd).2])] at this
      simpa using this.symm
    refine ⟨c, hc, ho, ?_⟩
    have := hno c hc
    cases c with
    | wWait a =>
      obtain ⟨xs, s', r, ha⟩ := hw p.shared.obj a [] p.shared.obj (G.enter a) .nil
      exact .step _ default (s' := { p.shared with writer := true }) (c' := .wIn a [] (G.enter a)) (by simp [machine, callStep, e1, e2]) (ends_wIn G ha rfl)
    | rWait q =>
      obtain ⟨v, hv⟩ := hr p.shared.obj (G.look q)
      exact .step _ default (s' := { p.shared with readers := p.shared.readers + 1 }) (c' := .rIn q (G.look q)) (by simp [machine, callStep, e1]) (ends_rIn G hv rfl)
    | wIn a ins l => simp [wHolds] at this
    | wOut a r => simp [wHolds] at this
    | rIn q k => simp [rHolds] at this
    | rOut q v => simp [rHolds] at this
    | wDone a r => simp [ended] at ho
    | rDone q v => simp [ended] at ho

end Guarded

namespace UniformConc
/-- A draw is made among at least one position. -/
def sane (u : UniformReservoir) : WPC → Prop
  | .draw _ n => 1 ≤ n ∧ InI64 n
  | .cmp _ => InI64 u.count
  | _ => True

theorem sane_step {u x l u' l'} (h : sane u l) (hs : wstep u x l = (u', .inl l')) : sane u' l' := by
  cases l with
  | inc v =>
    simp only [wstep, Prod.mk.injEq, Sum.inl.injEq] at hs
    obtain ⟨rfl, rfl⟩ := hs
    exact i64_in _
  | cmp v =>
    simp only [wstep, Prod.mk.injEq, Sum.inl.injEq] at hs
    obtain ⟨rfl, rfl⟩ := hs
    by_cases hc : u.count ≤ (u.values.length : Int)
    · rw [if_pos hc]; trivial
    · rw [if_neg hc]; exact ⟨by omega, h⟩
  | fill v => simp only [wstep] at hs; split at hs <;> simp at hs
  | draw v n =>
    simp only [wstep, Prod.mk.injEq, Sum.inl.injEq] at hs
    obtain ⟨rfl, rfl⟩ := hs
    split
    · trivial
    · exact h
  | store v index => simp only [wstep] at hs; (repeat' split at hs) <;> simp at hs

theorem part_sane {sq a ins u l} (h : Guarded.Part guarded sq (guarded.enter a) ins u l) : sane u l := by
  induction h with
  | nil => trivial
  | snoc _ hs ih => exact sane_step ih hs

theorem store_ends (u : UniformReservoir) (v index : Int) : ∃ xs u' r, guarded.Alone u (.store v index) xs u' r := by
  have : ∃ u' r, wstep u 0 (.store v index) = (u', .inr r) := by
    simp only [wstep]; (repeat' split) <;> exact ⟨_, _, rfl⟩
  obtain ⟨u', r, h⟩ := this
  exact ⟨_, u', r, .last (x := 0) h⟩

theorem fill_ends (u : UniformReservoir) (v : Int) : ∃ xs u' r, guarded.Alone u (.fill v) xs u' r := by
  have : ∃ u' r, wstep u 0 (.fill v) = (u', .inr r) := by
    simp only [wstep]; (repeat' split) <;> exact ⟨_, _, rfl⟩
  obtain ⟨u', r, h⟩ := this
  exact ⟨_, u', r, .last (x := 0) h⟩

theorem draw_ends (u : UniformReservoir) (v n : Int) (h1 : 1 ≤ n) (h2 : InI64 n) : ∃ xs u' r, guarded.Alone u (.draw v n) xs u' r := by
  obtain ⟨xs, u', r, h⟩ := store_ends u v ((0 : Int).tmod n)
  refine ⟨_, u', r, .more (x := 0) ?_ h⟩
  have : UniformReservoir.accepts n 0 = true := by
    unfold InI64 at h2
    simp only [UniformReservoir.accepts, Int.zero_tmod, decide_eq_true_eq]
    rw [i64_of_in (x := 0 - 0) (by unfold InI64; omega), i64_of_in (x := 0 - 0 + n) (by unfold InI64; omega), i64_of_in (by unfold InI64; omega)]
    omega
  simp only [guarded, wstep, this, if_true]

theorem cmp_ends (u : UniformReservoir) (v : Int) (h : InI64 u.count) : ∃ xs u' r, guarded.Alone u (.cmp v) xs u' r := by
  by_cases hc : u.count ≤ (u.values.length : Int)
  · obtain ⟨xs, u', r, h⟩ := fill_ends u v
    exact ⟨_, u', r, .more (x := 0) (by simp only [guarded, wstep, if_pos hc] <;> rfl) h⟩
  · obtain ⟨xs, u', r, h⟩ := draw_ends u v u.count (by omega) h
    exact ⟨_, u', r, .more (x := 0) (by simp only [guarded, wstep, if_neg hc] <;> rfl) h⟩

theorem alone_ends {u l} (h : sane u l) : ∃ xs u' r, guarded.Alone u l xs u' r := by
  cases l with
  | inc v =>
    obtain ⟨xs, u', r, h⟩ := cmp_ends { u with count := i64 (u.count + 1) } v (i64_in _)
    exact ⟨_, u', r, .more (x := 0) rfl h⟩
  | cmp v => exact cmp_ends u v h
  | fill v => exact fill_ends u v
  | draw v n => exact draw_ends u v n h.1 h.2
  | store v index => exact store_ends u v index

theorem sees_ends (u : UniformReservoir) (k : RPC) : ∃ a, guarded.Sees u k a := by
  have hc : ∀ n done, u.values.length - List.length done = n → ∃ a, guarded.Sees u (.copy done) a := by
    intro n
    induction n with
    | zero =>
      intro done hd
      have : u.values[done.length]? = none := List.getElem?_eq_none (by omega)
      exact ⟨_, .last (by simp only [guarded, rstep, this] <;> rfl)⟩
    | succ n ih =>
      intro done hd
      have hlt : done.length < u.values.length := by omega
      obtain ⟨a, ha⟩ := ih (done ++ [u.values[done.length]]) (by simp; omega)
      exact ⟨a, .more (by simp only [guarded, rstep, List.getElem?_eq_getElem hlt] <;> rfl) ha⟩
  cases k with
  | sizeCmp =>
    by_cases h : u.count > (u.values.length : Int)
    · exact ⟨_, .last (by simp only [guarded, rstep, if_pos h] <;> rfl)⟩
    · exact ⟨_, .more (k' := .sizeCount) (by simp only [guarded, rstep, if_neg h] <;> rfl) (.last rfl)⟩
  | sizeCount => exact ⟨_, .last rfl⟩
  | copy done => exact hc _ done rfl

end UniformConc

/-- **C87.** `UpdateN`, `Size` and `GetSnapshot` of a uniform reservoir are free of deadlock, and the loop that draws a random position can always be left. -/
theorem C87_uniform (u : UniformReservoir) : UniformConc.guarded.machine.NeverStuck { obj := u } Guarded.ended :=
  Guarded.neverStuck _ (fun _ _ _ _ _ h => UniformConc.alone_ends (UniformConc.part_sane h)) UniformConc.sees_ends u

namespace FastCompassConc

theorem update_ends (a : Arg) : ∀ n (fc : FastCompass) (c : BucketCounter.Call), CompassConc.callRank c.pc ≤ n →
    ∃ xs fc' r, guarded.Alone fc (a, .update c) xs fc' r := by
  intro n
  induction n with
  | zero =>
    intro fc c hn
    cases hb : fc.subCategories.get? a.subCategory with
    | none => exact ⟨_, _, _, .last (x := 0) (by simp only [guarded, wstep, hb] <;> rfl)⟩
    | some b =>
      have hr : CompassConc.callRank (BucketCounter.callStep b 0 c).2.pc ≤ 0 := by have := CompassConc.callStep_rank b 0 c; omega
      cases hp : (BucketCounter.callStep b 0 c).2.pc with
      | done ts p => exact ⟨_, _, _, .last (x := 0) (by simp only [guarded, wstep, hb, hp] <;> rfl)⟩
      | panicked => exact ⟨_, _, _, .last (x := 0) (by simp only [guarded, wstep, hb, hp] <;> rfl)⟩
      | _ => rw [hp] at hr; simp [CompassConc.callRank] at hr
  | succ n ih =>
    intro fc c hn
    cases hb : fc.subCategories.get? a.subCategory with
    | none => exact ⟨_, _, _, .last (x := 0) (by simp only [guarded, wstep, hb] <;> rfl)⟩
    | some b =>
      have hr := CompassConc.callStep_rank b 0 c
      obtain ⟨xs, fc', r, h⟩ := ih { fc with subCategories := fc.subCategories.set a.subCategory (BucketCounter.callStep b 0 c).1 } (BucketCounter.callStep b 0 c).2
        (by omega)
      cases hp : (BucketCounter.callStep b 0 c).2.pc with
      | done ts p => exact ⟨_, _, _, .last (x := 0) (by simp only [guarded, wstep, hb, hp] <;> rfl)⟩
      | panicked => exact ⟨_, _, _, .last (x := 0) (by simp only [guarded, wstep, hb, hp] <;> rfl)⟩
      | _ => exact ⟨_, _, _, .more (x := 0) (by simp only [guarded, wstep, hb, hp] <;> rfl) h⟩

theorem alone_ends (fc : FastCompass) (l : Arg × RecPC) : ∃ xs fc' r, guarded.Alone fc l xs fc' r := by
  obtain ⟨a, pc⟩ := l
  have hu : ∀ fc c, ∃ xs fc' r, guarded.Alone fc (a, .update c) xs fc' r := fun fc c => update_ends a _ fc c le_rfl
  have hi : ∀ fc b, ∃ xs fc' r, guarded.Alone fc (a, .insert b) xs fc' r := by
    intro fc b
    obtain ⟨xs, fc', r, h⟩ := hu { fc with subCategories := fc.subCategories.set a.subCategory b } ⟨FastCompass.packed a.duration, .start⟩
    exact ⟨_, _, _, .more (x := 0) rfl h⟩
  have hm : ∀ fc, ∃ xs fc' r, guarded.Alone fc (a, .make) xs fc' r := by
    intro fc
    cases hb : BucketCounter.newImpl fc.bucketInterval fc.numberOfBuckets 0 false with
    | none => exact ⟨_, _, _, .last (x := 0) (by simp only [guarded, wstep, hb] <;> rfl)⟩
    | some b =>
      obtain ⟨xs, fc', r, h⟩ := hi fc b
      exact ⟨_, _, _, .more (x := 0) (by simp only [guarded, wstep, hb] <;> rfl) h⟩
  have hl : ∀ fc, ∃ xs fc' r, guarded.Alone fc (a, .limit) xs fc' r := by
    intro fc
    by_cases hc : (fc.subCategories.length : Int) ≥ fc.maxSubCategoryCount
    · exact ⟨_, _, _, .last (x := 0) (by simp only [guarded, wstep, if_pos hc] <;> rfl)⟩
    · obtain ⟨xs, fc', r, h⟩ := hm fc
      exact ⟨_, _, _, .more (x := 0) (by simp only [guarded, wstep, if_neg hc] <;> rfl) h⟩
  have hk : ∀ fc, ∃ xs fc' r, guarded.Alone fc (a, .lookup) xs fc' r := by
    intro fc
    cases hb : fc.subCategories.get? a.subCategory with
    | none =>
      obtain ⟨xs, fc', r, h⟩ := hl fc
      exact ⟨_, _, _, .more (x := 0) (by simp only [guarded, wstep, hb] <;> rfl) h⟩
    | some b =>
      obtain ⟨xs, fc', r, h⟩ := hu fc ⟨FastCompass.packed a.duration, .start⟩
      exact ⟨_, _, _, .more (x := 0) (by simp only [guarded, wstep, hb] <;> rfl) h⟩
  cases pc with
  | check =>
    by_cases hc : a.duration < 0 ∨ a.subCategory.length = 0
    · exact ⟨_, _, _, .last (x := 0) (by simp only [guarded, wstep, if_pos hc] <;> rfl)⟩
    · obtain ⟨xs, fc', r, h⟩ := hk fc
      exact ⟨_, _, _, .more (x := 0) (by simp only [guarded, wstep, if_neg hc] <;> rfl) h⟩
  | lookup => exact hk fc
  | limit => exact hl fc
  | make => exact hm fc
  | insert b => exact hi fc b
  | update c => exact hu fc c

end FastCompassConc

/-- **C87.** `Record` of a fast compass is free of deadlock. -/
theorem C87_fast_compass (fc : FastCompass) : FastCompassConc.guarded.machine.NeverStuck { obj := fc } Guarded.ended :=
  Guarded.neverStuck _ (fun _ _ _ s l _ => FastCompassConc.alone_ends s l) (fun _ k => nomatch k) fc

/-! ## Queries -/

namespace BucketCounter
/-- How many steps a query still has to make, at most, on a counter of `N` buckets. -/
def ReadPC.rank (N : Nat) : ReadPC → Nat
  | .clock => 2 * N + 6
  | .pos _ => 2 * N + 5
  | .again _ _ => 2 * N + 4
  | .startTs _ _ _ => 2 * N + 3
  | .slots _ _ first second acc => acc.length + 2 * (first.length + second.length) + 2
  | .counts _ todo _ => todo.length + 1
  | .done _ | .panicked => 0

theorem readStep_rank {N : Nat} {b : BucketCounter} (hq : b.buckets.queue.length = N + 1) (s t : Int) (c : ReadPC) (hc : ∀ now sp cur, c = .startTs now sp cur → sp ≤ N) :
    (readStep s b t c).rank N ≤ c.rank N - 1 := by
  cases c with
  | clock => simp only [readStep]; split <;> simp [ReadPC.rank]
  | pos now => simp [readStep, ReadPC.rank]
  | again now sp => simp [readStep, ReadPC.rank]
  | startTs now sp cur =>
    have := loops_length sp N (hc now sp cur rfl)
    simp only [readStep, ReadPC.rank, hq, Nat.add_sub_cancel, List.length_nil]
    omega
  | slots now st first second acc =>
    cases first with
    | cons i first => simp only [readStep, ReadPC.rank, List.length_append, List.length_cons, List.length_nil]; omega
    | nil =>
      cases second with
      | cons i second =>
        simp only [readStep, ReadPC.rank, List.length_cons, List.length_nil]
        split
        · rw [List.length_append]; simp only [List.length_cons, List.length_nil]; omega
        · omega
      | nil => simp [readStep, ReadPC.rank]
  | counts now todo result =>
    cases todo with
    | cons p todo => simp [readStep, ReadPC.rank]
    | nil => simp [readStep, ReadPC.rank]
  | done r => simp [readStep, ReadPC.rank]
  | panicked => simp [readStep, ReadPC.rank]

theorem watch_rank (interval : Int) (N : Nat) (t0 : Int) (u : Bool) (s : Int) (es : List WatchEv) :
    (watch interval N t0 u s es).2.rank N ≤ 2 * N + 6 - (es.countP Sum.isRight) := by
  induction es using List.reverseRecOn with
  | nil => simp [watch, ReadPC.rank]
  | append_singleton es e ih =>
    rw [watch_snoc]
    cases e with
    | inl e => simpa [watchStep] using ih
    | inr t =>
      have hok := readOk_run interval N t0 u s es
      have hq := (cinv_run N _ (sharedOk_new interval N t0 u) (updates es)).shared.qlen
      change (after interval N t0 u (updates es)).shared.buckets.queue.length = N + 1 at hq
      rw [← watch_pool interval N t0 u s es] at hq
      have := readStep_rank hq s t (watch interval N t0 u s es).2 (fun now sp cur h => by rw [h] at hok; exact hok.2)
      simp only [watchStep, List.countP_append, List.countP_cons, List.countP_nil, Sum.isRight]
      simp only [Nat.zero_add, if_true]
      omega

/-- `GetBucketCountsSince` returned, or divided by zero. -/
def ReadPC.ended : ReadPC → Bool
  | .done _ | .panicked => true
  | _ => false
end BucketCounter

/-- **C87.** `GetBucketCountsSince` is wait-free too: on a counter of `N` buckets it takes at most 2 N + 6 steps, whatever the `UpdateN` calls
beside it do. -/
theorem C87_query (interval : Int) (N : Nat) (t0 : Int) (u : Bool) (startTime : Int) (es : List BucketCounter.WatchEv)
    (h : 2 * N + 6 ≤ es.countP Sum.isRight) : (BucketCounter.watch interval N t0 u startTime es).2.ended = true := by
  have := BucketCounter.watch_rank interval N t0 u startTime es
  have h0 : (BucketCounter.watch interval N t0 u startTime es).2.rank N = 0 := by omega
  cases hp : (BucketCounter.watch interval N t0 u startTime es).2 <;> rw [hp] at h0 <;> simp [BucketCounter.ReadPC.rank] at h0 <;> rfl

/-- A query on three buckets, beside an update: after ten steps it is not over, after twelve it is. -/
example :
    let es : List BucketCounter.WatchEv := [.inl (.spawn 1), .inl (.step 0 5000), .inr 5000, .inl (.step 0 5000), .inl (.step 0 5000)]
    let p n := (BucketCounter.watch 1000000000 3 0 true 0 (es ++ List.replicate n (.inr 5000))).2.ended
    p 9 = false ∧ p 11 = true := by decide +kernel

/-! ## What is not wait-free -/

namespace EWMA
theorem overtake (R : Rounding) (p : Pool Shared PC) (h : p.calls[0]? = some .load) (hu : InI64 p.shared.e.uncounted) :
    ∃ es : List (Ev Op Unit), turns 0 es = 2 ∧ ((EWMA.conc R).run p es).calls[0]? = some .load ∧ InI64 ((EWMA.conc R).run p es).shared.e.uncounted := by
  have h0 : 0 < p.calls.length := (List.getElem?_eq_some_iff.1 h).1
  have hne : p.calls.length ≠ 0 := by omega
  refine ⟨[.step 0 (), .spawn (.update 1), .step p.calls.length (), .step 0 ()], by simp [turns, hne], ?_⟩
  obtain ⟨s, cs⟩ := p
  cases cs with
  | nil => simp at h
  | cons c cs =>
    simp only [List.getElem?_cons_zero, Option.some.injEq] at h
    subst h
    have hov : i64 (s.e.uncounted + 1) ≠ s.e.uncounted := by
      simp only [InI64] at hu; unfold i64; omega
    simp [Machine.run, Machine.apply, EWMA.conc, EWMA.callStep, EWMA.update, hov, i64_in]

theorem overtaken (R : Rounding) (k : Nat) : ∃ es : List (Ev Op Unit), k ≤ turns 0 es ∧
    ((EWMA.conc R).run (Machine.start ⟨EWMA.zeroValue, false⟩) (.spawn .tick :: es)).calls[0]? = some .load ∧
    InI64 ((EWMA.conc R).run (Machine.start ⟨EWMA.zeroValue, false⟩) (.spawn .tick :: es)).shared.e.uncounted := by
  induction k with
  | zero => exact ⟨[], by simp, rfl, by simp [Machine.run, Machine.apply, Machine.start, EWMA.zeroValue, InI64]⟩
  | succ k ih =>
    obtain ⟨es, h1, h2, h3⟩ := ih
    obtain ⟨es', g1, g2, g3⟩ := overtake R _ h2 h3
    refine ⟨es ++ es', by rw [turns_append]; omega, ?_, ?_⟩
    · rw [← List.cons_append, Machine.run_append]; exact g2
    · rw [← List.cons_append, Machine.run_append]; exact g3
end EWMA

/-- **C87.** `Tick` of an average is not wait-free: `Update` calls can overtake its swap of the count any number of times. -/
theorem C87_tick_wait_free_refuted (R : Rounding) (k : Nat) : ¬ (EWMA.conc R).WaitFree ⟨EWMA.zeroValue, false⟩ EWMA.PC.ended k := by
  intro h
  obtain ⟨es, h1, h2, -⟩ := EWMA.overtaken R k
  obtain ⟨c, g1, g2⟩ := h [.spawn .tick] es 0 (by simp [Machine.run, Machine.apply, Machine.start]) h1
  rw [List.singleton_append, h2] at g1
  obtain rfl := Option.some.inj g1
  cases g2

namespace CompassConc
/-- Past `tickIfNecessary` and the increment. -/
def PC.ended : PC → Bool
  | .done _ => true
  | _ => false

theorem overtake (p : Pool Shared PC) {l : Nat} (h : p.calls[0]? = some (.load true l)) (hu : InI64 p.shared.uncounted) (hl : p.shared.lastTick = 10000000000) :
    ∃ es : List (Ev Bool Int), turns 0 es = 2 ∧ ((conc 1000000000).run p es).calls[0]? = some (.load true l) ∧
      InI64 ((conc 1000000000).run p es).shared.uncounted ∧ ((conc 1000000000).run p es).shared.lastTick = 10000000000 := by
  have h0 : 0 < p.calls.length := (List.getElem?_eq_some_iff.1 h).1
  have hne : p.calls.length ≠ 0 := by omega
  refine ⟨[.step 0 0, .spawn true, .step p.calls.length 0, .step p.calls.length 10000000000, .step p.calls.length 0, .step 0 0], by simp [turns, hne], ?_⟩
  obtain ⟨s, cs⟩ := p
  cases cs with
  | nil => simp at h
  | cons c cs =>
    simp only [List.getElem?_cons_zero, Option.some.injEq] at h
    subst h
    simp only at hl hu
    have hov : i64 (s.uncounted + 1) ≠ s.uncounted := by
      simp only [InI64] at hu; unfold i64; omega
    simp [Machine.run, Machine.apply, conc, callStep, hl, Compass.tickInterval, after, hov, i64_in]

theorem overtaken (k : Nat) : ∃ es : List (Ev Bool Int), k ≤ turns 0 es ∧
    ((conc 1000000000).run (Machine.start { lastTick := 0, uncounted := 0 }) (.spawn true :: .step 0 0 :: .step 0 10000000000 :: .step 0 0 :: es)).calls[0]? = some (.load true 1) ∧
    InI64 ((conc 1000000000).run (Machine.start { lastTick := 0, uncounted := 0 }) (.spawn true :: .step 0 0 :: .step 0 10000000000 :: .step 0 0 :: es)).shared.uncounted ∧
    ((conc 1000000000).run (Machine.start { lastTick := 0, uncounted := 0 }) (.spawn true :: .step 0 0 :: .step 0 10000000000 :: .step 0 0 :: es)).shared.lastTick = 10000000000 := by
  induction k with
  | zero =>
    refine ⟨[], by simp, by decide +kernel, ?_, by decide +kernel⟩
    have : ((conc 1000000000).run (Machine.start { lastTick := 0, uncounted := 0 }) [.spawn true, .step 0 0, .step 0 10000000000, .step 0 0]).shared.uncounted = 0 := by
      decide +kernel
    rw [this]; simp [InI64]
  | succ k ih =>
    obtain ⟨es, h1, h2, h3, h4⟩ := ih
    obtain ⟨es', g1, g2, g3, g4⟩ := overtake _ h2 h3 h4
    refine ⟨es ++ es', by rw [turns_append]; omega, ?_, ?_, ?_⟩
    all_goals simp only [← List.cons_append]; rw [Machine.run_append]; assumption
end CompassConc

/-- **C87.** Nor are `Update` and the rate getters of a compass: once in a while one of them has to take the count, and other `Update` calls can
overtake it any number of times. -/
theorem C87_compass_wait_free_refuted (k : Nat) : ¬ (CompassConc.conc 1000000000).WaitFree { lastTick := 0, uncounted := 0 } CompassConc.PC.ended k := by
  intro h
  obtain ⟨es, h1, h2, -⟩ := CompassConc.overtaken k
  obtain ⟨c, g1, g2⟩ := h [.spawn true] (.step 0 0 :: .step 0 10000000000 :: .step 0 0 :: es) 0 (by simp [Machine.run, Machine.apply, Machine.start])
    (by simp only [turns]; omega)
  rw [List.singleton_append, h2] at g1
  obtain rfl := Option.some.inj g1
  cases g2

end GoMetrics
