import Verif.Proofs.Alone
import Verif.Props.Progress
import Verif.Props.UniformConc
import Verif.Props.FastCompassConc
/-! # A call that nobody interrupts: the parts -/
namespace GoMetrics
open Machine

/-! ## Bucket counter -/
namespace BucketCounter

theorem ended_idle (b : BucketCounter) (t : Int) (c : Call) (h : c.ended = true) : conc.step b t c = (b, c) := by
  obtain ⟨n, pc⟩ := c
  cases pc <;> simp [Call.ended] at h <;> rfl

/-- What `UpdateN(n)` on `b` may leave, with readings that satisfy `P`. -/
def Leaves (P : Int → Prop) (b : BucketCounter) (n : Int) (b' : BucketCounter) (c : Call) : Prop :=
  ∃ t, P t ∧ b' = (b.updateN t n).state ∧ (c.pc = .panicked ↔ (b.updateN t n).panicked = true)

theorem wlp_updateN (P : Int → Prop) (b : BucketCounter) (n : Int) :
    conc.Wlp Call.ended P (Leaves P b n) b ⟨n, .start⟩ := by
  refine Wlp.step _ rfl fun _ _ => ?_
  refine Wlp.step _ rfl fun t ht => ?_
  change conc.Wlp _ _ _ (callStep (b.bumpTotal n) t ⟨n, .clock⟩).1 (callStep (b.bumpTotal n) t ⟨n, .clock⟩).2
  simp only [callStep]
  cases ha : alignTimestamp (b.bumpTotal n).interval t with
  | none =>
    refine Wlp.now _ rfl ⟨t, ht, ?_, ?_⟩ <;> simp only [updateN, ha, Res.state, Res.panicked]
  | some ts =>
    simp only
    have hu : b.updateN t n = .ok ((b.bumpTotal n).credit ts n) := by simp only [updateN, ha]
    generalize b.bumpTotal n = b1 at hu ⊢
    have fin : ∀ b' p, b' = b1.credit ts n → conc.Wlp Call.ended P (Leaves P b n) b' ⟨n, .done ts p⟩ := by
      rintro b' p rfl
      exact Wlp.now _ rfl ⟨t, ht, by rw [hu]; rfl, by rw [hu]; simp⟩
    by_cases hl : ts > (b1.heap.at b1.latestBucket).timestamp
    · refine Wlp.step' _ (fun _ => (b1, ⟨n, .cas ts b1.latestBucket⟩)) rfl (fun x => by simp [conc, callStep, hl]) fun _ _ => ?_
      refine Wlp.step' _ (fun _ => ({ b1 with heap := b1.heap ++ [⟨ts, 0⟩], latestBucket := b1.heap.length }, ⟨n, .q1 ts b1.heap.length⟩)) rfl
        (fun x => by simp [conc, callStep]) fun _ _ => ?_
      refine Wlp.step _ rfl fun _ _ => ?_
      refine Wlp.step _ rfl fun _ _ => ?_
      refine Wlp.step _ rfl fun _ _ => ?_
      refine Wlp.step _ rfl fun _ _ => ?_
      refine Wlp.step _ rfl fun _ _ => ?_
      apply fin
      simp only [credit, if_pos hl]
      rfl
    · refine Wlp.step' _ (fun _ => (b1, ⟨n, .add ts b1.latestBucket⟩)) rfl (fun x => by simp [conc, callStep, hl]) fun _ _ => ?_
      refine Wlp.step _ rfl fun _ _ => ?_
      apply fin
      simp only [credit, if_neg hl]
      rfl

/-- The query, as a machine of its own: it writes nothing. -/
def query (startTime : Int) : Machine BucketCounter ReadPC Unit Int where
  call _ := .clock
  step b t c := (b, readStep startTime b t c)

/-- What a query on `b` may answer, with readings that satisfy `P`. -/
def Answers (P : Int → Prop) (b : BucketCounter) (startTime : Int) (b' : BucketCounter) (c : ReadPC) : Prop :=
  b' = b ∧ ∃ t, P t ∧ c = match b.getBucketCountsSince t startTime with
    | none => .panicked
    | some r => .done r

theorem wlp_query (P : Int → Prop) (b : BucketCounter) (s : Int) : (query s).Wlp ReadPC.ended P (Answers P b s) b .clock := by
  refine Wlp.step _ rfl fun t ht => ?_
  simp only [query, readStep]
  cases ha : alignTimestamp b.interval t with
  | none => exact Wlp.now _ rfl ⟨rfl, t, ht, by simp [getBucketCountsSince, ha]⟩
  | some now =>
    simp only
    refine Wlp.step _ rfl fun _ _ => ?_
    refine Wlp.step _ rfl fun _ _ => ?_
    refine Wlp.step _ rfl fun _ _ => ?_
    change (query s).Wlp _ _ _ b (.slots now (b.heap.at (b.buckets.slot b.buckets.current)).timestamp _ _ [])
    have hcounts : ∀ todo result, todo.foldl (collect b.heap s now) result = (b.buckets.getBucketList b.heap).foldl (collect b.heap s now) [] →
        (query s).Wlp ReadPC.ended P (Answers P b s) b (.counts now todo result) := by
      intro todo
      induction todo with
      | nil =>
        intro result h
        refine Wlp.step _ rfl fun _ _ => ?_
        refine Wlp.now _ rfl ⟨rfl, t, ht, ?_⟩
        simp only [getBucketCountsSince, ha, ← h, List.foldl_nil]
        rfl
      | cons p todo ih =>
        intro result h
        refine Wlp.step _ rfl fun _ _ => ?_
        exact ih _ h
    have hsecond : ∀ second acc,
        acc ++ (second.map b.buckets.slot).filter (fun p => (b.heap.at p).timestamp ≤ (b.heap.at (b.buckets.slot b.buckets.current)).timestamp)
          = b.buckets.getBucketList b.heap →
        (query s).Wlp ReadPC.ended P (Answers P b s) b (.slots now (b.heap.at (b.buckets.slot b.buckets.current)).timestamp [] second acc) := by
      intro second
      induction second with
      | nil =>
        intro acc h
        refine Wlp.step _ rfl fun _ _ => ?_
        refine hcounts acc [] ?_
        rw [← h]; simp
      | cons i second ih =>
        intro acc h
        refine Wlp.step _ rfl fun _ _ => ?_
        refine ih _ ?_
        rw [← h]
        simp only [List.map_cons, List.filter_cons]
        by_cases hi : (b.heap.at (b.buckets.slot i)).timestamp ≤ (b.heap.at (b.buckets.slot b.buckets.current)).timestamp <;> simp [hi]
    have hfirst : ∀ first second acc,
        acc ++ first.map b.buckets.slot ++
          (second.map b.buckets.slot).filter (fun p => (b.heap.at p).timestamp ≤ (b.heap.at (b.buckets.slot b.buckets.current)).timestamp)
          = b.buckets.getBucketList b.heap →
        (query s).Wlp ReadPC.ended P (Answers P b s) b (.slots now (b.heap.at (b.buckets.slot b.buckets.current)).timestamp first second acc) := by
      intro first
      induction first with
      | nil => intro second acc h; exact hsecond second acc (by simpa using h)
      | cons i first ih =>
        intro second acc h
        refine Wlp.step _ rfl fun _ _ => ?_
        exact ih _ _ (by rw [← h]; simp)
    exact hfirst _ _ [] (by simp [Deque.getBucketList])

end BucketCounter

/-! ## Moving average -/
namespace EWMA

theorem wlp_enter (R : Rounding) (P : Unit → Prop) (s : Shared) (own : Bool) (n : Int) (stop : PC → Bool) (h1 : ∀ o c, stop (.enter o c) = false)
    (h2 : ∀ o c i, stop (.read o c i) = false) (h3 : ∀ o c i v, stop (.store o c i v) = false) (h4 : ∀ o c, stop (.setInit o c) = false)
    (h5 : ∀ o c, stop (.unlock o c) = false) (h6 : ∀ o c, stop (.done o c) = true) :
    (conc R).Wlp stop P (fun s' c => s' = ⟨s.e.tickN R n, false⟩ ∧ s.held = false ∧ c = .done own n) s (.enter own n) := by
  obtain ⟨e, held⟩ := s
  cases held with
  | true => exact Wlp.blocked _ (h1 _ _) fun _ => rfl
  | false =>
    refine Wlp.step' _ (fun _ => (⟨e, true⟩, .read own n (e.instantRate R n))) (h1 _ _) (fun _ => rfl) fun _ _ => ?_
    refine Wlp.step' _ (fun _ => (⟨e, true⟩, .store own n e.initialized (newRate R e.initialized e.alpha e.rate (e.instantRate R n)))) (h2 _ _ _)
      (fun _ => rfl) fun _ _ => ?_
    refine Wlp.step _ (h3 _ _ _ _) fun _ _ => ?_
    cases hi : e.initialized with
    | true =>
      change (conc R).Wlp _ _ _ ⟨{ e with rate := newRate R true e.alpha e.rate (e.instantRate R n) }, true⟩ (.unlock own n)
      refine Wlp.step' _ (fun _ => (⟨{ e with rate := newRate R true e.alpha e.rate (e.instantRate R n) }, false⟩, .done own n)) (h5 _ _)
        (fun _ => rfl) fun _ _ => ?_
      refine Wlp.now _ (h6 _ _) ⟨?_, rfl, rfl⟩
      simp [tickN, hi]
    | false =>
      change (conc R).Wlp _ _ _ ⟨{ e with rate := newRate R false e.alpha e.rate (e.instantRate R n) }, true⟩ (.setInit own n)
      refine Wlp.step' _ (fun _ => (⟨{ e with rate := newRate R false e.alpha e.rate (e.instantRate R n), initialized := true }, true⟩, .unlock own n)) (h4 _ _)
        (fun _ => rfl) fun _ _ => ?_
      refine Wlp.step' _ (fun _ => (⟨{ e with rate := newRate R false e.alpha e.rate (e.instantRate R n), initialized := true }, false⟩, .done own n)) (h5 _ _)
        (fun _ => rfl) fun _ _ => ?_
      refine Wlp.now _ (h6 _ _) ⟨?_, rfl, rfl⟩
      simp [tickN, hi]

theorem wlp_call (R : Rounding) (P : Unit → Prop) (s : Shared) (op : Op) :
    (conc R).Wlp PC.ended P (fun s' _ => s'.e = s.e.step R op ∧ s'.held = s.held) s ((conc R).call op) := by
  cases op with
  | update n =>
    refine Wlp.step _ rfl fun _ _ => ?_
    exact Wlp.now _ rfl ⟨rfl, rfl⟩
  | tickN n =>
    refine (wlp_enter R P s false n PC.ended ?_ ?_ ?_ ?_ ?_ ?_).mono ?_ <;> try (intros; rfl)
    rintro s' c - ⟨rfl, h, -⟩
    exact ⟨rfl, h.symm⟩
  | tick =>
    refine Wlp.step _ rfl fun _ _ => ?_
    refine Wlp.step' _ (fun _ => (⟨{ s.e with uncounted := 0 }, s.held⟩, .enter true s.e.uncounted)) rfl (fun _ => by simp [conc, callStep]) fun _ _ => ?_
    refine (wlp_enter R P _ true _ PC.ended ?_ ?_ ?_ ?_ ?_ ?_).mono ?_ <;> try (intros; rfl)
    rintro s' c - ⟨rfl, h, -⟩
    exact ⟨rfl, h.symm⟩

theorem ended_idle (R : Rounding) (s : Shared) (x : Unit) (c : PC) (h : c.ended = true) : (conc R).step s x c = (s, c) := by
  cases c <;> simp [PC.ended] at h <;> rfl

end EWMA

/-! ## Decaying reservoir -/
namespace EDRConc

theorem ended_idle (A : EDR.Arith) (s : Shared) (x : In) (c : PC) (h : c.ended = true) : (machine A).step s x c = (s, c) := by
  cases c <;> simp [PC.ended] at h <;> rfl

/-- After `rescaleIfNeeded`. -/
theorem wlp_rescale (A : EDR.Arith) (P : In → Prop) (Q : Shared → PC → Prop) (s : Shared) (act : Act)
    (h : ∀ x y : In, P x → P y → ∀ log, (machine A).Wlp PC.ended P Q ⟨s.rsv.rescaleIfNeeded A x.tick y.time, log⟩ (after act)) :
    (machine A).Wlp PC.ended P Q s (.tick act) := by
  refine Wlp.step _ rfl fun x hx => ?_
  change (machine A).Wlp _ _ _ s (.check act x.tick)
  by_cases hd : s.rsv.nextScaleTime ≤ x.tick
  · refine Wlp.step' _ (fun _ => (s, .reread act x.tick s.rsv.nextScaleTime)) rfl (fun _ => by simp [machine, callStep, hd]) fun _ _ => ?_
    refine Wlp.step _ rfl fun _ _ => ?_
    refine Wlp.step' _ (fun _ => (⟨{ s.rsv with nextScaleTime := i64 (x.tick + EDR.rescaleThreshold) }, (x.tick, s.rsv.nextScaleTime) :: s.log⟩, .lockScale act))
      rfl (fun _ => by simp [machine, callStep]) fun _ _ => ?_
    refine Wlp.step _ rfl fun y hy => ?_
    have := h x y hx hy ((x.tick, s.rsv.nextScaleTime) :: s.log)
    rw [EDR.rescaleIfNeeded, if_pos hd] at this
    exact this
  · refine Wlp.step' _ (fun _ => (s, after act)) rfl (fun _ => by simp [machine, callStep, hd]) fun y hy => ?_
    have := h x y hx hy s.log
    rw [EDR.rescaleIfNeeded, if_neg hd] at this
    exact this

theorem wlp_updateN (A : EDR.Arith) (P : In → Prop) (s : Shared) (v : Int) :
    (machine A).Wlp PC.ended P (fun s' c => ∃ x1 x2 x3 x4 : In, (P x1 ∧ P x2 ∧ P x3 ∧ P x4) ∧
      s'.rsv = (s.rsv.updateN A ⟨x1.tick, x2.time, x3.time, x4.u⟩ v).state ∧
      (((s.rsv.updateN A ⟨x1.tick, x2.time, x3.time, x4.u⟩ v).panicked = true ∧ c = .panicked v) ∨
        ((s.rsv.updateN A ⟨x1.tick, x2.time, x3.time, x4.u⟩ v).panicked = false ∧ ∃ ts u k, c = .updated v ts u k))) s (.tick (.updateN v)) := by
  refine wlp_rescale A P _ s (.updateN v) fun x y hx hy log => ?_
  change (machine A).Wlp _ _ _ ⟨s.rsv.rescaleIfNeeded A x.tick y.time, log⟩ (.time v)
  refine Wlp.step _ rfl fun z hz => ?_
  refine Wlp.step _ rfl fun u hu => ?_
  have e : ∀ w : In, (machine A).step ⟨s.rsv.rescaleIfNeeded A x.tick y.time, log⟩ w
      ((machine A).step ⟨s.rsv.rescaleIfNeeded A x.tick y.time, log⟩ u (.weigh v (EDR.currentTimeInSecond z.time))).2 =
      match s.rsv.updateN A ⟨x.tick, y.time, z.time, u.u⟩ v with
      | .ok r => (⟨r, log⟩, .updated v (EDR.currentTimeInSecond z.time) u.u
          ((s.rsv.rescaleIfNeeded A x.tick y.time).startTime - (s.rsv.rescaleIfNeeded A x.tick y.time).startTime))
      | .panic r => (⟨r, log⟩, .panicked v) := fun _ => rfl
  refine Wlp.step' _ _ rfl e fun w _ => ?_
  cases hr : s.rsv.updateN A ⟨x.tick, y.time, z.time, u.u⟩ v with
  | ok r =>
    refine Wlp.now _ rfl ⟨x, y, z, u, ⟨hx, hy, hz, hu⟩, ?_, ?_⟩
    · rw [hr]; rfl
    · rw [hr]; simp
  | panic r =>
    refine Wlp.now _ rfl ⟨x, y, z, u, ⟨hx, hy, hz, hu⟩, ?_, ?_⟩
    · rw [hr]; rfl
    · rw [hr]; simp

theorem wlp_snapshot (A : EDR.Arith) (P : In → Prop) (s : Shared) :
    (machine A).Wlp PC.ended P (fun s' c => ∃ x1 x2 : In, (P x1 ∧ P x2) ∧ s'.rsv = s.rsv.afterSnapshot A x1.tick x2.time ∧
      c = .snapshot (s.rsv.afterSnapshot A x1.tick x2.time).getValues) s (.tick .getSnapshot) := by
  refine wlp_rescale A P _ s .getSnapshot fun x y hx hy log => ?_
  refine Wlp.step _ rfl fun z hz => ?_
  exact Wlp.now _ rfl ⟨x, y, ⟨hx, hy⟩, rfl, rfl⟩

theorem wlp_size (A : EDR.Arith) (P : In → Prop) (s : Shared) :
    (machine A).Wlp PC.ended P (fun s' c => s' = s ∧ c = .sized s.rsv.getSize) s .size1 := by
  by_cases h : s.rsv.size > s.rsv.count
  · refine Wlp.step' _ (fun _ => (s, .size2)) rfl (fun _ => by simp [machine, callStep, h]) fun _ _ => ?_
    refine Wlp.step _ rfl fun _ _ => ?_
    exact Wlp.now _ rfl ⟨rfl, by simp [EDR.getSize, h, machine, callStep]⟩
  · refine Wlp.step' _ (fun _ => (s, .sized s.rsv.size)) rfl (fun _ => by simp [machine, callStep, h]) fun _ _ => ?_
    exact Wlp.now _ rfl ⟨rfl, by simp [EDR.getSize, h]⟩

end EDRConc

/-! ## Objects guarded by a lock -/
namespace Guarded
variable {S A L I R Q K V : Type} (G : Guarded S A L I R Q K V)

theorem ended_idle (s : Guard S A I R) (x : I) (c : GuardPC A L I R Q K V) (h : ended c = true) : G.machine.step s x c = (s, c) := by
  cases c <;> simp [ended] at h <;> rfl

theorem til_write (P : I → Prop) (a : A) : ∀ n (s : Guard S A I R) (ins : List I) (l : L),
    G.machine.Til ended P (fun s' c => ∃ xs o r, (∀ x ∈ xs, P x) ∧ G.Alone s.obj l xs o r ∧ s'.obj = o ∧ s'.writer = false ∧ s'.readers = s.readers ∧
      c = .wDone a r) n s (.wIn a ins l) := by
  intro n
  induction n with
  | zero => intro s ins l h; cases h
  | succ n ih =>
    intro s ins l
    refine ⟨fun h => (by cases h), fun _ x hx => ?_⟩
    rcases hw : G.wstep s.obj x l with ⟨o, l' | r⟩
    · have e : G.machine.step s x (.wIn a ins l) = ({ s with obj := o }, .wIn a (ins ++ [x]) l') := by simp only [machine, callStep, hw]
      rw [e]
      have := ih { s with obj := o } (ins ++ [x]) l'
      refine Til.mono this ?_
      rintro s' c - ⟨xs, o', r, g1, g2, g3⟩
      exact ⟨x :: xs, o', r, by simpa using ⟨hx, g1⟩, .more hw g2, g3⟩
    · have e : G.machine.step s x (.wIn a ins l) = ({ s with obj := o, log := s.log ++ [(a, ins ++ [x], r)] }, .wOut a r) := by
        simp only [machine, callStep, hw]
      rw [e]
      have : G.machine.Wlp ended P (fun s' c => ∃ xs o r, (∀ x ∈ xs, P x) ∧ G.Alone s.obj l xs o r ∧ s'.obj = o ∧ s'.writer = false ∧ s'.readers = s.readers ∧
          c = .wDone a r) { s with obj := o, log := s.log ++ [(a, ins ++ [x], r)] } (.wOut a r) := by
        refine Wlp.step _ rfl fun _ _ => ?_
        exact Wlp.now _ rfl ⟨[x], o, r, by simpa using hx, .last hw, rfl, rfl, rfl, rfl⟩
      exact this n

theorem wlp_write (P : I → Prop) (s : Guard S A I R) (a : A) :
    G.machine.Wlp ended P (fun s' c => ∃ xs o r, (∀ x ∈ xs, P x) ∧ G.Alone s.obj (G.enter a) xs o r ∧ s'.obj = o ∧ s'.writer = s.writer ∧ s'.readers = s.readers ∧
      c = .wDone a r) s (.wWait a) := by
  by_cases h : s.writer = true ∨ 0 < s.readers
  · exact Wlp.blocked _ rfl fun x => by simp only [machine, callStep, if_pos h]
  · refine Wlp.step' _ (fun _ => ({ s with writer := true }, .wIn a [] (G.enter a))) rfl (fun x => by simp only [machine, callStep, if_neg h]) fun _ _ => ?_
    have hw : s.writer = false := by
      cases hh : s.writer with
      | false => rfl
      | true => exact absurd (.inl hh) h
    refine Wlp.mono (fun n => G.til_write P a n _ _ _) ?_
    rintro s' c - ⟨xs, o, r, g1, g2, g3, g4, g5⟩
    exact ⟨xs, o, r, g1, g2, g3, by rw [g4, hw], g5⟩

theorem til_read (P : I → Prop) (q : Q) : ∀ n (s : Guard S A I R) (k : K),
    G.machine.Til ended P (fun s' c => ∃ v, G.Sees s.obj k v ∧ s' = { s with readers := s.readers - 1 } ∧ c = .rDone q v) n s (.rIn q k) := by
  intro n
  induction n with
  | zero => intro s k h; cases h
  | succ n ih =>
    intro s k
    refine ⟨fun h => (by cases h), fun _ x hx => ?_⟩
    rcases hw : G.rstep s.obj k with k' | v
    · have e : G.machine.step s x (.rIn q k) = (s, .rIn q k') := by simp only [machine, callStep, hw]
      rw [e]
      refine Til.mono (ih s k') ?_
      rintro s' c - ⟨v, g1, g2⟩
      exact ⟨v, .more hw g1, g2⟩
    · have e : G.machine.step s x (.rIn q k) = (s, .rOut q v) := by simp only [machine, callStep, hw]
      rw [e]
      have : G.machine.Wlp ended P (fun s' c => ∃ v, G.Sees s.obj k v ∧ s' = { s with readers := s.readers - 1 } ∧ c = .rDone q v) s (.rOut q v) := by
        refine Wlp.step _ rfl fun _ _ => ?_
        exact Wlp.now _ rfl ⟨v, .last hw, rfl, rfl⟩
      exact this n

theorem wlp_read (P : I → Prop) (s : Guard S A I R) (q : Q) :
    G.machine.Wlp ended P (fun s' c => ∃ v, G.Sees s.obj (G.look q) v ∧ s' = s ∧ c = .rDone q v) s (.rWait q) := by
  by_cases h : s.writer = true
  · exact Wlp.blocked _ rfl fun x => by simp only [machine, callStep, if_pos h]
  · refine Wlp.step' _ (fun _ => ({ s with readers := s.readers + 1 }, .rIn q (G.look q))) rfl (fun x => by simp only [machine, callStep, if_neg h]) fun _ _ => ?_
    refine Wlp.mono (fun n => G.til_read P q n _ _) ?_
    rintro s' c - ⟨v, g1, rfl, g3⟩
    exact ⟨v, g1, by simp, g3⟩

end Guarded
end GoMetrics
