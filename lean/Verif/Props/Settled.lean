import Verif.Props.FairAppWild
/-! # C100, C113: what a program that has come to rest has counted -/
namespace GoMetrics
open Machine

namespace Guarded
variable {S A I L R Q K V : Type} (G : Guarded S A L I R Q K V)

/-- When all calls are over nobody holds the lock. -/
theorem idle (s0 : S) (es : List (Ev (A ⊕ Q) I)) (h : ∀ c ∈ (G.machine.run (Machine.start { obj := s0 }) es).calls, ended c = true) :
    (G.machine.run (Machine.start { obj := s0 }) es).shared.writer = false := by
  have hi : Inv G s0 (G.machine.run (Machine.start { obj := s0 }) es) := inv_run s0 es
  generalize G.machine.run (Machine.start { obj := s0 }) es = p at hi h
  have := hi.writer
  rw [List.filter_eq_nil_iff.2 (fun d hd => by
    have := h d hd
    cases d <;> first | (cases this; done) | simp [wHolds])] at this
  by_contra hne
  rw [if_pos (by simpa using hne)] at this
  simp at this

end Guarded


section
open AppConc Registry App

/-- **C100.** When a program has come to rest, the numbers of every compass that a finished `GetCompass` returned are exact: of all the calls ever begun through results of lookups of that key,
nothing is lost and nothing counted twice. -/
theorem C100_program_counts (R : Rounding) (A : EDR.Arith) (limits : List Int) (before : List (Event AppConc.Use NewEnvs)) (hes : SchedOk limits.length (regEvents before))
    (g : Nat → Event AppConc.Use NewEnvs) (hq : ∀ k, AppConc.Quiet (g k)) (hf : AppConc.FairTo R A limits before g) :
    ∃ m, ∀ k, m ≤ k → ∀ q r id p, q.kind = .compass → .done q r (.real id p) ∈ (AppConc.after R A limits before g k).pool.calls →
      ∃ bi c, (AppConc.after R A limits before g k).objs id = some (.bucket bi c) ∧
        let calls := AppConc.updates (usesThrough limits q.target q.name.hash (before ++ (List.range k).map g))
        let m := c.shared.marks.shared
        m.total.getCount = i64 calls.length ∧
        m.success.getCount = i64 (calls.countP fun e => e.2.isSuccess) ∧
        (∀ code b, (m.lab false).counters.get? code = some b → b.getCount = i64 (calls.countP fun e => e.2.errorCode = code)) ∧
        c.shared.res.shared.getCount = i64 (calls.map Prod.fst).sum := by
  obtain ⟨m, hm⟩ := C100_program R A limits before hes g hq hf
  refine ⟨m, fun k hk q r id p hkind hmem => ?_⟩
  have hes' := AppConc.schedOk_after limits before g hes hq k
  have hpool : (AppConc.after R A limits before g k).pool = regRun limits (regEvents (before ++ (List.range k).map g)) := by
    unfold AppConc.after
    rw [run_pool]
  obtain ⟨-, hrest⟩ := hm k hk
  obtain ⟨o, ho, hover⟩ := hrest q r id p hmem
  rw [hpool] at hmem
  obtain ⟨l1, -, c1, h1, -, -, -, -, -, -, -, -, -, hno⟩ := C99_anytime R A limits _ hes' q hkind r id p hmem
  obtain ⟨l2, -, c2, h2, hall⟩ := C99_quiescent R A limits _ hes' q hkind r id p hmem
  rw [h1] at h2
  obtain ⟨e1, e2⟩ := AppConc.Obj.bucket.inj (Option.some.inj h2)
  subst e2
  change (AppConc.after R A limits before g k).objs id = _ at h1
  rw [ho] at h1
  obtain rfl := Option.some.inj h1
  obtain ⟨a1, a2, a3, -, -, a6⟩ := hall (by
    intro d hd
    have hend : d.ended = true := hover _ (List.mem_map_of_mem hd)
    obtain ⟨n1, n2⟩ := hno d hd
    obtain ⟨use, pc⟩ := d
    cases pc <;> first | rfl | (cases hend; done) | exact absurd rfl (n1 _ _ _) | exact absurd rfl (n2 _ _))
  exact ⟨_, _, ho, a1, a2, a3, a6⟩

/-- **C100.** And what every fast compass that a finished `GetFastCompass` returned then holds is what all the `Record` calls ever begun through results of lookups of that key leave
behind, each made once and one after the other: none is lost and none is made twice. -/
theorem C100_program_fast (R : Rounding) (A : EDR.Arith) (limits : List Int) (before : List (Event AppConc.Use NewEnvs)) (hes : SchedOk limits.length (regEvents before))
    (g : Nat → Event AppConc.Use NewEnvs) (hq : ∀ k, AppConc.Quiet (g k)) (hf : AppConc.FairTo R A limits before g) :
    ∃ m, ∀ k, m ≤ k → ∀ q r id p, q.kind = .fast → .done q r (.real id p) ∈ (AppConc.after R A limits before g k).pool.calls →
      ∃ l f, ∃ hist : List FastCompass.Rec, AppConc.Asked limits (before ++ (List.range k).map g) q l ∧ (AppConc.after R A limits before g k).objs id = some (.fast f) ∧
        (hist.map fun r => (⟨r.duration, r.subCategory⟩ : FastCompassConc.Arg)).Perm (AppConc.records (usesThrough limits q.target q.name.hash (before ++ (List.range k).map g))) ∧
        f.shared.obj = (FastCompass.new (levelNanos l) 10 20).run hist := by
  obtain ⟨m, hm⟩ := C100_program R A limits before hes g hq hf
  refine ⟨m, fun k hk q r id p hkind hmem => ?_⟩
  have hes' := AppConc.schedOk_after limits before g hes hq k
  have hpool : (AppConc.after R A limits before g k).pool = regRun limits (regEvents (before ++ (List.range k).map g)) := by
    unfold AppConc.after
    rw [run_pool]
  obtain ⟨-, hrest⟩ := hm k hk
  obtain ⟨o, ho, hover⟩ := hrest q r id p hmem
  rw [hpool] at hmem
  obtain ⟨l, hl, f, h1, ⟨hist, -, hp, hh⟩, -, -⟩ := C99_fast R A limits _ hes' q hkind r id p hmem
  obtain ⟨l2, -, -, h2⟩ := AppConc.behind_fast R A limits _ hes' q hkind r id p hmem
  change (AppConc.after R A limits before g k).objs id = _ at h1 h2
  rw [ho] at h1 h2
  obtain rfl := Option.some.inj h1
  have hf := AppConc.Obj.fast.inj (Option.some.inj h2)
  have hend : ∀ c ∈ f.calls, Guarded.ended c = true := fun c hc => hover _ (List.mem_map_of_mem hc)
  refine ⟨l, f, hist, hl, ho, hp hend, hh ?_⟩
  rw [hf]
  rw [hf] at hend
  exact Guarded.idle _ _ _ hend

/-- A program meets the hypotheses: a `Record` is under way and gets its turns; in the end the fast compass holds what that one `Record` leaves behind. -/
example (R : Rounding) (A : EDR.Arith) : ∃ m, ∀ k, m ≤ k → ∃ l f, ∃ t t0 : Int, (AppConc.after R A [10] AppConc.recBefore AppConc.recLater k).objs 0 = some (.fast f) ∧
    f.shared.obj = (FastCompass.new (levelNanos l) 10 20).run [⟨t0, t, 1000000, "a"⟩] := by
  obtain ⟨h1, h2, h3, -⟩ := AppConc.rec_meets R A
  obtain ⟨m, hm⟩ := C100_program_fast R A [10] AppConc.recBefore h1 AppConc.recLater h2 h3
  refine ⟨m, fun k hk => ?_⟩
  obtain ⟨l, f, hist, -, h5, h6, h7⟩ := hm k hk { target := .direct 0, kind := .fast, name := { hash := [107] } } (some 0) 0 _ rfl
    (by rw [(AppConc.rec_state R A k).1]; exact List.mem_singleton_self _)
  have hrec : ∀ n, AppConc.records (usesThrough [10] (.direct 0) [107] (AppConc.recBefore ++ (List.range n).map AppConc.recLater)) = [⟨1000000, "a"⟩] := by
    intro n
    induction n with
    | zero => decide +kernel
    | succ n ih =>
      rw [List.range_succ, List.map_append, ← List.append_assoc, List.map_singleton, usesThrough_snoc]
      unfold AppConc.records at ih ⊢
      rw [List.filterMap_append, ih]
      unfold AppConc.recLater
      by_cases hn : n % 2 = 0
      · rw [if_pos hn]; rfl
      · rw [if_neg hn]
        dsimp only
        split
        · split <;> rfl
        · rfl
  change (hist.map fun r => (⟨r.duration, r.subCategory⟩ : FastCompassConc.Arg)).Perm (AppConc.records (usesThrough [10] (.direct 0) [107] _)) at h6
  rw [hrec k, List.perm_singleton] at h6
  match hist, h6 with
  | [⟨t0, t, d, c⟩], h6 =>
    simp at h6
    obtain ⟨rfl, rfl⟩ := h6
    exact ⟨l, f, t, t0, h5, h7⟩

end

section
open AppWild Registry App

/-- **C113.** And what every fast compass that a finished `GetFastCompass` returned then holds is what all the `Record` calls ever begun through results of lookups of that key leave
behind, each made once and one after the other: none is lost and none is made twice. -/
theorem C113_settles_fast (R : Rounding) (A : EDR.Arith) (limits : List Int) (before : List (Event AppWild.Use NewEnvs)) (hes : SchedOk limits.length (regEvents before))
    (g : Nat → Event AppWild.Use NewEnvs) (hq : ∀ k, AppWild.Quiet (g k)) (hb : ∀ e ∈ before, Rings e) (hx : ∀ k, Rings (g k)) (hf : AppWild.FairTo R A limits before g) :
    ∃ m, ∀ k, m ≤ k → ∀ q r id p, q.kind = .fast → .done q r (.real id p) ∈ (AppWild.after R A limits before g k).pool.calls →
      ∃ l f, ∃ hist : List FastCompass.Rec, AppWild.Asked limits (before ++ (List.range k).map g) q l ∧ (AppWild.after R A limits before g k).objs id = some (.fast f) ∧
        (hist.map fun r => (⟨r.duration, r.subCategory⟩ : FastCompassConc.Arg)).Perm (AppWild.records (usesThrough limits q.target q.name.hash (before ++ (List.range k).map g))) ∧
        f.shared.obj = (FastCompass.new (levelNanos l) 10 20).run hist := by
  obtain ⟨m, hm⟩ := C113_settles R A limits before hes g hq hb hx hf
  refine ⟨m, fun k hk q r id p hkind hmem => ?_⟩
  have hes' := AppWild.schedOk_after limits before g hes hq k
  have hpool : (AppWild.after R A limits before g k).pool = regRun limits (regEvents (before ++ (List.range k).map g)) := by
    unfold AppWild.after
    rw [run_pool]
  obtain ⟨-, hrest⟩ := hm k hk
  obtain ⟨o, ho, hover⟩ := hrest q r id p hmem
  rw [hpool] at hmem
  obtain ⟨l, hl, f, h1, ⟨hist, -, hp, hh⟩, -, -⟩ := C113_fast R A limits _ hes' q hkind r id p hmem
  obtain ⟨l2, -, -, h2⟩ := AppWild.behind_fast R A limits _ hes' q hkind r id p hmem
  change (AppWild.after R A limits before g k).objs id = _ at h1 h2
  rw [ho] at h1 h2
  obtain rfl := Option.some.inj h1
  have hf := AppConc.Obj.fast.inj (Option.some.inj h2)
  have hend : ∀ c ∈ f.calls, Guarded.ended c = true := fun c hc => hover _ (List.mem_map_of_mem hc)
  refine ⟨l, f, hist, hl, ho, hp hend, hh ?_⟩
  rw [hf]
  rw [hf] at hend
  exact Guarded.idle _ _ _ hend

end
end GoMetrics
