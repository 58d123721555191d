import Verif.Props.Alone
import Verif.Props.UniformConc
import Verif.Props.FastCompassConc
/-! # C91 for the objects behind a mutex, and for snapshots and histories of fast compasses -/
namespace GoMetrics
open Machine

/-- **C91.** `UpdateN` of a uniform reservoir, not interrupted: the random words were drawn in the call. -/
theorem C91_uniform_update (p : Pool (Guard UniformReservoir Int Int Bool) (GuardPC Int UniformConc.WPC Int Bool UniformConc.Query UniformConc.RPC UniformConc.Answer))
    (v : Int) (xs : List Int) (c) (hc : (UniformConc.guarded.machine.run p (.spawn (.inl v) :: xs.map (Ev.step p.calls.length))).calls[p.calls.length]? = some c)
    (hover : Guarded.ended c = true) :
    ∃ words : List Int, (∀ w ∈ words, w ∈ xs) ∧
      (UniformConc.guarded.machine.run p (.spawn (.inl v) :: xs.map (Ev.step p.calls.length))).shared.obj = (p.shared.obj.updateN words v).state ∧
      c = .wDone v (p.shared.obj.updateN words v).panicked := by
  obtain ⟨ys, o, r, g1, g2, g3, -, -, rfl⟩ := Wlp.spawned xs (UniformConc.guarded.wlp_write (· ∈ xs) p.shared v) UniformConc.guarded.ended_idle hc hover
  obtain ⟨words, w1, w2, -⟩ := UniformConc.alone_eq g2
  refine ⟨words, fun w hw => g1 w (w1 w hw), ?_, ?_⟩
  · rw [w2, g3]; cases r <;> rfl
  · rw [w2]; cases r <;> rfl

/-- **C91.** `Size` and `GetSnapshot` of a uniform reservoir, not interrupted. -/
theorem C91_uniform_read (p : Pool (Guard UniformReservoir Int Int Bool) (GuardPC Int UniformConc.WPC Int Bool UniformConc.Query UniformConc.RPC UniformConc.Answer))
    (q : UniformConc.Query) (xs : List Int) (c)
    (hc : (UniformConc.guarded.machine.run p (.spawn (.inr q) :: xs.map (Ev.step p.calls.length))).calls[p.calls.length]? = some c) (hover : Guarded.ended c = true) :
    (UniformConc.guarded.machine.run p (.spawn (.inr q) :: xs.map (Ev.step p.calls.length))).shared = p.shared ∧
      (q = .size → c = .rDone q (.size p.shared.obj.size)) ∧ (q = .snapshot → c = .rDone q (.snapshot p.shared.obj.getSnapshot)) := by
  obtain ⟨v, g1, g2, rfl⟩ := Wlp.spawned xs (UniformConc.guarded.wlp_read (· ∈ xs) p.shared q) UniformConc.guarded.ended_idle hc hover
  exact ⟨g2, by rintro rfl; rw [UniformConc.sees_size g1], by rintro rfl; rw [UniformConc.sees_snapshot g1]⟩

/-- **C91.** `Record` of a fast compass, not interrupted: the clock readings were made in the call. -/
theorem C91_fast_record (p : Pool (Guard FastCompass FastCompassConc.Arg Int Bool)
      (GuardPC FastCompassConc.Arg (FastCompassConc.Arg × FastCompassConc.RecPC) Int Bool Empty Empty Empty))
    (a : FastCompassConc.Arg) (xs : List Int) (c)
    (hc : (FastCompassConc.guarded.machine.run p (.spawn (.inl a) :: xs.map (Ev.step p.calls.length))).calls[p.calls.length]? = some c) (hover : Guarded.ended c = true) :
    ∃ t0 ∈ xs, ∃ t ∈ xs,
      (FastCompassConc.guarded.machine.run p (.spawn (.inl a) :: xs.map (Ev.step p.calls.length))).shared.obj =
        (p.shared.obj.record ⟨t0, t, a.duration, a.subCategory⟩).state ∧
      c = .wDone a (p.shared.obj.record ⟨t0, t, a.duration, a.subCategory⟩).panicked := by
  obtain ⟨ys, o, r, g1, g2, g3, -, -, rfl⟩ := Wlp.spawned xs (FastCompassConc.guarded.wlp_write (· ∈ xs) p.shared a) FastCompassConc.guarded.ended_idle hc hover
  obtain ⟨t0, t, h1, h2, h3⟩ := FastCompassConc.alone_record g2
  refine ⟨t0, g1 _ h1, t, g1 _ h2, ?_, ?_⟩
  · rw [h3, g3]; cases r <;> rfl
  · rw [h3]; cases r <;> rfl

/-- **C91.** A history of `Record` calls on a fast compass that do not overlap leaves what the sequential model says. -/
theorem C91_fast_history (fc : FastCompass) (h : List (FastCompassConc.Arg × List Int))
    (hover : ∀ c ∈ (FastCompassConc.guarded.machine.run (Guarded.init fc) (serial 0 (h.map fun e => (Sum.inl e.1, e.2)))).calls, Guarded.ended c = true) :
    ∃ hist : List FastCompass.Rec, List.Forall₂ (fun r x => r.duration = x.1.duration ∧ r.subCategory = x.1.subCategory ∧ r.t0 ∈ x.2 ∧ r.t ∈ x.2) hist h ∧
      (FastCompassConc.guarded.machine.run (Guarded.init fc) (serial 0 (h.map fun e => (Sum.inl e.1, e.2)))).shared.obj = fc.run hist := by
  have hf := serial_follows (M := FastCompassConc.guarded.machine) (over := Guarded.ended) (ok := fun _ => True) (Inv := fun _ => True)
    (Rel := fun s a xs s' => ∃ b, a = Sum.inl b ∧ ∃ t0 ∈ xs, ∃ t ∈ xs, s'.obj = (s.obj.record ⟨t0, t, b.duration, b.subCategory⟩).state)
    (fun p a xs c _ _ hc ho => ⟨by
      cases a with
      | inr e => exact nomatch e
      | inl b =>
        obtain ⟨t0, h1, t, h2, h3, -⟩ := C91_fast_record p b xs c hc ho
        exact ⟨b, rfl, t0, h1, t, h2, h3⟩, trivial⟩)
    (h.map fun e => (Sum.inl e.1, e.2)) (Guarded.init fc) trivial (fun _ _ => trivial) (fun i _ c hc => hover c (List.mem_of_getElem? hc))
  obtain ⟨hist, h1, h2⟩ := hf.fold Guard.obj (fun (f : FastCompass) (r : FastCompass.Rec) => (f.record r).state)
    (fun a xs r => ∃ b, a = Sum.inl b ∧ r.duration = b.duration ∧ r.subCategory = b.subCategory ∧ r.t0 ∈ xs ∧ r.t ∈ xs)
    (by
      rintro s a xs s' ⟨b, rfl, t0, h1, t, h2, h3⟩
      exact ⟨⟨t0, t, b.duration, b.subCategory⟩, ⟨b, rfl, rfl, rfl, h1, h2⟩, h3⟩)
  refine ⟨hist, ?_, h2⟩
  rw [List.forall₂_map_right_iff] at h1
  refine h1.imp ?_
  rintro r x ⟨b, hb, h⟩
  obtain rfl := Sum.inl.inj hb
  exact h

/-- Two `Record` calls one after the other: the hypothesis of the history theorem is met. -/
example : ∀ c ∈ (FastCompassConc.guarded.machine.run (Guarded.init (FastCompass.new 1000000000 10 20))
    (serial 0 ([(⟨5000000, "a"⟩, List.replicate 20 7000), (⟨6000000, "a"⟩, List.replicate 20 7000)].map fun e => (Sum.inl e.1, e.2)))).calls,
    Guarded.ended c = true := by decide +kernel

end GoMetrics
