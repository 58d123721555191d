import Verif.Proofs.CompassConc
/-! # C30: concurrent `Update` calls and rate reads of a compass -/
namespace GoMetrics
open CompassConc

namespace CompassConc
theorem Inv.conservation {p : Pool Shared PC} (hi : Inv p) :
    p.shared.uncounted = i64 ((p.calls.count (.done true)) - p.shared.taken.sum) := by
  have h : ∀ l : List PC, (l.map PC.added).sum = (l.count (.done true) : Int) := by
    intro l
    induction l with
    | nil => rfl
    | cons c l ih =>
      rw [List.map_cons, List.sum_cons, ih, List.count_cons]
      cases c with
      | done upd => cases upd <;> simp [PC.added] ; omega
      | _ => simp [PC.added]
  rw [← h]
  exact hi.pending

theorem Inv.exactly_once {p : Pool Shared PC} (hi : Inv p) (hdone : ∀ c ∈ p.calls, ∃ upd, c = .done upd) :
    (p.shared.fed1.Perm p.shared.taken ∧ p.shared.fed5.Perm p.shared.taken ∧ p.shared.fed15.Perm p.shared.taken) ∧
    i64 (p.shared.fed1.sum + p.shared.uncounted) = i64 (p.calls.count (.done true)) ∧
    i64 (p.shared.fed5.sum + p.shared.uncounted) = i64 (p.calls.count (.done true)) ∧
    i64 (p.shared.fed15.sum + p.shared.uncounted) = i64 (p.calls.count (.done true)) := by
  have hcons := hi.conservation
  have hnil : ∀ f : PC → List Int, (∀ upd, f (.done upd) = []) → ∀ l : List PC, (∀ c ∈ l, ∃ upd, c = .done upd) →
      l.flatMap f = [] := by
    intro f hf l hl
    rw [List.flatMap_eq_nil_iff]
    intro c hc
    obtain ⟨upd, rfl⟩ := hl c hc
    exact hf upd
  have p1 : p.shared.fed1.Perm p.shared.taken := by
    have := hi.h1
    rw [hnil PC.hand1 (fun _ => rfl) _ hdone] at this
    simp only [Multiset.coe_nil, add_zero] at this
    exact (Multiset.coe_eq_coe.1 this).symm
  have p5 : p.shared.fed5.Perm p.shared.taken := by
    have := hi.h5
    rw [hnil PC.hand5 (fun _ => rfl) _ hdone] at this
    simp only [Multiset.coe_nil, add_zero] at this
    exact (Multiset.coe_eq_coe.1 this).symm
  have p15 : p.shared.fed15.Perm p.shared.taken := by
    have := hi.h15
    rw [hnil PC.hand15 (fun _ => rfl) _ hdone] at this
    simp only [Multiset.coe_nil, add_zero] at this
    exact (Multiset.coe_eq_coe.1 this).symm
  refine ⟨⟨p1, p5, p15⟩, ?_⟩
  rw [p1.sum_eq, p5.sum_eq, p15.sum_eq]
  have key : i64 (p.shared.taken.sum + p.shared.uncounted) = i64 (p.calls.count (.done true)) := by
    rw [hcons]
    generalize p.shared.taken.sum = B
    generalize (p.calls.count (.done true) : Int) = A
    unfold i64; omega
  exact ⟨key, key, key⟩

theorem Inv.schedule {p : Pool Shared PC} {I t0 : Int} (hi : Inv p) (hc : Chain t0 p.shared.wins p.shared.lastTick) (hw : ∀ w ∈ p.shared.wins, Good I w)
    (hdone : ∀ c ∈ p.calls, ∃ upd, c = .done upd) :
    5000000000 * (p.shared.fed1.length : Int) ≤ p.shared.lastTick - t0 ∧
      (I = 5000000000 → 5000000000 * (p.shared.fed1.length : Int) = p.shared.lastTick - t0) := by
  have hg := chain_good hc hw
  have ht := hi.ticks
  have hz : ∀ l : List PC, (∀ c ∈ l, ∃ upd, c = .done upd) → (l.map fun c => (c.due : Int)).sum = 0 := by
    intro l hl
    induction l with
    | nil => rfl
    | cons c l ih =>
      obtain ⟨upd, rfl⟩ := hl c (by simp)
      rw [List.map_cons, List.sum_cons, ih fun c hc => hl c (List.mem_cons_of_mem _ hc)]
      rfl
  rw [hz _ hdone] at ht
  have hlen := (hi.exactly_once hdone).1.1.length_eq
  obtain ⟨a, b, -, -⟩ := hg
  rw [ht, ← hlen] at a b
  simp only [add_zero] at a b
  refine ⟨by omega, fun h => by have := b h; omega⟩
end CompassConc

/-- **C30.** In every interleaving of any number of `Update` calls and rate reads, whatever the clock says: what is pending is the
number of increments performed so far minus everything taken out so far. -/
theorem C30_conservation (I t0 : Int) (es : List (Ev Bool Int)) :
    let p := (conc I).run (Machine.start { lastTick := t0, uncounted := 0 }) es
    p.shared.uncounted = i64 ((p.calls.count (.done true)) - p.shared.taken.sum) :=
  (inv_all I t0 es).conservation

/-- **C30.** Whenever all calls are over, each of the three averages has been fed exactly the counts taken out (in some order), so
what it was fed plus what is pending is the number of `Update` calls. -/
theorem C30_exactly_once (I t0 : Int) (es : List (Ev Bool Int))
    (hdone : ∀ c ∈ ((conc I).run (Machine.start { lastTick := t0, uncounted := 0 }) es).calls, ∃ upd, c = .done upd) :
    let p := (conc I).run (Machine.start { lastTick := t0, uncounted := 0 }) es
    (p.shared.fed1.Perm p.shared.taken ∧ p.shared.fed5.Perm p.shared.taken ∧ p.shared.fed15.Perm p.shared.taken) ∧
    i64 (p.shared.fed1.sum + p.shared.uncounted) = i64 (p.calls.count (.done true)) ∧
    i64 (p.shared.fed5.sum + p.shared.uncounted) = i64 (p.calls.count (.done true)) ∧
    i64 (p.shared.fed15.sum + p.shared.uncounted) = i64 (p.calls.count (.done true)) :=
  (inv_all I t0 es).exactly_once hdone

/-- **C30.** If the bucket interval divides 5 s (e.g. 1 s or 5 s) and clock readings are non-negative - they may otherwise go up and down
arbitrarily - then in every interleaving each value of the tick clock is replaced by at most one call: the replaced values are strictly
increasing. -/
theorem C30_one_winner (I : Int) (hI : 0 < I) (hd : I ∣ 5000000000) (t0 : Int) (h0 : 0 ≤ t0 ∧ t0 < 2 ^ 63)
    (es : List (Ev Bool Int)) (hes : ∀ i x, Ev.step i x ∈ es → 0 ≤ x ∧ x < 2 ^ 63) :
    (((conc I).run (Machine.start { lastTick := t0, uncounted := 0 }) es).shared.wins.map Prod.fst).Pairwise (· < ·) :=
  (chain_good (chain_all I t0 es) (good_all hI hd t0 h0 es hes).wins).2.2.1

/-- **C30, C29 under concurrency.** If all calls are over, each average has ticked at most once per 5 s the tick clock advanced, and
exactly once if the bucket interval is 5 s. -/
theorem C30_schedule (I : Int) (hI : 0 < I) (hd : I ∣ 5000000000) (t0 : Int) (h0 : 0 ≤ t0 ∧ t0 < 2 ^ 63)
    (es : List (Ev Bool Int)) (hes : ∀ i x, Ev.step i x ∈ es → 0 ≤ x ∧ x < 2 ^ 63)
    (hdone : ∀ c ∈ ((conc I).run (Machine.start { lastTick := t0, uncounted := 0 }) es).calls, ∃ upd, c = .done upd) :
    let s := ((conc I).run (Machine.start { lastTick := t0, uncounted := 0 }) es).shared
    5000000000 * (s.fed1.length : Int) ≤ s.lastTick - t0 ∧
      (I = 5000000000 → 5000000000 * (s.fed1.length : Int) = s.lastTick - t0) :=
  (inv_all I t0 es).schedule (chain_all I t0 es) (good_all hI hd t0 h0 es hes).wins hdone

/-- Two updates and a rate read; the read and the second update both see 11 s, the read wins the swap of the tick clock, takes the one
pending event while the other update has yet to add its own, and ticks twice. -/
example :
    let p := (conc 5000000000).run (Machine.start { lastTick := 0, uncounted := 0 })
      ([.spawn true, .step 0 0, .step 0 0, .step 0 0, .spawn false, .spawn true,
       .step 1 0, .step 2 0, .step 1 11000000000, .step 2 11000000000, .step 1 0, .step 2 0, .step 1 0, .step 1 0, .step 2 0,
       .step 1 0, .step 1 0, .step 1 0, .step 1 0, .step 1 0, .step 1 0, .step 1 0, .step 1 0] : List (Ev Bool Int))
    p.calls = [.done true, .done false, .done true] ∧ p.shared.fed1 = [1, 1] ∧ p.shared.lastTick = 10000000000 := by decide

/-- **C30.** With the 60 s bucket interval the last part is false: two reads of the clock at 12 s both swap the tick clock from 0 to 0, both
"win" the same advance, and both tick twice. -/
theorem C30_one_winner_refuted :
    ((conc 60000000000).run (Machine.start { lastTick := 0, uncounted := 0 })
      ([.spawn false, .spawn false, .step 0 0, .step 1 0, .step 0 12000000000, .step 1 12000000000, .step 0 0, .step 1 0] :
        List (Ev Bool Int))).shared.wins = [(0, 0, 2), (0, 0, 2)] := by decide

end GoMetrics
