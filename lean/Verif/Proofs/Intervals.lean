import Verif.Spec.Intervals
import Verif.Props.BucketWild
import Verif.Props.CompassWild
/-! # The parts that different intervals report do not overlap -/
namespace GoMetrics
open Spec

theorem Spec.ReportsPartsOf.mono {b : BucketCounter} {l l' : List Int} (h : ReportsPartsOf b l) (hl : l.Subperm l') : ReportsPartsOf b l' := by
  intro view t s m hm
  obtain ⟨part, h1, h2⟩ := h view t s m hm
  exact ⟨part, h1, fun ks hk hks => (h2 ks hk hks).trans hl⟩

theorem subperm_map {α β : Type} (f : α → β) {l l' : List α} (h : l.Subperm l') : (l.map f).Subperm (l'.map f) := by
  obtain ⟨l1, h1, h2⟩ := h
  exact ⟨l1.map f, h1.map f, h2.map f⟩

/-- Parts selected by exclusive conditions do not overlap. -/
theorem parts_subperm {α ι : Type} (f : ι → α → Bool) (hf : ∀ i j a, f i a = true → f j a = true → i = j) (is : List ι) (hi : is.Nodup) (l : List α) :
    (is.map fun i => l.filter (f i)).flatten.Subperm l := by
  classical
  induction is generalizing l with
  | nil => simpa using List.nil_subperm
  | cons i is ih =>
    rw [List.nodup_cons] at hi
    rw [List.map_cons, List.flatten_cons]
    have h := ih hi.2 (l.filter fun a => !f i a)
    have e : (is.map fun j => (l.filter fun a => !f i a).filter (f j)) = is.map fun j => l.filter (f j) := by
      apply List.map_congr_left
      intro j hj
      rw [List.filter_filter]
      apply List.filter_congr
      intro a _
      cases h1 : f j a with
      | false => simp
      | true =>
        cases h2 : f i a with
        | false => simp
        | true => exact absurd (hf i j a h2 h1 ▸ hj) hi.1
    rw [e] at h
    exact ((List.subperm_append_left _).2 h).trans (List.filter_append_perm _ _).subperm

theorem BucketCounter.reports_parts (interval : Int) (N : Nat) (t0 : Int) (u : Bool) (es : List (Ev Int BucketCounter.Seen)) :
    ReportsPartsOf (BucketCounter.wildAfter interval N t0 u es).shared ((BucketCounter.wildAfter interval N t0 u es).calls.map BucketCounter.Call.n) := by
  classical
  intro view t s m hm
  have hrep := C107_reported interval N t0 u es view t s m hm
  simp only at hrep
  generalize BucketCounter.wildAfter interval N t0 u es = p at *
  have hex : ∀ k, ∃ q, ∀ v, m.get? k = some v → k = 1000 * (p.shared.heap.at q).timestamp ∧ s ≤ k ∧ v = i64 (BucketCounter.addedTo q p.calls).sum := by
    intro k
    cases hk : m.get? k with
    | none => exact ⟨0, fun v hv => by simp at hv⟩
    | some v =>
      obtain ⟨q, hq⟩ := hrep k v hk
      exact ⟨q, fun v' hv' => by simp only [Option.some.injEq] at hv'; exact hv' ▸ hq⟩
  choose q hq using hex
  refine ⟨fun k => BucketCounter.addedTo (q k) p.calls, fun k v hk => ⟨(hq k v hk).2.2, (hq k v hk).2.1, _, (hq k v hk).1⟩, fun ks hnd hks => ?_⟩
  have hinj : (ks.map q).Nodup := by
    refine List.Nodup.map_on (fun k hk k' hk' e => ?_) hnd
    obtain ⟨v, hv⟩ := hks k hk
    obtain ⟨v', hv'⟩ := hks k' hk'
    rw [(hq k v hv).1, (hq k' v' hv').1, e]
  have := parts_subperm (fun (i : Nat) (c : BucketCounter.Call) => match c.pc with
    | .done _ p => decide (p = i)
    | _ => false) (by
      intro i j a h1 h2
      cases hpc : a.pc <;> simp only [hpc, decide_eq_true_eq, Bool.false_eq_true] at h1 h2
      omega) (ks.map q) hinj p.calls
  have h2 := subperm_map BucketCounter.Call.n this
  rw [List.map_flatten, List.map_map, List.map_map] at h2
  exact h2

namespace CompassWild
open CompassConc

/-- One `Update()` is one. -/
theorem sim_parts {I n t0 sel view b ms} (h : Sim I n t0 sel view b ms) (hdead : ∀ m ∈ ms, view m ≠ .dead)
    (hone : ∀ m ∈ ms, ∀ c, view m = .inside c → c.n = 1) : ReportsPartsOf b ((ms.filter sel).map fun _ => 1) := by
  obtain ⟨es, rfl, h2⟩ := h
  have h3 := BucketCounter.reports_parts I n t0 true es
  unfold BucketCounter.wildAfter at h3
  convert h3 using 1
  have hdead' : ∀ m ∈ ms.filter sel, view m ≠ .dead := fun m hm => hdead m (List.mem_filter.1 hm).1
  have hone' : ∀ m ∈ ms.filter sel, ∀ c, view m = .inside c → c.n = 1 := fun m hm => hone m (List.mem_filter.1 hm).1
  generalize (BucketCounter.wild.run (Machine.start (BucketCounter.new I n t0 true)) es).calls = cs at h2
  generalize ms.filter sel = l at h2 hdead' hone'
  induction h2 with
  | nil => rfl
  | @cons m c ms cs h1 h2 ih =>
    rw [List.map_cons, List.map_cons, ih (fun m hm => hdead' m (by simp [hm])) (fun m hm => hone' m (by simp [hm]))]
    congr 1
    have hd := hdead' m (by simp)
    have ho := hone' m (by simp)
    cases hv : view m with
    | before => rw [hv] at h1; cases h1; rfl
    | inside c' => rw [hv] at h1; cases h1; exact (ho c hv).symm
    | over => rw [hv] at h1; exact h1.1.symm
    | dead => exact absurd hv hd

/-- What the counters of a compass report for intervals. -/
theorem marks_parts (I : Int) (hI : 1000000000 ≤ I) (n : Nat) (maxErr maxAdd t1 t2 : Int) (es : List (Ev MarkArg BucketCounter.Seen)) :
    let p := wildMarked I n maxErr maxAdd t1 t2 es
    ReportsPartsOf p.shared.total (p.calls.map fun _ => 1) ∧
    ReportsPartsOf p.shared.success ((p.calls.filter fun m => m.arg.isSuccess).map fun _ => 1) ∧
    (∀ w k b, (p.shared.lab w).counters.get? k = some b → ReportsPartsOf b ((p.calls.filter fun m => m.arg.label w = k).map fun _ => 1)) := by
  intro p
  have h := minv_run I n maxErr maxAdd t1 t2 es
  have ha := alive_run I hI n maxErr maxAdd t1 t2 es
  change MInv I n maxErr maxAdd t1 t2 p at h
  change ∀ m ∈ p.calls, m.pc.alive at ha
  refine ⟨?_, ?_, ?_⟩
  · have := sim_parts h.total (fun m hm => alive_total (ha m hm)) (fun m hm => inside_total (h.one m hm))
    rwa [List.filter_true] at this
  · exact sim_parts h.success (fun m hm => alive_success (ha m hm)) (fun m hm => inside_success (h.one m hm))
  · intro w k b hb
    obtain ⟨t0, hs⟩ := (h.lab w).sim k b hb
    exact sim_parts hs (fun m hm => alive_stage (ha m hm) w) (fun m hm => inside_stage (h.one m hm) w)

end CompassWild
end GoMetrics
