import Verif.Props.BucketReader
import Verif.Props.FastCompass
/-! # C82 — the packed values of a fast compass, read while `Record` calls run

The counter of one category: every update is `UpdateN(2^38 + ms)` (impl/default_fast_compass.go:104). -/
namespace GoMetrics
open Spec BucketCounter

namespace FastCompass
/-- The durations (whole ms) credited to interval `ts` in a list of credits of packed amounts. -/
def msOf (l : List (Int × Int)) (ts : Int) : List Int := (l.filter (fun e => e.1 = ts)).map (fun e => e.2 - 2 ^ 38)

theorem amount_packed (l : List (Int × Int)) (ts : Int) : amount l ts = 2 ^ 38 * number l ts + (msOf l ts).sum := by
  unfold amount number msOf
  induction l with
  | nil => simp
  | cons e l ih =>
    by_cases h : e.1 = ts
    · simp only [List.filter_cons, h, decide_true, if_true, List.map_cons, List.sum_cons, List.length_cons, ih]
      push_cast; ring
    · simp only [List.filter_cons, h, decide_false, if_false]; simpa using ih

/-- What a call has to add was asked for when it was started. -/
theorem calls_spawned (interval : Int) (N : Nat) (t0 : Int) (u : Bool) (es : List (Ev Int Int)) :
    ∀ c ∈ (after interval N t0 u es).calls, Ev.spawn c.n ∈ es := by
  unfold after
  induction es using List.reverseRecOn with
  | nil => simp [Machine.run, Machine.start]
  | append_singleton es e ih =>
    rw [Machine.run_snoc]
    generalize conc.run (Machine.start (BucketCounter.new interval N t0 u)) es = p at *
    cases e with
    | spawn a =>
      intro c hc
      simp only [Machine.apply, List.mem_append, List.mem_singleton] at hc
      rcases hc with hc | rfl
      · have := ih c hc; simp [this]
      · simp [conc]
    | step i x =>
      intro c hc
      cases h : p.calls[i]? with
      | none => simp only [Machine.apply, h] at hc; have := ih c hc; simp [this]
      | some d =>
        obtain ⟨pre, post, h1, _, h2⟩ := conc.apply_step_eq (x := x) h
        rw [h2] at hc
        have hn : (callStep p.shared x d).2.n = d.n := by
          unfold callStep
          split <;> (try split) <;> rfl
        simp only [List.mem_append, List.mem_cons] at hc
        rcases hc with hc | rfl | hc
        · have := ih c (by rw [h1]; simp [hc]); simp [this]
        · have := ih d (by rw [h1]; simp); rw [show (conc.step p.shared x d).2.n = d.n from hn]; simp [this]
        · have := ih c (by rw [h1]; simp [hc]); simp [this]

end FastCompass
open FastCompass

/-- **C82.** Whatever the interleaving of `Record` calls for one category with a query, every value the query gets decodes into the number of calls and
the summed milliseconds of whole calls, both of the same moment while it was running (below the packing limits): no call is ever half counted. -/
theorem C82_whole_records (interval : Int) (N : Nat) (t0 : Int) (u : Bool) (s : Int) (hs : -1000 < s) (es : List WatchEv) (m : GoMap Int Int)
    (hes : ∀ n, Sum.inl (Ev.spawn n) ∈ es → ∃ d, 0 ≤ d ∧ n = packed d)
    (hm : (watch interval N t0 u s es).2 = .done m) :
    ∃ pre t post, es = pre ++ .inr t :: post ∧ (∀ e ∈ pre, e.isLeft = true) ∧
      ∀ k v, m.get? k = some v → ∃ ts post1 post2, k = 1000 * ts ∧ post = post1 ++ post2 ∧
        let c := credits (after interval N t0 u (updates (pre ++ .inr t :: post1)))
        (∀ x ∈ msOf c ts, 0 ≤ x) ∧
        ((msOf c ts).length < 2 ^ 26 → (msOf c ts).sum < 2 ^ 38 → countOf v = (msOf c ts).length ∧ rtOf v = (msOf c ts).sum) := by
  obtain ⟨-, -, pre, t, post, h1, h2, h3⟩ := C81_sound interval N t0 u s hs es m hm
  refine ⟨pre, t, post, h1, h2, fun k v hk => ?_⟩
  obtain ⟨ts, post1, post2, g1, -, -, -, g2, g3⟩ := h3 k v hk
  refine ⟨ts, post1, post2, g1, g2, ?_⟩
  have hnn : ∀ x ∈ msOf (credits (after interval N t0 u (updates (pre ++ .inr t :: post1)))) ts, 0 ≤ x := by
    intro x hx
    unfold msOf at hx
    obtain ⟨e, he, rfl⟩ := List.mem_map.1 hx
    have he := (List.mem_filter.1 he).1
    unfold credits at he
    obtain ⟨c, hc, hce⟩ := List.mem_filterMap.1 he
    have hn : e.2 = c.n := by
      unfold Call.credit at hce
      split at hce
      · rw [← Option.some.inj hce]
      · simp at hce
    have hsp := calls_spawned interval N t0 u _ c hc
    unfold updates at hsp
    obtain ⟨w, hw, hw'⟩ := List.mem_filterMap.1 hsp
    have hwes : Sum.inl (Ev.spawn c.n) ∈ es := by
      cases w with
      | inl w =>
        simp only [Sum.getLeft?_inl, Option.some.injEq] at hw'
        subst hw'
        rw [h1, g2]
        rcases List.mem_append.1 hw with hw | hw
        · simp [hw]
        · rcases List.mem_cons.1 hw with hw | hw
          · simp at hw
          · simp [hw]
      | inr w => simp at hw'
    obtain ⟨d, hd, hdn⟩ := hes _ hwes
    rw [hn, hdn]
    unfold packed countBase
    rw [Int.tdiv_eq_ediv_of_nonneg hd]
    have : 0 ≤ d / 1000000 := by positivity
    linarith
  intro c
  refine ⟨hnn, fun hc1 hc2 => ?_⟩
  have hpos : 0 ≤ (msOf c ts).sum := List.sum_nonneg hnn
  have hnum : number c ts = (msOf c ts).length := by unfold number msOf; rw [List.length_map]
  rw [g3, amount_packed, countOf_pack, rtOf_pack, hnum]
  rw [Int.ediv_eq_zero_of_lt hpos hc2, add_zero, Int.emod_eq_of_lt (by positivity) (by exact_mod_cast hc1), Int.emod_eq_of_lt hpos hc2]
  exact ⟨rfl, rfl⟩

namespace FastCompass
/-- Two `Record`s of 3 ms and 4 ms in one interval; the query loads the count between them. -/
def besidePacked : List WatchEv :=
  [.inl (.spawn (packed 3000000)), .inl (.spawn (packed 4999999))] ++ List.replicate 10 (.inl (.step 0 10000)) ++
    List.replicate 9 (.inr 10000) ++ List.replicate 10 (.inl (.step 1 11000)) ++ List.replicate 3 (.inr 0)
end FastCompass

/-- The hypotheses are met: the answer decodes to one call of 3 ms. -/
example : (watch 10000000000 3 0 false 0 besidePacked).2 = .done [(10000, packed 3000000)] ∧
    countOf (packed 3000000) = 1 ∧ rtOf (packed 3000000) = 3 := by decide +kernel

end GoMetrics
