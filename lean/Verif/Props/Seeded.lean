import Verif.Model.Seeded
import Verif.Props.UniformReservoir
import Verif.Props.EDRStep
/-! # C105 — random numbers drawn from the clock -/
namespace GoMetrics

namespace UniformReservoir

/-- A position of the reservoir: the update it holds the value of, if any. -/
def pick (vs : List Int) : Option Nat → Int
  | none => 0
  | some i => vs.getD i 0

theorem pick_snoc (vs : List Int) (v : Int) (o : Option Nat) (ho : ∀ i ∈ o, i < vs.length) : pick (vs ++ [v]) o = pick vs o := by
  cases o with
  | none => rfl
  | some i =>
    have := ho i rfl
    simp only [pick, List.getD_eq_getElem?_getD]
    rw [List.getElem?_append_left this]

theorem kept_aux (capacity : Nat) (ws : List (List Int)) : ∃ (n : Int) (kept : List (Option Nat)), (∀ o ∈ kept, ∀ i ∈ o, i < ws.length) ∧ kept.length = capacity ∧
    ∀ vs : List Int, vs.length = ws.length → (new capacity).run (vs.zip ws) = ⟨n, kept.map (pick vs)⟩ := by
  induction ws using List.reverseRecOn with
  | nil =>
    refine ⟨0, List.replicate capacity none, by simp, by simp, ?_⟩
    intro vs h
    simp [run, new, pick]
  | append_singleton ws w ih =>
    obtain ⟨n, kept, hk, hkl, h⟩ := ih
    -- the update's effect depends on the count, the length and the words only
    have key : ∃ (n' : Int) (set : Option Nat), ∀ (values : List Int) (v : Int), values.length = capacity →
        ((⟨n, values⟩ : UniformReservoir).updateN w v).state = ⟨n', match set with | none => values | some i => values.set i v⟩ := by
      refine ⟨i64 (n + 1), if i64 (n + 1) ≤ (capacity : Int) then
          (if i64 (i64 (n + 1) - 1) < 0 ∨ (capacity : Int) ≤ i64 (i64 (n + 1) - 1) then none else some (i64 (i64 (n + 1) - 1)).toNat)
        else match nextRandomPos (i64 (n + 1)) w with
          | none => none
          | some index => if index < (capacity : Int) then (if index < 0 then none else some index.toNat) else none, ?_⟩
      intro values v hl
      subst hl
      unfold updateN
      simp only
      by_cases h1 : i64 (n + 1) ≤ (values.length : Int)
      · rw [if_pos h1, if_pos h1]
        by_cases h2 : i64 (i64 (n + 1) - 1) < 0 ∨ (values.length : Int) ≤ i64 (i64 (n + 1) - 1)
        · rw [if_pos h2, if_pos h2]; rfl
        · rw [if_neg h2, if_neg h2]; rfl
      · rw [if_neg h1, if_neg h1]
        cases nextRandomPos (i64 (n + 1)) w with
        | none => rfl
        | some index =>
          simp only
          by_cases h2 : index < (values.length : Int)
          · rw [if_pos h2, if_pos h2]
            by_cases h3 : index < 0
            · rw [if_pos h3, if_pos h3]; rfl
            · rw [if_neg h3, if_neg h3]; rfl
          · rw [if_neg h2, if_neg h2]; rfl
    obtain ⟨n', set, hset⟩ := key
    refine ⟨n', match set with | none => kept | some i => kept.set i (some ws.length), ?_, ?_, ?_⟩
    · have h1 : ∀ o ∈ kept, ∀ i ∈ o, i < (ws ++ [w]).length := fun o ho i hi => by
        have := hk o ho i hi
        simp only [List.length_append, List.length_singleton]; omega
      cases set with
      | none => exact h1
      | some j =>
        intro o ho i hi
        rcases List.mem_or_eq_of_mem_set ho with ho | rfl
        · exact h1 o ho i hi
        · simp only [Option.mem_def, Option.some.injEq] at hi
          subst hi
          simp
    · cases set <;> simp [hkl]
    · intro vs hvs
      obtain ⟨vs, v, rfl⟩ : ∃ vs' v, vs = vs' ++ [v] := by
        have hne : vs ≠ [] := by rintro rfl; simp at hvs
        exact ⟨vs.dropLast, vs.getLast hne, (List.dropLast_append_getLast hne).symm⟩
      have hvs' : vs.length = ws.length := by simpa using hvs
      rw [List.zip_append hvs']
      unfold run
      rw [List.foldl_append]
      have h' := h vs hvs'
      unfold run at h'
      rw [h']
      simp only [List.zip_cons_cons, List.zip_nil_right, List.foldl_cons, List.foldl_nil]
      rw [hset _ _ (by simp [hkl])]
      have hmap : kept.map (pick (vs ++ [v])) = kept.map (pick vs) := List.map_congr_left fun o ho => pick_snoc vs v o (fun i hi => by rw [hvs']; exact hk o ho i hi)
      cases set with
      | none => simp only [hmap]
      | some j =>
        simp only [List.map_set, hmap]
        have : pick (vs ++ [v]) (some ws.length) = v := by
          simp [pick, List.getD_eq_getElem?_getD, ← hvs']
        rw [this]

end UniformReservoir

open UniformReservoir in
/-- **C105.** Which updates a uniform reservoir keeps is a function of the readings of `time.Now()` modulo 2³¹-1 alone: whatever the values, all reservoirs of one
capacity whose updates are made at the same readings (modulo 2³¹-1 nanoseconds) hold the values of the same updates. -/
theorem C105_uniform_positions (G : Generator) (hG : G.Documented) (capacity : Nat) (residues : List Int) :
    ∃ kept : List (Option Nat), kept.length = capacity ∧ ∀ (nanos vs : List Int), nanos.map (· % 2147483647) = residues → vs.length = nanos.length →
      ((UniformReservoir.new capacity).runAt G (nanos.zip vs)).values = kept.map fun o => match o with
        | none => 0
        | some i => vs.getD i 0 := by
  obtain ⟨n, kept, _, hl, h⟩ := kept_aux capacity (residues.map G.words)
  refine ⟨kept, hl, ?_⟩
  intro nanos vs hn hv
  have hw : nanos.map G.words = residues.map G.words := by
    subst hn
    rw [List.map_map]
    exact List.map_congr_left fun s _ => (hG s (s % 2147483647) (by rw [Int.emod_emod])).1
  have e : (UniformReservoir.new capacity).runAt G (nanos.zip vs) = (UniformReservoir.new capacity).run (vs.zip (nanos.map G.words)) := by
    unfold runAt run updateAt
    rw [List.zip_map_right, ← List.zip_swap, List.foldl_map, List.foldl_map]
    rfl
  rw [e, hw, h vs (by rw [← hw, List.length_map, hv])]
  simp only
  exact List.map_congr_left fun o _ => by cases o <;> rfl

namespace EDR

/-- One update, seen through the priorities held. -/
theorem admitted_keys {s : WeightedSample} {full : Prop} {l l' : List WeightedSample} (h : Admitted s full l l') :
    (¬ full → (l'.map (·.key)).toFinset = insert s.key (l.map (·.key)).toFinset) ∧ (full → l'.length = l.length) := by
  obtain ⟨h1, h2, h3, h4⟩ := h
  have hrep : ∀ l : List WeightedSample, (l.map fun x => if x.key = s.key then s else x).map (·.key) = l.map (·.key) := by
    intro l
    rw [List.map_map]
    exact List.map_congr_left fun x _ => by
      simp only [Function.comp_apply]
      split
      · rename_i hx; exact hx.symm
      · rfl
  constructor
  · intro hf
    by_cases hex : ∃ x ∈ l, x.key = s.key
    · rw [h2 (.inl hf) hex, hrep]
      obtain ⟨x, hx, hk⟩ := hex
      rw [Finset.insert_eq_of_mem]
      rw [List.mem_toFinset, List.mem_map]
      exact ⟨x, hx, hk⟩
    · have hp := h3 hf (fun x hx hk => hex ⟨x, hx, hk⟩)
      have := hp.map (·.key)
      rw [List.toFinset_eq_of_perm _ _ this]
      simp
  · intro hf
    by_cases hlow : ∃ x ∈ l, x.key.lt s.key
    · by_cases hex : ∃ x ∈ l, x.key = s.key
      · rw [h2 (.inr hlow) hex, List.length_map]
      · obtain ⟨low, rest, e, _, hp⟩ := h4 hf hlow (fun x hx hk => hex ⟨x, hx, hk⟩)
        rw [hp.length_eq, e]
        rfl
    · rw [h1 hf (fun x hx hlt => hlow ⟨x, hx, hlt⟩)]

theorem keys_card {r : EDR} {n : Int} (h : InvB r n) : (r.values.map (·.key)).toFinset.card = r.values.length := by
  have hnd : (r.values.map (·.key)).Nodup :=
    ((SkipList.sorted_iff_keys _).1 h.sorted).1.imp fun {x y} hlt heq => by rw [heq] at hlt; exact F64.lt_irrefl _ hlt
  rw [List.toFinset_card_of_nodup hnd, List.length_map]

/-- The number of samples after updates none of which is due to rescale. -/
theorem held_aux {A : Arith} (hA : A.Lawful) (a : ℚ) (us : List (Env × Int)) : ∀ (r : EDR) (n : Int), InvA r → InvB r n → r.alpha = .fin a → 1 ≤ r.size →
    n + us.length < 9223372036854775808 → (∀ e ∈ us, ∃ q : ℚ, e.1.u = .fin q ∧ 0 < q) → (∀ e ∈ us, e.1.tick < r.nextScaleTime) →
    (run A r (us.map fun e => .updateN e.1 e.2)).getValues.length =
      (r.values.map (·.key) ++ (us.take (r.size - r.getSize).toNat).map fun e => F64.div A.R (A.exp (F64.mul A.R (.fin a)
        (F64.ofInt A.R (i64 (e.1.time.tdiv 1000 - r.startTime))))) e.1.u).toFinset.card := by
  induction us with
  | nil =>
    intro r n _ hB _ _ _ _ _
    simp only [List.map_nil, List.take_nil, List.append_nil, run, List.foldl_nil]
    rw [keys_card hB, getValues_eq hB.keys]
  | cons e us ih =>
    intro r n hAi hB ha hsz hn hu ht
    obtain ⟨env, v⟩ := e
    obtain ⟨q, hq, hq0⟩ := hu (env, v) (by simp)
    have hdue := ht (env, v) (by simp)
    simp only at hq hdue
    simp only [List.length_cons] at hn
    push_cast at hn
    have hres : rescaleIfNeeded A r env.tick env.scaleTime = r := by unfold rescaleIfNeeded; rw [if_neg (by omega)]
    set w := weight A r.alpha (i64 (currentTimeInSecond env.time - r.startTime)) with hw
    have hup : updateN A r env v = record r (priority A w env.u) v w := by
      unfold updateN
      simp only [hres]
      rfl
    have hpn : priority A w env.u ≠ .nan := by rw [hq, hw, ha]; exact prio_ne_nan hA a _ hq0
    have hpp : (priority A w env.u).NonNeg := by rw [hq]; exact F64.nonNeg_div hA.rnd (hA.nonneg _) (F64.nonNeg_fin hq0.le)
    have hrec := record_admitted (w := w) hAi hB (by omega) (by have := hB.count_le; omega) hpn v
    have hB2 := invB_record (w := w) hB (by omega) (by omega) hpp hpn v
    have hA2 := (invA_record (w := w) hAi (by omega) hpp v).1
    have hst : (step A r (.updateN env v)).state = (record r (priority A w env.u) v w).state := by
      show (updateN A r env v).state = _
      rw [hup]
    have hfr := step_frame (A := A) r (.updateN env v)
    rw [hst] at hfr
    have hcnt : (record r (priority A w env.u) v w).state.count = r.count + 1 ∧ (record r (priority A w env.u) v w).state.nextScaleTime = r.nextScaleTime ∧
        (record r (priority A w env.u) v w).state.startTime = r.startTime := by
      have hi : i64 (r.count + 1) = r.count + 1 := by
        apply i64_of_in
        have := hB.count_le
        have := hAi.count
        unfold InI64 at this ⊢
        omega
      unfold record
      simp only [hi]
      split
      · exact ⟨rfl, rfl, rfl⟩
      · split
        · exact ⟨rfl, rfl, rfl⟩
        · split
          · exact ⟨rfl, rfl, rfl⟩
          · split <;> exact ⟨rfl, rfl, rfl⟩
    generalize hr' : (record r (priority A w env.u) v w).state = r' at *
    have hih := ih r' (n + 1) hA2 hB2 (hfr.1.trans ha) (by rw [hfr.2]; exact hsz) (by omega) (fun e he => hu e (by simp [he]))
      (fun e he => by rw [hcnt.2.1]; exact ht e (by simp [he]))
    have hrun : run A r (((env, v) :: us).map fun e => .updateN e.1 e.2) = run A r' (us.map fun e => .updateN e.1 e.2) := by
      simp only [List.map_cons, run, List.foldl_cons]
      rw [hst]
    rw [hrun, hih, hcnt.2.2, hfr.2]
    have hle := hB.le_count
    have hcl := hB.count_le
    by_cases hf : r.size ≤ r.count
    · have e1 : (r.size - r.getSize).toNat = 0 := by rw [getSize_eq]; omega
      have e2 : (r.size - r'.getSize).toNat = 0 := by rw [getSize_eq, hcnt.1, hfr.2]; omega
      rw [e1, e2]
      simp only [List.take_zero, List.map_nil, List.append_nil]
      rw [keys_card hB, keys_card hB2]
      exact (admitted_keys hrec.2).2 hf
    · have h0 : (0 : Int) ≤ r.count := le_trans (by omega) hle
      obtain ⟨k, hk⟩ : ∃ k : Nat, (r.size - r.getSize).toNat = k + 1 := ⟨(r.size - r.getSize).toNat - 1, by rw [getSize_eq]; omega⟩
      have e2 : (r.size - r'.getSize).toNat = k := by rw [getSize_eq] at hk ⊢; rw [hcnt.1, hfr.2]; omega
      rw [hk, e2, List.take_succ_cons, List.map_cons, List.toFinset_append, List.toFinset_append, (admitted_keys hrec.2).1 hf, List.toFinset_cons]
      simp only [Finset.insert_union, Finset.union_insert]
      rw [hw, ha]
      rfl

end EDR
open EDR

/-- **C105.** How many samples a decaying reservoir holds. After any history with positive draws in which the landmark never moves back so far that the factor overflows,
let `us` be updates none of which is due to rescale. The reservoir then holds as many samples as there are different priorities among those it held
and those of the updates made while `Size()` was below the capacity. (The rounding and `math.Exp` are any lawful ones.) -/
theorem C105_held (A : Arith) (hA : A.Lawful) (size : Int) (hsz : 1 ≤ size) (a : ℚ) (time tick : Int) (h : List Op)
    (hf : (time :: scaleTimes h).Pairwise fun s t => scalingFactor A (.fin a) (s.tdiv 1000) (t.tdiv 1000) ≠ .inf false)
    (hu : ∀ u ∈ EDR.draws h, ∃ q : ℚ, u = .fin q ∧ 0 < q) (us : List (Env × Int)) (hu' : ∀ e ∈ us, ∃ q : ℚ, e.1.u = .fin q ∧ 0 < q)
    (hn : (h.length : Int) + us.length < 9223372036854775808) :
    let r := run A (new size (.fin a) time tick) h
    (∀ e ∈ us, e.1.tick < r.nextScaleTime) →
    (run A r (us.map fun e => .updateN e.1 e.2)).getValues.length =
      (r.getValues.map (·.key) ++ (us.take (size - r.getSize).toNat).map fun e =>
        F64.div A.R (A.exp (F64.mul A.R (.fin a) (F64.ofInt A.R (i64 (e.1.time.tdiv 1000 - r.startTime))))) e.1.u).toFinset.card := by
  intro r ht
  have hB := invB_run hA a h _ 0 time (invB_new size (by omega) (.fin a) time tick) le_rfl rfl hsz rfl hf hu (by omega)
  have hAi := (invA_run hA h _ (invA_new size (.fin a) time tick) hsz fun u hu' => by
    obtain ⟨q, rfl, hq⟩ := hu u hu'
    exact F64.nonNeg_fin hq.le).1
  obtain ⟨fa, fs⟩ := run_frame A h (new size (.fin a) time tick)
  have hsr : r.size = size := fs
  have hBr : InvB r (0 + h.length) := hB
  have := held_aux hA a us r (0 + h.length) hAi hBr fa (by rw [hsr]; exact hsz) (by omega) hu' ht
  rw [this, getValues_eq hBr.keys, hsr]

/-- **C105.** Once `Size()` reports the capacity, the number of samples held stays what it is until the next rescale. -/
theorem C105_never_grows (A : Arith) (hA : A.Lawful) (size : Int) (hsz : 1 ≤ size) (a : ℚ) (time tick : Int) (h : List Op)
    (hf : (time :: scaleTimes h).Pairwise fun s t => scalingFactor A (.fin a) (s.tdiv 1000) (t.tdiv 1000) ≠ .inf false)
    (hu : ∀ u ∈ EDR.draws h, ∃ q : ℚ, u = .fin q ∧ 0 < q) (us : List (Env × Int)) (hu' : ∀ e ∈ us, ∃ q : ℚ, e.1.u = .fin q ∧ 0 < q)
    (hn : (h.length : Int) + us.length < 9223372036854775808) :
    let r := run A (new size (.fin a) time tick) h
    (∀ e ∈ us, e.1.tick < r.nextScaleTime) → r.getSize = size →
    (run A r (us.map fun e => .updateN e.1 e.2)).getValues.length = r.getValues.length := by
  intro r ht hs
  have h1 := C105_held A hA size hsz a time tick h hf hu us hu' hn ht
  have h2 := C105_held A hA size hsz a time tick h hf hu [] (by simp) (by simp only [List.length_nil]; omega) (by simp)
  have hs' : (run A (new size (.fin a) time tick) h).getSize = size := hs
  rw [hs', sub_self] at h1 h2
  exact h1.trans h2.symm

/-- **C105.** So a decaying reservoir cannot distinguish measurements by what happens within a clock reading: updates made in the same second at readings of `time.Now()` that are
equal, or differ by a multiple of 2³¹-1 ns, have the same priority, and a new reservoir never holds more samples than there are different pairs (second, reading modulo
2³¹-1) among its first `size` updates, until the first rescale. -/
theorem C105_readings (A : Arith) (hA : A.Lawful) (G : Generator) (hG : G.Documented) (size : Int) (hsz : 1 ≤ size)
    (a : ℚ) (time tick : Int) (us : List Timed) (hn : (us.length : Int) < 9223372036854775808) (ht : ∀ e ∈ us, e.tick < i64 (tick + 3600000000000))
    (hpos : ∀ e ∈ us, ∃ q : ℚ, G.float e.nano = .fin q ∧ 0 < q) :
    ((new size (.fin a) time tick).runAt A G us).getValues.length ≤
      ((us.take size.toNat).map fun e => (e.time.tdiv 1000, e.nano % 2147483647)).toFinset.card := by
  have e0 : (new size (.fin a) time tick).runAt A G us =
      run A (new size (.fin a) time tick) ((us.map fun e => ((⟨e.tick, e.scaleTime, e.time, G.float e.nano⟩ : Env), e.value)).map fun e => .updateN e.1 e.2) := by
    unfold runAt run updateAt
    rw [List.map_map, List.foldl_map]
    rfl
  have h := C105_held A hA size hsz a time tick [] (by simp [scaleTimes]) (by simp [EDR.draws]) (us.map fun e => ((⟨e.tick, e.scaleTime, e.time, G.float e.nano⟩ : Env), e.value))
    (by simp only [List.mem_map]; rintro _ ⟨e, he, rfl⟩; exact hpos e he) (by simp only [List.length_nil, List.length_map]; omega)
    (by simp only [List.mem_map]; rintro _ ⟨e, he, rfl⟩; exact ht e he)
  have hnil : run A (new size (.fin a) time tick) [] = new size (.fin a) time tick := rfl
  rw [hnil] at h
  rw [e0, h]
  have hv : (new size (.fin a) time tick).getValues = [] := rfl
  have hg : (new size (.fin a) time tick).getSize = 0 := by rw [getSize_eq]; show min 0 size = 0; omega
  rw [hv, hg, sub_zero, List.map_nil, List.nil_append, ← List.map_take, List.map_map]
  have himg : ((us.take size.toNat).map ((fun e : Env × Int => F64.div A.R (A.exp (F64.mul A.R (.fin a)
        (F64.ofInt A.R (i64 (e.1.time.tdiv 1000 - (new size (.fin a) time tick).startTime))))) e.1.u) ∘
        fun e : Timed => ((⟨e.tick, e.scaleTime, e.time, G.float e.nano⟩ : Env), e.value))).toFinset =
      (((us.take size.toNat).map fun e => (e.time.tdiv 1000, e.nano % 2147483647)).toFinset).image fun p =>
        F64.div A.R (A.exp (F64.mul A.R (.fin a) (F64.ofInt A.R (i64 (p.1 - (new size (.fin a) time tick).startTime))))) (G.float p.2) := by
    ext x
    simp only [List.mem_toFinset, List.mem_map, Finset.mem_image, Function.comp_apply, exists_exists_and_eq_and]
    constructor
    · rintro ⟨e, he, rfl⟩
      exact ⟨e, he, by rw [(hG e.nano (e.nano % 2147483647) (by rw [Int.emod_emod])).2]⟩
    · rintro ⟨e, he, rfl⟩
      exact ⟨e, he, by rw [(hG e.nano (e.nano % 2147483647) (by rw [Int.emod_emod])).2]⟩
  rw [himg]
  exact Finset.card_image_le

theorem EDR.burst_new {size : Int} (hsz : 1 ≤ size) {alpha : F64} (time tick : Int) (p w : F64) (v : Int) :
    (record (new size alpha time tick) p v w).state = { new size alpha time tick with count := 1, values := [⟨p, v, w⟩] } := by
  have hi : i64 ((new size alpha time tick).count + 1) = 1 := by show i64 (0 + 1) = 1; decide
  unfold record
  simp only [hi]
  rw [if_pos (by show (1 : Int) ≤ size; exact hsz)]
  rfl

theorem EDR.burst_step {r : EDR} {p w : F64} {v0 : Int} (hp : p ≠ .nan) (hpp : p.NonNeg) (hv : r.values = [⟨p, v0, w⟩]) (hc : 1 ≤ r.count)
    (hn : r.count + 1 < 9223372036854775808) (v : Int) :
    (record r p v w).state = { r with count := r.count + 1, values := [⟨p, if r.count < r.size then v else v0, w⟩] } := by
  have hi : i64 (r.count + 1) = r.count + 1 := by apply i64_of_in; unfold InI64; omega
  have hcmp : WeightedSample.compare ⟨p, v0, w⟩ ⟨p, v, w⟩ = 0 := by
    unfold WeightedSample.compare
    simp [F64.lt_irrefl]
  have hg : getValues { r with count := r.count + 1 } = [⟨p, v0, w⟩] := by
    rw [getValues_eq (by rw [hv]; intro s hs; simp only [List.mem_singleton] at hs; subst hs; exact hpp), hv]
  unfold record
  simp only [hi]
  by_cases h1 : r.count + 1 ≤ r.size
  · rw [if_pos h1, if_pos (show r.count < r.size by omega), hv]
    simp only [SkipList.insert, hcmp, Res.state]
    simp
  · rw [if_neg h1, if_neg (show ¬ r.count < r.size by omega), hg]
    have hle : p.le p := by cases p with
      | nan => exact absurd rfl hp
      | inf b => cases b <;> simp [F64.le]
      | fin x => simp [F64.le]
    simp only [if_pos hle, Res.state]
    rw [← hv]

/-- **C105.** A burst: any number of updates of a new reservoir, all in one second and at one reading of `time.Now()` (modulo 2³¹-1 ns), before the first rescale. `Size()` counts
them up to the capacity, but only one sample is held: the last one made while `Size()` was below the capacity. -/
theorem C105_burst (A : Arith) (hA : A.Lawful) (G : Generator) (hG : G.Documented) (size : Int) (hsz : 1 ≤ size)
    (a : ℚ) (time tick : Int) (us : List Timed) (hne : us ≠ []) (hn : (us.length : Int) < 9223372036854775808) (ht : ∀ e ∈ us, e.tick < i64 (tick + 3600000000000))
    (second reading : Int) (hs : ∀ e ∈ us, e.time.tdiv 1000 = second ∧ e.nano % 2147483647 = reading % 2147483647)
    (hpos : ∃ q : ℚ, G.float reading = .fin q ∧ 0 < q) :
    let r := (new size (.fin a) time tick).runAt A G us
    r.getSize = min (us.length : Int) size ∧ ∃ s, r.getValues = [s] ∧ (us.map (·.value))[min us.length size.toNat - 1]? = some s.value := by
  obtain ⟨q, hq, hq0⟩ := hpos
  set w := weight A (.fin a) (i64 (second - currentTimeInSecond time)) with hw
  set p := priority A w (G.float reading) with hp
  have hpn : p ≠ .nan := by rw [hp, hq, hw]; exact prio_ne_nan hA a _ hq0
  have hpp : p.NonNeg := by rw [hp, hq]; exact F64.nonNeg_div hA.rnd (hA.nonneg _) (F64.nonNeg_fin hq0.le)
  have hstep : ∀ (r : EDR) (e : Timed), r.alpha = .fin a → r.startTime = currentTimeInSecond time → r.nextScaleTime = i64 (tick + 3600000000000) → e ∈ us →
      (r.updateAt A G e).state = (record r p e.value w).state := by
    intro r e h1 h2 h3 he
    have hres : rescaleIfNeeded A r e.tick e.scaleTime = r := by
      have := ht e he
      unfold rescaleIfNeeded; rw [if_neg (by rw [h3]; omega)]
    obtain ⟨hs1, hs2⟩ := hs e he
    unfold updateAt updateN
    simp only [hres]
    rw [h1, h2, show currentTimeInSecond e.time = second from hs1, (hG e.nano reading hs2).2]
  have key : ∀ l : List Timed, l ≠ [] → (∀ e ∈ l, e ∈ us) → (l.length : Int) < 9223372036854775808 →
      ∃ v, (new size (.fin a) time tick).runAt A G l = { new size (.fin a) time tick with count := l.length, values := [⟨p, v, w⟩] } ∧
        (l.map (·.value))[min l.length size.toNat - 1]? = some v := by
    intro l
    induction l using List.reverseRecOn with
    | nil => intro h; exact absurd rfl h
    | append_singleton l e ih =>
      intro _ hm hl
      have he := hm e (by simp)
      have hrun : (new size (.fin a) time tick).runAt A G (l ++ [e]) = (((new size (.fin a) time tick).runAt A G l).updateAt A G e).state := by
        unfold runAt
        rw [List.foldl_append]
        rfl
      rw [hrun]
      simp only [List.length_append, List.length_singleton] at hl
      push_cast at hl
      by_cases hl0 : l = []
      · subst hl0
        refine ⟨e.value, ?_, ?_⟩
        · have h1 : (new size (.fin a) time tick).runAt A G [] = new size (.fin a) time tick := rfl
          rw [h1, hstep _ e rfl rfl rfl he, EDR.burst_new hsz]
          simp
        · have : min ([] ++ [e]).length size.toNat - 1 = 0 := by simp
          rw [this]; rfl
      · obtain ⟨v, hv1, hv2⟩ := ih hl0 (fun e he => hm e (by simp [he])) (by omega)
        have hlen : 1 ≤ l.length := List.length_pos_iff.2 hl0
        refine ⟨if (l.length : Int) < size then e.value else v, ?_, ?_⟩
        · rw [hv1, hstep _ e rfl rfl rfl he,
            EDR.burst_step (r := { new size (.fin a) time tick with count := l.length, values := [⟨p, v, w⟩] }) hpn hpp rfl (by show (1 : Int) ≤ l.length; omega)
              (by show (l.length : Int) + 1 < _; omega)]
          simp only [List.length_append, List.length_singleton]
          push_cast
          rfl
        · rw [List.map_append, List.map_singleton]
          simp only [List.length_append, List.length_singleton]
          by_cases h1 : (l.length : Int) < size
          · rw [if_pos h1, show min (l.length + 1) size.toNat - 1 = l.length by omega]
            rw [List.getElem?_append_right (by simp)]
            simp
          · rw [if_neg h1, show min (l.length + 1) size.toNat - 1 = min l.length size.toNat - 1 by omega]
            rw [List.getElem?_append_left (by rw [List.length_map]; omega)]
            exact hv2
  intro r
  obtain ⟨v, hv1, hv2⟩ := key us hne (fun _ h => h) hn
  have hr : r = { new size (.fin a) time tick with count := us.length, values := [⟨p, v, w⟩] } := hv1
  refine ⟨?_, ⟨p, v, w⟩, ?_, hv2⟩
  · rw [getSize_eq, hr]
    rfl
  · rw [getValues_eq (by rw [hr]; intro s hs; simp only [List.mem_singleton] at hs; subst hs; exact hpp), hr]

/-- A generator as documented, for examples. -/
def Generator.demo : Generator := ⟨fun s => [s % 2147483647], fun s => .fin (1 / ((s % 2147483647 : Int) + 2 : ℚ))⟩

theorem Generator.demo_documented : Generator.demo.Documented := by
  intro s t h
  simp only [Generator.demo, h, and_self]

/-- Three updates of a new decaying reservoir, the first two at the same reading of `time.Now()`. -/
def timedCase : List Timed := [⟨0, 0, 5000, 10, 7⟩, ⟨0, 0, 5001, 10, 8⟩, ⟨0, 0, 5002, 12, 9⟩]

/-- **C105, refuted.** A decaying reservoir does not hold as many samples as `Size()` says: three updates of a new one with capacity 3, two of them within one clock reading; and it
still holds only two after any number of further updates until the next rescale. -/
theorem C105_size_refuted :
    ¬ ∀ (G : Generator) (size : Int) (us : List Timed), G.Documented → 1 ≤ size → (∀ e ∈ us, e.tick < 3600000000000) → (∀ e ∈ us, ∃ q : ℚ, G.float e.nano = .fin q ∧ 0 < q) →
      (((new size (.fin 1) 0 0).runAt demo G us).getValues.length : Int) = ((new size (.fin 1) 0 0).runAt demo G us).getSize := by
  intro h
  have hpos : ∀ e ∈ timedCase, ∃ q : ℚ, Generator.demo.float e.nano = .fin q ∧ 0 < q := by
    simp only [timedCase, List.mem_cons, List.not_mem_nil, or_false, forall_eq_or_imp, forall_eq]
    exact ⟨⟨_, rfl, by norm_num⟩, ⟨_, rfl, by norm_num⟩, _, rfl, by norm_num⟩
  have := h Generator.demo 3 timedCase Generator.demo_documented (by norm_num) (by decide) hpos
  revert this
  decide +kernel

/-- The hypotheses of the theorems are met by these updates. -/
example : demo.Lawful ∧ Generator.demo.Documented ∧ (∀ e ∈ timedCase, e.tick < i64 (0 + 3600000000000)) ∧
    ((new 3 (.fin 1) 0 0).runAt demo Generator.demo timedCase).getValues.map (·.value) = [8, 9] ∧
    ((timedCase.take 3).map fun e => (e.time.tdiv 1000, e.nano % 2147483647)).toFinset.card = 2 :=
  ⟨demo_lawful, Generator.demo_documented, by decide, by decide +kernel, by decide⟩

/-- A burst: the first two updates. -/
example : ((new 3 (.fin 1) 0 0).runAt demo Generator.demo (timedCase.take 2)).getSize = 2 ∧
    ∃ s, ((new 3 (.fin 1) 0 0).runAt demo Generator.demo (timedCase.take 2)).getValues = [s] ∧ some 8 = some s.value :=
  C105_burst demo demo_lawful Generator.demo Generator.demo_documented 3 (by norm_num) 1 0 0 (timedCase.take 2) (by decide) (by decide) (by decide) 5 10 (by decide)
    ⟨_, rfl, by norm_num⟩

/-- Two uniform reservoirs of capacity 1, updated at readings that agree modulo 2³¹-1: both keep the second update. -/
example : ((UniformReservoir.new 1).runAt Generator.demo ([0, 4].zip [10, 20])).values = [20] ∧
    ((UniformReservoir.new 1).runAt Generator.demo ([2147483647, 4].zip [-5, 3])).values = [3] := by decide +kernel

end GoMetrics
