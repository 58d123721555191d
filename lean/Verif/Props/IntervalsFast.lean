import Verif.Spec.IntervalsFast
import Verif.Proofs.Intervals
import Verif.Proofs.FastCats
import Verif.Props.FastCompass
import Verif.Props.AppAny
/-! # C123: fast compasses - intervals of a category never report more than was recorded for it -/
namespace GoMetrics
open Registry Spec
open App (Kit State NewEnvs start)
open AppWild (records wild)
open AppAny (Asked usesThrough regEvents run)

namespace FastCompass

/-- What is credited are the recorded amounts. -/
theorem credited_snd (I : Int) (l : List (Int × Int)) (m : Int) : (credited I m l).map Prod.snd = l.map Prod.snd := by
  induction l generalizing m with
  | nil => rfl
  | cons a l ih =>
    obtain ⟨t, n⟩ := a
    simp only [credited, List.map_cons, ih]

theorem amount_range (l : List (Int × Int)) (hl : ∀ e ∈ l, 0 ≤ e.2) (ts : Int) : 0 ≤ amount l ts ∧ amount l ts ≤ (l.map Prod.snd).sum := by
  induction l with
  | nil => simp [amount]
  | cons a l ih =>
    have h1 := ih fun e he => hl e (List.mem_cons_of_mem _ he)
    have h2 := hl a (List.mem_cons_self ..)
    unfold amount at *
    rw [List.filter_cons]
    split
    · simp only [List.map_cons, List.sum_cons]; omega
    · simp only [List.map_cons, List.sum_cons]; omega

theorem sum_sublist {l l' : List Int} (h : l.Sublist l') (hp : ∀ x ∈ l', 0 ≤ x) : l.sum ≤ l'.sum := by
  induction h with
  | slnil => exact le_refl _
  | cons a _ ih =>
    have := ih fun x hx => hp x (List.mem_cons_of_mem _ hx)
    have := hp a (List.mem_cons_self ..)
    rw [List.sum_cons]; omega
  | cons_cons a _ ih =>
    have := ih fun x hx => hp x (List.mem_cons_of_mem _ hx)
    rw [List.sum_cons, List.sum_cons]; omega

/-- The milliseconds of the calls of a category. -/
theorem recordsOf_sublist (cat : String) (h : List Rec) :
    ((recordsOf cat h).map Prod.snd).Sublist ((h.filter fun r => decide (r.subCategory = cat ∧ 0 ≤ r.duration)).map fun r => r.duration / 1000000) := by
  unfold recordsOf
  rw [List.map_map]
  refine List.Sublist.map _ ?_
  refine List.monotone_filter_right _ fun r hr => ?_
  simp only [validRec, Bool.and_eq_true, decide_eq_true_eq] at hr ⊢
  exact ⟨hr.2, hr.1.1⟩

end FastCompass
open FastCompass

/-- **C123.** A fast compass, after any `Record` calls: as long as a category has fewer than 2^26 calls and 2^38 milliseconds in all, what is reported for its intervals are the numbers and the
summed milliseconds of parts of these calls that do not overlap. -/
theorem C123_fast (interval : Int) (N : Nat) (limit : Int) (hI : 1000000000 ≤ interval) (h : List Rec) (cat : String)
    (hn : (((h.filter fun r => decide (r.subCategory = cat ∧ 0 ≤ r.duration)).map fun r => r.duration / 1000000).length : Int) < 2 ^ 26)
    (hms : ((h.filter fun r => decide (r.subCategory = cat ∧ 0 ≤ r.duration)).map fun r => r.duration / 1000000).sum < 2 ^ 38) :
    FastReportsPartsOf ((new interval N limit).run h) cat ((h.filter fun r => decide (r.subCategory = cat ∧ 0 ≤ r.duration)).map fun r => r.duration / 1000000) := by
  classical
  intro clock s hs
  have hsub := recordsOf_sublist cat h
  generalize hms' : (h.filter fun r => decide (r.subCategory = cat ∧ 0 ≤ r.duration)).map (fun r => r.duration / 1000000) = ms at *
  have hpos : ∀ x ∈ ms, 0 ≤ x := by
    intro x hx
    rw [← hms'] at hx
    obtain ⟨r, hr, rfl⟩ := List.mem_map.1 hx
    have := (of_decide_eq_true (List.mem_filter.1 hr).2).2
    omega
  obtain ⟨mc, hc1, -, hc3⟩ := C15_count_with_carry interval N limit hI h clock s hs
  obtain ⟨mr, hr1, -, hr3⟩ := C15_rt_modulo interval N limit hI h clock s hs
  have hsnd := credited_snd (interval / 1000000000) (recordsOf cat h) (-1)
  have hc3 := hc3 cat
  have hr3 := hr3 cat
  generalize credited (interval / 1000000000) (-1) (recordsOf cat h) = l at *
  rw [← hsnd] at hsub
  have hl : ∀ e ∈ l, 0 ≤ e.2 := fun e he => hpos _ (hsub.subset (List.mem_map_of_mem he))
  have hsum : (l.map Prod.snd).sum ≤ ms.sum := sum_sublist hsub hpos
  have hlen := hsub.length_le
  rw [List.length_map] at hlen
  have hnum : ∀ ts, 0 ≤ number l ts ∧ number l ts ≤ ms.length := by
    intro ts
    unfold number
    have := List.length_filter_le (fun e : Int × Int => decide (e.1 = ts)) l
    omega
  refine ⟨fun k => (l.filter fun e => decide (1000 * e.1 = k)).map Prod.snd, ⟨mc, hc1, fun m hm k v hv => ?_⟩, ⟨mr, hr1, fun m hm k v hv => ?_⟩, fun ks hks => ?_⟩
  · obtain ⟨ts, hk, hrep, e⟩ := (hc3 m hm k v).1 hv
    have ha := amount_range l hl ts
    have hb := hnum ts
    refine ⟨?_, by rw [hk]; exact hrep.2.2.2.1, ts, hk⟩
    rw [e, Int.ediv_eq_zero_of_lt ha.1 (by omega), add_zero, Int.emod_eq_of_lt hb.1 (by omega), List.length_map, hk]
    unfold number
    congr 3
    funext e'
    exact decide_eq_decide.2 ⟨fun h => by rw [h], fun h => by omega⟩
  · obtain ⟨ts, hk, hrep, e⟩ := (hr3 m hm k v).1 hv
    have ha := amount_range l hl ts
    refine ⟨?_, by rw [hk]; exact hrep.2.2.2.1, ts, hk⟩
    rw [e, Int.emod_eq_of_lt ha.1 (by omega), hk]
    unfold amount
    congr 3
    funext e'
    exact decide_eq_decide.2 ⟨fun h => by rw [h], fun h => by omega⟩
  · have := parts_subperm (fun (k : Int) (e : Int × Int) => decide (1000 * e.1 = k)) (by
      intro i j a h1 h2
      rw [← of_decide_eq_true h1, ← of_decide_eq_true h2]) ks hks l
    have h2 := subperm_map Prod.snd this
    rw [List.map_flatten, List.map_map] at h2
    exact h2.trans hsub.subperm

namespace FastCompassConc
open BucketCounter (Call)

theorem begun_sublist (cs : List GPC) : (cs.filterMap begun).Sublist (cs.filterMap AppConc.argOf) := by
  induction cs with
  | nil => exact List.Sublist.slnil
  | cons c cs ih =>
    have h : begun c = none ∨ begun c = AppConc.argOf c := by
      cases c with
      | wIn a ins l =>
        obtain ⟨a', pc⟩ := l
        cases pc <;> first | exact .inl rfl | exact .inr rfl
      | _ => first | exact .inl rfl | exact .inr rfl
    rw [List.filterMap_cons, List.filterMap_cons]
    rcases h with h | h <;> rw [h]
    · cases AppConc.argOf c with
      | none => exact ih
      | some a => exact ih.cons _
    · cases AppConc.argOf c with
      | none => exact ih
      | some a => exact ih.cons_cons _

/-- The calls of a run are those that were begun. -/
theorem calls_args (I : Int) (N : Nat) (limit : Int) (es : List (Ev (Arg ⊕ Empty) Int)) :
    (after I N limit es).calls.filterMap AppConc.argOf = (AppConc.begun es).filterMap Sum.getLeft? := by
  have h := AppConc.spawned_calls guarded.machine AppConc.argOf AppConc.argOf_step { obj := FastCompass.new I N limit } es
  have e : (after I N limit es).calls.filterMap AppConc.argOf = ((after I N limit es).calls.map AppConc.argOf).filterMap id := by
    rw [List.filterMap_map]; rfl
  rw [e]
  change List.map _ (after _ _ _ _).calls = _ at h
  rw [h, List.filterMap_map]
  congr 1
  funext a
  cases a with
  | inl a => rfl
  | inr e => exact e.elim

theorem amounts_subperm (cat : String) (cs : List GPC) : (amounts cat cs).Subperm ((durations cat (cs.filterMap AppConc.argOf)).map fun ms => 2 ^ 38 + ms) := by
  unfold amounts durations
  have h : ((cs.filterMap begun).filter fun a => decide (a.subCategory = cat ∧ 0 ≤ a.duration)).Sublist
      ((cs.filterMap AppConc.argOf).filter fun a => decide (0 ≤ a.duration ∧ a.subCategory = cat)) := by
    have := (begun_sublist cs).filter fun a => decide (a.subCategory = cat ∧ 0 ≤ a.duration)
    simpa only [and_comm] using this
  rw [List.map_map]
  have e : ((cs.filterMap AppConc.argOf).filter fun a => decide (0 ≤ a.duration ∧ a.subCategory = cat)).map
      ((fun ms : Int => 2 ^ 38 + ms) ∘ fun a : Arg => a.duration / 1000000) =
      ((cs.filterMap AppConc.argOf).filter fun a => decide (0 ≤ a.duration ∧ a.subCategory = cat)).map fun a => FastCompass.packed a.duration := by
    apply List.map_congr_left
    intro a ha
    have := (of_decide_eq_true (List.mem_filter.1 ha).2).1
    simp only [Function.comp, FastCompass.packed, countBase]
    rw [Int.tdiv_eq_ediv_of_nonneg this]
  rw [e]
  exact (h.map _).subperm

theorem durations_nonneg (cat : String) (l : List Arg) : ∀ x ∈ durations cat l, 0 ≤ x := by
  intro x hx
  obtain ⟨r, hr, rfl⟩ := List.mem_map.1 hx
  have := (of_decide_eq_true (List.mem_filter.1 hr).2).1
  omega

end FastCompassConc
open FastCompassConc (durations)

/-- Parts of packed amounts decode to numbers of calls and sums of milliseconds. -/
theorem packed_decode {ms : List Int} {m : GoMap Int Int} {part : Int → List Int} {G : Int → Prop} {X : Int → Prop}
    (h2 : ∀ ks : List Int, ks.Nodup → (∀ k ∈ ks, G k ∧ ∃ v, m.get? k = some v) → (ks.map part).flatten.Subperm (ms.map fun x => 2 ^ 38 + x))
    (h1 : ∀ k v, m.get? k = some v → G k → v = i64 (part k).sum ∧ X k) (hpos : ∀ x ∈ ms, 0 ≤ x)
    (hn : (ms.length : Int) < 2 ^ 26) (hs : ms.sum < 2 ^ 38) :
    ∃ part : Int → List Int,
      (∀ k v, m.get? k = some v → G k → countOf v = (part k).length ∧ rtOf v = (part k).sum ∧ X k) ∧
      ∀ ks : List Int, ks.Nodup → (∀ k ∈ ks, G k ∧ ∃ v, m.get? k = some v) → (ks.map part).flatten.Subperm ms := by
  have hback : (ms.map fun x => (2 : Int) ^ 38 + x).map (fun x => x - 2 ^ 38) = ms := by
    rw [List.map_map]
    conv => rhs; rw [← List.map_id ms]
    apply List.map_congr_left
    intro x _
    simp
  have hsub : ∀ ks : List Int, ks.Nodup → (∀ k ∈ ks, G k ∧ ∃ v, m.get? k = some v) → (ks.map fun k => (part k).map fun x => x - 2 ^ 38).flatten.Subperm ms := by
    intro ks hk hks
    have := subperm_map (fun x : Int => x - 2 ^ 38) (h2 ks hk hks)
    rw [hback, List.map_flatten, List.map_map] at this
    exact this
  refine ⟨fun k => (part k).map (fun x => x - 2 ^ 38), fun k v hk hG => ?_, hsub⟩
  have hp := hsub [k] (by simp) (by intro k' hk'; rw [List.mem_singleton.1 hk']; exact ⟨hG, v, hk⟩)
  simp only [List.map_cons, List.map_nil, List.flatten_cons, List.flatten_nil, List.append_nil] at hp
  have hsum : (part k).sum = 2 ^ 38 * ((part k).length : Int) + ((part k).map fun x => x - 2 ^ 38).sum := by
    generalize part k = l
    generalize (2 : Int) ^ 38 = M
    induction l with
    | nil => simp
    | cons x l ih =>
      simp only [List.sum_cons, List.length_cons, List.map_cons]
      push_cast
      rw [ih]; ring
  have hlen := hp.length_le
  obtain ⟨q, hq, hql⟩ := hp
  have hle := sum_sublist hql hpos
  have hnn : 0 ≤ q.sum := List.sum_nonneg fun x hx => hpos x (hql.subset hx)
  rw [hq.sum_eq] at hle hnn
  obtain ⟨e, g⟩ := h1 k v hk hG
  rw [List.length_map] at hlen ⊢
  refine ⟨?_, ?_, g⟩
  · rw [e, hsum, countOf_pack, Int.ediv_eq_zero_of_lt hnn (by omega), add_zero, Int.emod_eq_of_lt (by omega) (by omega)]
  · rw [e, hsum, rtOf_pack, Int.emod_eq_of_lt hnn (by omega)]

/-- Parts of packed amounts are numbers of calls and sums of milliseconds. -/
theorem packed_parts {b : BucketCounter} {ms : List Int} (h : ReportsPartsOf b (ms.map fun x => 2 ^ 38 + x)) (hpos : ∀ x ∈ ms, 0 ≤ x)
    (hn : (ms.length : Int) < 2 ^ 26) (hs : ms.sum < 2 ^ 38) {t s : Int} {m : GoMap Int Int} (hm : b.getBucketCountsSince t s = some m) :
    ∃ part : Int → List Int,
      (∀ k v, m.get? k = some v → countOf v = (part k).length ∧ rtOf v = (part k).sum ∧ s ≤ k ∧ ∃ second, k = 1000 * second) ∧
      ∀ ks : List Int, ks.Nodup → (ks.map part).flatten.Subperm ms := by
  classical
  obtain ⟨part, h1, h2⟩ := h b.buckets t s m hm
  obtain ⟨part', g1, g2⟩ := packed_decode (G := fun _ => True) (fun ks hk hks => h2 ks hk fun k hk => (hks k hk).2) (fun k v hk _ => h1 k v hk) hpos hn hs
  refine ⟨fun k => if (m.get? k).isSome then part' k else [], fun k v hk => ?_, fun ks hks => ?_⟩
  · simp only [hk, Option.isSome_some, if_true]
    exact g1 k v hk trivial
  · have := g2 (ks.filter fun k => (m.get? k).isSome) (hks.filter _) (fun k hk => ⟨trivial, Option.isSome_iff_exists.1 (List.mem_filter.1 hk).2⟩)
    refine List.Subperm.trans (List.Perm.subperm (List.Perm.of_eq ?_)) this
    clear this hks
    induction ks with
    | nil => rfl
    | cons k ks ih =>
      rw [List.filter_cons, List.map_cons, List.flatten_cons, ih]
      cases hk : (m.get? k).isSome <;> simp

/-- **C123.** A fast compass used by any number of goroutines, after any interleaving of the small steps of `Record` calls - also while a call is inside -: as long as fewer than 2^26
calls with a category and 2^38 milliseconds in them were begun, what is reported for intervals of that category are the numbers and the summed milliseconds of parts, which do not
overlap, of these calls. -/
theorem C123_anytime (interval : Int) (N : Nat) (limit : Int) (hI : 1000000000 ≤ interval) (es : List (Ev (FastCompassConc.Arg ⊕ Empty) Int)) (cat : String) :
    let p := FastCompassConc.after interval N limit es
    let ms := durations cat ((AppConc.begun es).filterMap Sum.getLeft?)
    (ms.length : Int) < 2 ^ 26 → ms.sum < 2 ^ 38 → FastReportsPartsOf p.shared.obj cat ms := by
  intro p ms hn hs clock s _
  have hargs := FastCompassConc.calls_args interval N limit es
  change p.calls.filterMap AppConc.argOf = _ at hargs
  have h := FastCompassConc.catInv_run interval N limit es
  change FastCompassConc.CatInv interval N p at h
  have hcat : ∀ cat b, p.shared.obj.subCategories.get? cat = some b →
      ReportsPartsOf b ((durations cat ((AppConc.begun es).filterMap Sum.getLeft?)).map fun x => 2 ^ 38 + x) ∧ b.interval = interval := by
    intro cat b hb
    obtain ⟨t0, es', h1, h2, -⟩ := h.cats cat b hb
    obtain ⟨es'', h3⟩ := C107_covers interval N t0 false es'
    have := BucketCounter.reports_parts interval N t0 false es''
    rw [h3, h1] at this
    refine ⟨this.mono (hargs ▸ h2.trans (FastCompassConc.amounts_subperm cat p.calls)), ?_⟩
    rw [← h1]
    exact BucketCounter.inv_run_start (Inv := fun p => p.shared.interval = interval) N _ (BucketCounter.sharedOk_new interval N t0 false) (by rfl)
      (fun _ _ _ _ h => h) (fun s pre c post x _ h => by rw [← h]; exact (BucketCounter.callStep_const s x c).2.1) es'
  have hall : ∀ e ∈ p.shared.obj.subCategories, (e.2.getBucketCountsSince (clock e.1) s).isSome = true := by
    intro e he
    have := (hcat e.1 e.2 (GoMap.get?_of_mem h.wf he)).2
    unfold BucketCounter.getBucketCountsSince BucketCounter.alignTimestamp
    rw [this, if_neg (by rw [wholeSeconds, Int.tdiv_eq_ediv_of_nonneg (by omega)]; omega)]
    rfl
  obtain ⟨m1, a1, -, a3⟩ := collect_spec countOf clock s p.shared.obj.subCategories hall
  obtain ⟨m2, b1, -, b3⟩ := collect_spec rtOf clock s p.shared.obj.subCategories hall
  have a3 := a3 cat
  have b3 := b3 cat
  cases hg : p.shared.obj.subCategories.get? cat with
  | none =>
    rw [hg] at a3 b3
    refine ⟨fun _ => [], ⟨m1, a1, fun mc hmc => ?_⟩, ⟨m2, b1, fun mc hmc => ?_⟩, fun ks _ => ?_⟩
    · rw [a3] at hmc; simp at hmc
    · rw [b3] at hmc; simp at hmc
    · have : (ks.map fun _ : Int => ([] : List Int)).flatten = [] := by simp
      rw [this]; exact List.nil_subperm
  | some b =>
    have hb := (hcat cat b hg).1
    have hm := hall (cat, b) (GoMap.mem_of_get? hg)
    obtain ⟨mb, hmb⟩ := Option.isSome_iff_exists.1 hm
    obtain ⟨part, g1, g2⟩ := packed_parts hb (FastCompassConc.durations_nonneg cat _) hn hs hmb
    rw [hg] at a3 b3
    simp only [Option.bind_some, hmb, Option.map_some] at a3 b3
    refine ⟨part, ⟨m1, a1, fun mc hmc k v hk => ?_⟩, ⟨m2, b1, fun mc hmc k v hk => ?_⟩, g2⟩
    · rw [a3, Option.some.injEq] at hmc
      rw [← hmc, get?_mapValues, Option.map_eq_some_iff] at hk
      obtain ⟨w, hw, rfl⟩ := hk
      exact ⟨(g1 k w hw).1, (g1 k w hw).2.2⟩
    · rw [b3, Option.some.injEq] at hmc
      rw [← hmc, get?_mapValues, Option.map_eq_some_iff] at hk
      obtain ⟨w, hw, rfl⟩ := hk
      exact ⟨(g1 k w hw).2.1, (g1 k w hw).2.2⟩

/-- **C123.** So it is, at every moment of every run and whatever any plain load of the program returns, for the fast compass behind the result of a finished `GetFastCompass` that is not
the no-op, of the calls begun through results of lookups of that key. -/
theorem C123_anywhere (R : Rounding) (A : EDR.Arith) (limits : List Int) (es : List (AppAny.Event AppWild.Use NewEnvs))
    (hes : ∀ a, Ev.spawn a ∈ regEvents es → a.ok limits.length)
    (q : Req) (hq : q.kind = .fast) (r : Option Nat) (id : Nat) (p : Params) (h : .done q r (.real id p) ∈ (anyRun limits (regEvents es)).calls) :
    ∃ l, Asked limits es q l ∧ ∃ f, (run (wild R A) (start limits) es).objs id = some (.fast f) ∧
      ∀ cat : String,
        let ms := durations cat (records (usesThrough limits q.target q.name.hash es))
        (ms.length : Int) < 2 ^ 26 → ms.sum < 2 ^ 38 → FastReportsPartsOf f.shared.obj cat ms := by
  obtain ⟨l, hl, he⟩ := AppAny.behind_fast R A limits es hes q hq r id p h
  refine ⟨l, hl, _, he, ?_⟩
  intro cat ms hn hs
  have := C123_anytime (levelNanos l) 10 20 (AppConc.levelNanos_ge l) ((usesThrough limits q.target q.name.hash es).filterMap AppWild.Use.onFast) cat
  have e := FastCompassConc.calls_args (levelNanos l) 10 20 ((usesThrough limits q.target q.name.hash es).filterMap AppWild.Use.onFast)
  rw [AppWild.onFast_plain, AppConc.args_eq, AppWild.records_plain, ← AppWild.onFast_plain] at e
  simp only [← e] at this
  exact this hn hs

/-- **C123.** So all intervals of a category together never report more calls than there were, nor more milliseconds, and none a negative number. -/
theorem C123_sum (f : FastCompass) (cat : String) (ms : List Int) (hpos : ∀ x ∈ ms, 0 ≤ x) (h : FastReportsPartsOf f cat ms) (clock : String → Int) (s : Int) (hs : -1000 < s)
    (mn mr : GoMap String (GoMap Int Int)) (n r : GoMap Int Int)
    (hn : f.getMethodCountPerCategorySince clock s = some mn) (hr : f.getMethodRtPerCategorySince clock s = some mr)
    (hn' : mn.get? cat = some n) (hr' : mr.get? cat = some r) :
    (∀ k v, n.get? k = some v → 0 ≤ v) ∧ (∀ k v, r.get? k = some v → 0 ≤ v) ∧
    ∀ ks : List Int, ks.Nodup →
      (ks.map fun k => (n.get? k).getD 0).sum ≤ ms.length ∧ (ks.map fun k => (r.get? k).getD 0).sum ≤ ms.sum := by
  obtain ⟨part, ⟨m1, a1, a2⟩, ⟨m2, b1, b2⟩, h3⟩ := h clock s hs
  rw [hn, Option.some.injEq] at a1
  rw [hr, Option.some.injEq] at b1
  subst a1 b1
  have a2 := a2 n hn'
  have b2 := b2 r hr'
  have hpart : ∀ k, ∀ x ∈ part k, 0 ≤ x := by
    intro k x hx
    have := (h3 [k] (by simp)).subset
    exact hpos x (this (by simpa using hx))
  have hsum : ∀ k, 0 ≤ (part k).sum := fun k => List.sum_nonneg (hpart k)
  have e1 : ∀ k, (n.get? k).getD 0 ≤ (part k).length := by
    intro k
    cases hk : n.get? k with
    | none => simp
    | some v => exact le_of_eq (a2 k v hk).1
  have e2 : ∀ k, (r.get? k).getD 0 ≤ (part k).sum := by
    intro k
    cases hk : r.get? k with
    | none => exact hsum k
    | some v => exact le_of_eq (b2 k v hk).1
  refine ⟨fun k v hk => by rw [(a2 k v hk).1]; exact Int.natCast_nonneg _, fun k v hk => by rw [(b2 k v hk).1]; exact hsum k, fun ks hks => ?_⟩
  have hsub := h3 ks hks
  have f1 : (ks.map fun k => (n.get? k).getD 0).sum ≤ ((ks.map part).flatten.length : Int) := by
    clear hsub hks
    induction ks with
    | nil => simp
    | cons k ks ih =>
      have := e1 k
      simp only [List.map_cons, List.sum_cons, List.flatten_cons, List.length_append]
      push_cast
      omega
  have f2 : (ks.map fun k => (r.get? k).getD 0).sum ≤ (ks.map part).flatten.sum := by
    clear hsub hks f1
    induction ks with
    | nil => simp
    | cons k ks ih =>
      have := e2 k
      simp only [List.map_cons, List.sum_cons, List.flatten_cons, List.sum_append]
      omega
  have hlen := hsub.length_le
  obtain ⟨q, hq, hql⟩ := hsub
  have := sum_sublist hql hpos
  rw [hq.sum_eq] at this
  exact ⟨by omega, by omega⟩

/-- Two categories; the query names two intervals of "ok", with two calls and 5 ms, and one call and 7 ms: all there were. -/
example :
    let h : List Rec := [⟨0, 1000, 3000000, "ok"⟩, ⟨0, 2000, 1000000, "err"⟩, ⟨0, 1500, 2999999, "ok"⟩, ⟨0, 61000, 7000000, "ok"⟩, ⟨0, 61000, -5, "ok"⟩]
    ((new 60000000000 10 2).run h).getMethodCountPerCategorySince (fun _ => 62000) 0 = some [("ok", [(60000, 1), (0, 2)]), ("err", [(0, 1)])] ∧
    FastReportsPartsOf ((new 60000000000 10 2).run h) "ok" [3, 2, 7] :=
  ⟨by decide +kernel, C123_fast 60000000000 10 2 (by norm_num) _ "ok" (by decide +kernel) (by decide +kernel)⟩

/-- A call of 3 ms that is through and one of 4 ms in the middle of `UpdateN`, with the lock: one call and 3 ms are reported, which is a part of the two that were begun. -/
example :
    let es : List (Ev (FastCompassConc.Arg ⊕ Empty) Int) := [.spawn (.inl ⟨3000000, "ok"⟩), .spawn (.inl ⟨4000000, "ok"⟩)] ++ List.replicate 20 (.step 0 61000) ++
      List.replicate 5 (.step 1 62000)
    let p := FastCompassConc.after 60000000000 10 2 es
    p.shared.writer = true ∧
    p.shared.obj.getMethodCountPerCategorySince (fun _ => 62000) 0 = some [("ok", [(60000, 1)])] ∧
    p.shared.obj.getMethodRtPerCategorySince (fun _ => 62000) 0 = some [("ok", [(60000, 3)])] ∧
    FastReportsPartsOf p.shared.obj "ok" [3, 4] := by
  intro es p
  refine ⟨by decide +kernel, by decide +kernel, by decide +kernel, ?_⟩
  have e : durations "ok" ((AppConc.begun es).filterMap Sum.getLeft?) = [3, 4] := by decide +kernel
  have := C123_anytime 60000000000 10 2 (by norm_num) es "ok"
  rw [e] at this
  exact this (by norm_num) (by norm_num)

/-- Beyond the limit it is false: a single call of 2^38 milliseconds is reported as two calls. -/
theorem C123_limit_refuted :
    ¬ ∀ h : List Rec, FastReportsPartsOf ((new 60000000000 10 2).run h) "ok" ((h.filter fun r => decide (r.subCategory = "ok" ∧ 0 ≤ r.duration)).map fun r => r.duration / 1000000) := by
  intro h
  obtain ⟨part, ⟨m, h1, h2⟩, -, h3⟩ := h [⟨0, 1000, 274877906944000000, "ok"⟩] (fun _ => 62000) 0 (by norm_num)
  have e : ((new 60000000000 10 2).run [⟨0, 1000, 274877906944000000, "ok"⟩]).getMethodCountPerCategorySince (fun _ => 62000) 0 = some [("ok", [(0, 2)])] := by decide +kernel
  rw [e, Option.some.injEq] at h1
  subst h1
  have hv := (h2 [(0, 2)] (by decide +kernel) 0 2 (by decide +kernel)).1
  have hl := (h3 [0] (by simp)).length_le
  have e2 : ((([⟨0, 1000, 274877906944000000, "ok"⟩] : List Rec).filter fun r => decide (r.subCategory = "ok" ∧ 0 ≤ r.duration)).map fun r => r.duration / 1000000).length = 1 := by
    decide +kernel
  rw [e2] at hl
  simp only [List.map_cons, List.map_nil, List.flatten_cons, List.flatten_nil, List.append_nil] at hl
  omega

end GoMetrics
