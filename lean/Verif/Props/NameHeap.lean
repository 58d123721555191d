import Verif.Model.NameHeap
/-! # C96: metric names and the maps they were made from -/
namespace GoMetrics
open NameHeap

namespace NameHeap

/-- Does the operation name the map `a`, or write through the name `i`? -/
def Touches (a : Nat) (i : Nat) : Op → Prop
  | .newMap _ => False
  | .newName _ tags => tags = some a
  | .put m _ _ => m = a
  | .putVia j _ _ => j = i
  | .hashKey _ _ => False

theorem run_snoc (w : World) (h : List Op) (o : Op) : run w (h ++ [o]) = step (run w h) o := by simp [run]
theorem run_append (w : World) (h h' : List Op) : run w (h ++ h') = run (run w h) h' := by simp [run]

theorem step_newName (w : World) (key : GoStr) (tags : Option Nat) : step w (.newName key tags) =
    if (newName key tags).tags < w.maps.length then { w with names := w.names ++ [newName key tags] } else w := rfl
theorem step_putVia (w : World) (i : Nat) (k v : GoStr) : step w (.putVia i k v) = (match w.names[i]? with | none => w | some n => w.write n.tags k v) := rfl

theorem write_other (w : World) {m a : Nat} (k v : GoStr) (h : m ≠ a) : (w.write m k v).map a = w.map a := by
  unfold World.map World.write
  simp only [List.getElem?_modify, if_neg h]
  simp

theorem maps_length (w : World) (o : Op) : w.maps.length ≤ (step w o).maps.length := by
  cases o with
  | newMap t => simp [step]
  | newName key tags => rw [step_newName]; split <;> simp
  | put m k v => simp [step, World.write]
  | putVia i k v => rw [step_putVia]; cases w.names[i]? <;> simp [World.write]
  | hashKey i order => simp [step]

/-- Names keep their place and their map. -/
theorem names_keep (w : World) (o : Op) (j : Nat) (n : Name) (h : w.names[j]? = some n) :
    ∃ n', (step w o).names[j]? = some n' ∧ n'.tags = n.tags ∧ n'.key = n.key ∧ (∀ x, n.hash = some x → n'.hash = some x) := by
  have hj := (List.getElem?_eq_some_iff.1 h).1
  cases o with
  | newMap t => exact ⟨n, h, rfl, rfl, fun _ h => h⟩
  | newName key tags =>
    refine ⟨n, ?_, rfl, rfl, fun _ h => h⟩
    rw [step_newName]
    split
    · rw [List.getElem?_append_left hj]; exact h
    · exact h
  | put m k v => exact ⟨n, h, rfl, rfl, fun _ h => h⟩
  | putVia i k v =>
    refine ⟨n, ?_, rfl, rfl, fun _ h => h⟩
    rw [step_putVia]; cases w.names[i]? <;> exact h
  | hashKey i order =>
    by_cases hij : i = j
    · subst hij
      refine ⟨(hashKey w order n).2, by simp [step, h], ?_, ?_, ?_⟩
      · unfold hashKey; cases n.hash <;> rfl
      · unfold hashKey; cases n.hash <;> rfl
      · intro x hx; unfold hashKey; rw [hx]; exact hx
    · exact ⟨n, by simp [step, List.getElem?_modify, hij, h], rfl, rfl, fun _ h => h⟩

/-- A map that only the name `i` refers to. -/
structure Own (a : Nat) (i : Nat) (key : GoStr) (t : GoMap GoStr GoStr) (w : World) : Prop where
  there : a < w.maps.length
  content : w.map a = t
  only : ∀ j n, w.names[j]? = some n → n.tags = a → j = i
  mine : ∀ n, w.names[i]? = some n → n.key = key ∧ n.tags = a ∧ ∀ x, n.hash = some x → ∃ order, order.Perm t ∧ x = MetricName.compute key order
  born : i < w.names.length

theorem own_step {a : Nat} {i : Nat} {key : GoStr} {t : GoMap GoStr GoStr} {w : World} (h : Own a i key t w) (ha : a ≠ emptyTags) (o : Op) (ho : ¬ Touches a i o) :
    Own a i key t (step w o) := by
  obtain ⟨h1, h2, h3, h4, h5⟩ := h
  cases o with
  | newMap t' =>
    refine ⟨by simp only [step, List.length_append, List.length_singleton]; omega, ?_, h3, h4, h5⟩
    rw [← h2]; unfold World.map step; simp only; rw [List.getElem?_append_left h1]
  | newName k tags =>
    rw [step_newName]
    split
    swap
    · exact ⟨h1, h2, h3, h4, h5⟩
    refine ⟨h1, h2, ?_, ?_, by simp only [List.length_append, List.length_singleton]; omega⟩
    · intro j n hj hn
      rcases Nat.lt_or_ge j w.names.length with hlt | hge
      · rw [List.getElem?_append_left hlt] at hj
        exact h3 j n hj hn
      · rw [List.getElem?_append_right hge] at hj
        have hz : j - w.names.length = 0 := by
          have := (List.getElem?_eq_some_iff.1 hj).1
          simp at this; omega
        rw [hz] at hj
        simp at hj
        subst hj
        cases tags with
        | none => exact absurd hn (fun e => ha e.symm)
        | some b => exact absurd (show (some b : Option Nat) = some a by rw [← hn]; rfl) ho
    · intro n hn
      rw [List.getElem?_append_left h5] at hn
      exact h4 n hn
  | put m k v =>
    exact ⟨by simp only [step, World.write, List.length_modify]; exact h1, by rw [← h2]; exact write_other w k v ho, h3, h4, h5⟩
  | putVia j k v =>
    rw [step_putVia]
    cases hn : w.names[j]? with
    | none => exact ⟨h1, h2, h3, h4, h5⟩
    | some n =>
      have hne : n.tags ≠ a := fun e => ho (h3 j n hn e)
      exact ⟨by simp only [World.write, List.length_modify]; exact h1, by rw [← h2]; exact write_other w k v hne, h3, h4, h5⟩
  | hashKey j order =>
    have keep : ∀ n : Name, (hashKey w order n).2.tags = n.tags ∧ (hashKey w order n).2.key = n.key := fun n => by unfold hashKey; cases n.hash <;> exact ⟨rfl, rfl⟩
    refine ⟨h1, h2, ?_, ?_, by simp only [step, List.length_modify]; exact h5⟩
    · intro j' n hj hn
      simp only [step, List.getElem?_modify] at hj
      cases hw : w.names[j']? with
      | none => rw [hw] at hj; simp at hj
      | some n0 =>
        rw [hw] at hj
        refine h3 j' n0 hw ?_
        by_cases e : j = j'
        · simp [e] at hj; rw [← hj] at hn; rw [← hn]; exact (keep n0).1.symm
        · simp [e] at hj; rw [hj]; exact hn
    · intro n hn
      simp only [step, List.getElem?_modify] at hn
      cases hw : w.names[i]? with
      | none => rw [hw] at hn; simp at hn
      | some n0 =>
        rw [hw] at hn
        obtain ⟨k1, k2, k3⟩ := h4 n0 hw
        by_cases e : j = i
        · simp [e] at hn
          subst hn
          refine ⟨(keep n0).2.trans k1, (keep n0).1.trans k2, ?_⟩
          intro x hx
          unfold hashKey at hx
          cases hh : n0.hash with
          | some y => rw [hh] at hx; simp only at hx; exact k3 x (hh ▸ hx ▸ hh ▸ rfl)
          | none =>
            rw [hh] at hx
            simp only [Option.some.injEq] at hx
            rw [k1, k2, h2] at hx
            by_cases hp : order.isPerm t
            · rw [if_pos hp] at hx
              exact ⟨order, List.isPerm_iff.1 hp, hx.symm⟩
            · rw [if_neg hp] at hx
              exact ⟨t, List.Perm.refl _, hx.symm⟩
        · simp [e] at hn
          subst hn
          exact ⟨k1, k2, k3⟩

/-- Names refer to existing maps. -/
theorem refs (h : List Op) : 0 < (run start h).maps.length ∧ ∀ n ∈ (run start h).names, n.tags < (run start h).maps.length := by
  induction h using List.reverseRecOn with
  | nil => exact ⟨by decide, by simp [run, start]⟩
  | append_singleton h o ih =>
    rw [run_snoc]
    generalize run start h = w at *
    have hl := maps_length w o
    refine ⟨by omega, fun n hn => ?_⟩
    have old : n ∈ w.names → n.tags < (step w o).maps.length := fun h => by have := ih.2 n h; omega
    cases o with
    | newMap t => exact old hn
    | newName key tags =>
      rw [step_newName] at hn hl ⊢
      split at hn
      · rename_i hlt
        rw [if_pos hlt]
        rcases List.mem_append.1 hn with h | h
        · exact ih.2 n h
        · simp at h; rw [h]; exact hlt
      · rename_i hlt
        rw [if_neg hlt]
        exact ih.2 n hn
    | put m k v => exact old hn
    | putVia i k v => exact old (by rw [step_putVia] at hn; cases h : w.names[i]? <;> rw [h] at hn <;> exact hn)
    | hashKey i order =>
      obtain ⟨j, hj, e⟩ := List.mem_iff_getElem.1 hn
      have hj' : j < w.names.length := by simpa [step] using hj
      have : (step w (.hashKey i order)).names[j]? = some n := List.getElem?_eq_some_iff.2 ⟨hj, e⟩
      obtain ⟨n', e1, e2, -⟩ := names_keep w (.hashKey i order) j w.names[j] (List.getElem?_eq_getElem hj')
      rw [e1] at this
      injection this with this
      rw [← this, e2]
      exact ih.2 _ (List.getElem_mem _)

theorem own_run {a : Nat} {i : Nat} {key : GoStr} {t : GoMap GoStr GoStr} (ha : a ≠ emptyTags) (h : List Op) : ∀ {w : World}, Own a i key t w →
    (∀ o ∈ h, ¬ Touches a i o) → Own a i key t (run w h) := by
  induction h with
  | nil => intro w hw _; exact hw
  | cons o h ih => intro w hw ho; exact ih (own_step hw ha o (ho o (by simp))) fun o' h' => ho o' (by simp [h'])

theorem keep_run (h : List Op) (j : Nat) : ∀ (w : World) (n : Name), w.names[j]? = some n →
    ∃ n', (run w h).names[j]? = some n' ∧ n'.tags = n.tags ∧ n'.key = n.key ∧ (∀ x, n.hash = some x → n'.hash = some x) := by
  induction h with
  | nil => intro w n hn; exact ⟨n, hn, rfl, rfl, fun _ h => h⟩
  | cons o h ih =>
    intro w n hn
    obtain ⟨n1, a1, a2, a3, a4⟩ := names_keep w o j n hn
    obtain ⟨n2, b1, b2, b3, b4⟩ := ih (step w o) n1 a1
    exact ⟨n2, b1, b2.trans a2, b3.trans a3, fun x hx => b4 x (a4 x hx)⟩

end NameHeap

/-- **C96.** A name made from a map of its own - fresh, not used for another name, never written to afterwards - has a hash key computed from the tags it was made with,
whatever else the program does with other names and maps, before and after. -/
theorem C96_own_map (before after : List Op) (key : GoStr) (tags : GoMap GoStr GoStr) (a : Nat) (i : Nat) (ha : a = (run start before).maps.length)
    (hi : i = (run start before).names.length) (hafter : ∀ o ∈ after, ¬ Touches a i o) (order : List (GoStr × GoStr)) :
    ∃ name, (run start (before ++ [.newMap tags, .newName key (some a)] ++ after)).names[i]? = some name ∧
    ∃ order', order'.Perm tags ∧
      (hashKey (run start (before ++ [.newMap tags, .newName key (some a)] ++ after)) order name).1 = MetricName.compute key order' := by
  obtain ⟨hpos, hrefs⟩ := refs before
  rw [run_append, run_append]
  have hmid : run (run start before) [.newMap tags, .newName key (some a)] =
      ⟨(run start before).maps ++ [tags], (run start before).names ++ [⟨key, a, none⟩]⟩ := by
    show step (step (run start before) (.newMap tags)) (.newName key (some a)) = _
    rw [step_newName, if_pos]
    · rfl
    · show a < ((run start before).maps ++ [tags]).length
      rw [ha, List.length_append]; exact Nat.lt_succ_self _
  rw [hmid]
  have hown : Own a i key tags ⟨(run start before).maps ++ [tags], (run start before).names ++ [⟨key, a, none⟩]⟩ := by
    refine ⟨by simp only [List.length_append, List.length_singleton]; omega, ?_, ?_, ?_, by simp only [List.length_append, List.length_singleton]; omega⟩
    · unfold World.map; simp only; rw [ha]; simp
    · intro j n hj hn
      rcases Nat.lt_or_ge j (run start before).names.length with hlt | hge
      · simp only at hj
        rw [List.getElem?_append_left hlt] at hj
        have := hrefs n (List.mem_of_getElem? hj)
        omega
      · have := (List.getElem?_eq_some_iff.1 hj).1
        simp only [List.length_append, List.length_singleton] at this
        omega
    · intro n hn
      simp only [hi] at hn
      simp at hn
      subst hn
      exact ⟨rfl, rfl, by simp⟩
  have hend := own_run (by rw [ha]; unfold emptyTags; omega) after hown hafter
  generalize run ⟨(run start before).maps ++ [tags], (run start before).names ++ [⟨key, a, none⟩]⟩ after = w at *
  obtain ⟨h1, h2, h3, h4, h5⟩ := hend
  refine ⟨w.names[i], List.getElem?_eq_getElem h5, ?_⟩
  obtain ⟨k1, k2, k3⟩ := h4 w.names[i] (List.getElem?_eq_getElem h5)
  unfold hashKey
  cases hh : w.names[i].hash with
  | some y => obtain ⟨o, hp, e⟩ := k3 y hh; exact ⟨o, hp, e⟩
  | none =>
    simp only
    rw [k1, k2, h2]
    by_cases hp : order.isPerm tags
    · rw [if_pos hp]; exact ⟨order, List.isPerm_iff.1 hp, rfl⟩
    · rw [if_neg hp]; exact ⟨tags, List.Perm.refl _, rfl⟩

/-- **C96.** After its first `HashKey` a name returns the same key for ever, whatever is written to whichever map. -/
theorem C96_frozen (before after : List Op) (i : Nat) (order order' : List (GoStr × GoStr)) (name : Name) (h : (run start before).names[i]? = some name) :
    ∃ name', (run start (before ++ .hashKey i order :: after)).names[i]? = some name' ∧
      (hashKey (run start (before ++ .hashKey i order :: after)) order' name').1 = (hashKey (run start before) order name).1 := by
  rw [run_append]
  have h1 : (step (run start before) (.hashKey i order)).names[i]? = some (hashKey (run start before) order name).2 := by simp [step, h]
  obtain ⟨n', e1, -, -, e2⟩ := keep_run after i _ _ h1
  refine ⟨n', e1, ?_⟩
  have h2 : (hashKey (run start before) order name).2.hash = some (hashKey (run start before) order name).1 := by
    unfold hashKey
    cases hh : name.hash with
    | some y => exact hh
    | none => rfl
  have h3 := e2 _ h2
  show (hashKey _ order' n').1 = _
  generalize (hashKey (run start before) order name).1 = r at *
  unfold hashKey
  rw [h3]

/-- **C96.** As long as nobody writes a tag into a name made with nil tags (`emptyTags` itself is not exported), the hash key of such a name is its key. -/
theorem C96_nil_tags (h : List Op)
    (hw : ∀ pre o post, h = pre ++ o :: post → (∀ k v, o ≠ .put emptyTags k v) ∧
      ∀ j k v n, o = .putVia j k v → (run start pre).names[j]? = some n → n.tags ≠ emptyTags)
    (i : Nat) (name : Name) (hn : (run start h).names[i]? = some name) (hnil : name.tags = emptyTags) (order : List (GoStr × GoStr)) :
    (hashKey (run start h) order name).1 = name.key := by
  have key : (run start h).map emptyTags = [] ∧ ∀ n ∈ (run start h).names, n.tags = emptyTags → ∀ x, n.hash = some x → x = n.key := by
    clear hn
    induction h using List.reverseRecOn with
    | nil => exact ⟨rfl, by simp [run, start]⟩
    | append_singleton h o ih =>
      obtain ⟨i1, i2⟩ := ih fun pre o' post e => hw pre o' (post ++ [o]) (by rw [e]; simp)
      obtain ⟨w1, w2⟩ := hw h o [] rfl
      have hpos := (refs h).1
      rw [run_snoc]
      generalize run start h = w at *
      cases o with
      | newMap t =>
        refine ⟨?_, i2⟩
        rw [← i1]; unfold World.map step; simp only; rw [List.getElem?_append_left (show emptyTags < w.maps.length from hpos)]
      | newName k tags =>
        rw [step_newName]
        split
        · refine ⟨i1, fun n hn ht x hx => ?_⟩
          rcases List.mem_append.1 hn with hn | hn
          · exact i2 n hn ht x hx
          · simp at hn; rw [hn] at hx; simp [newName] at hx
        · exact ⟨i1, i2⟩
      | put m k v =>
        have hm : m ≠ emptyTags := fun e => w1 k v (by rw [e])
        exact ⟨(write_other w k v hm).trans i1, i2⟩
      | putVia j k v =>
        rw [step_putVia]
        cases hn : w.names[j]? with
        | none => exact ⟨i1, i2⟩
        | some n => exact ⟨(write_other w k v (w2 j k v n rfl hn)).trans i1, i2⟩
      | hashKey j order =>
        refine ⟨i1, fun n hn ht x hx => ?_⟩
        obtain ⟨p, hp, e⟩ := List.mem_iff_getElem.1 hn
        have e' : (step w (.hashKey j order)).names[p]? = some n := List.getElem?_eq_some_iff.2 ⟨hp, e⟩
        simp only [step, List.getElem?_modify] at e'
        cases hwp : w.names[p]? with
        | none => rw [hwp] at e'; simp at e'
        | some n0 =>
          rw [hwp] at e'
          have old := i2 n0 (List.mem_of_getElem? hwp)
          by_cases ejp : j = p
          · simp [ejp] at e'
            subst e'
            unfold hashKey at hx ht ⊢
            cases hh : n0.hash with
            | some y =>
              rw [hh] at hx ht
              exact old ht x hx
            | none =>
              rw [hh] at hx ht
              simp only [Option.some.injEq] at hx ht
              rw [ht, i1] at hx
              rw [← hx]
              by_cases hpm : order.isPerm ([] : List (GoStr × GoStr))
              · rw [if_pos hpm, List.perm_nil.1 (List.isPerm_iff.1 hpm)]; rfl
              · rw [if_neg hpm]; rfl
          · simp [ejp] at e'
            subst e'
            exact old ht x hx
  obtain ⟨k1, k2⟩ := key
  unfold hashKey
  cases hh : name.hash with
  | some y => exact k2 name (List.mem_of_getElem? hn) hnil y hh
  | none =>
    simp only
    rw [hnil, k1]
    by_cases hpm : order.isPerm ([] : List (GoStr × GoStr))
    · rw [if_pos hpm, List.perm_nil.1 (List.isPerm_iff.1 hpm)]; rfl
    · rw [if_neg hpm]; rfl

/-- Three names, two of them without tags; a tag is written into the third. -/
example : (run start [.newName [97] none, .newMap [], .newName [98] (some 1), .putVia 1 [120] [121], .newName [99] none, .hashKey 0 []]).names =
    [⟨[97], 0, some [97]⟩, ⟨[98], 1, none⟩, ⟨[99], 0, none⟩] := by decide

/-- **C96.** Names made with nil tags are not independent: they share one map. A tag written into one of them (key "a") appears in the hash key of another ("b"). -/
theorem C96_nil_tags_independent_refuted : ¬ ∀ (before after : List Op) (key : GoStr) (i : Nat) (name : Name) (order : List (GoStr × GoStr)),
    i = (run start before).names.length → (∀ o ∈ after, ∀ k v, o ≠ .putVia i k v) →
    (run start (before ++ [.newName key none] ++ after)).names[i]? = some name →
    (hashKey (run start (before ++ [.newName key none] ++ after)) order name).1 = key := by
  intro hall
  have := hall [.newName [97] none] [.putVia 0 [120] [121]] [98] 1 ⟨[98], 0, none⟩ [] (by decide) (by intro o ho; simp at ho; subst ho; simp) (by decide)
  revert this
  decide

/-- **C96.** Nor does a name keep a copy of the map it was made from: what the caller puts into that map before the first `HashKey` is in the hash key. -/
theorem C96_copies_tags_refuted : ¬ ∀ (before after : List Op) (key : GoStr) (tags : GoMap GoStr GoStr) (a : Nat) (i : Nat) (name : Name),
    a = (run start before).maps.length → i = (run start before).names.length → (∀ o ∈ after, ∀ k v, o ≠ .putVia i k v) →
    (run start (before ++ [.newMap tags, .newName key (some a)] ++ after)).names[i]? = some name →
    (hashKey (run start (before ++ [.newMap tags, .newName key (some a)] ++ after)) [] name).1 = MetricName.compute key tags := by
  intro hall
  have := hall [] [.put 1 [120] [121]] [98] [] 1 0 ⟨[98], 1, none⟩ (by decide) (by decide) (by intro o ho; simp at ho; subst ho; simp) (by decide)
  revert this
  decide

/-- `C96_own_map` on a program that does much else: two nil names that share a tag, and another map. -/
example :
    let w := run start ([.newName [97] none, .newName [98] none] ++ [.newMap [([107], [118])], .newName [99] (some 1)] ++
      [.putVia 0 [120] [121], .newMap [], .put 2 [1] [2], .newName [100] (some 2), .hashKey 0 [], .putVia 3 [3] [4]])
    ∃ name, w.names[2]? = some name ∧ ∃ order', order'.Perm [([107], [118])] ∧ (hashKey w [] name).1 = MetricName.compute [99] order' :=
  C96_own_map [.newName [97] none, .newName [98] none] [.putVia 0 [120] [121], .newMap [], .put 2 [1] [2], .newName [100] (some 2), .hashKey 0 [], .putVia 3 [3] [4]]
    [99] [([107], [118])] 1 2 (by decide) (by decide) (by intro o ho; simp at ho; rcases ho with rfl | rfl | rfl | rfl | rfl | rfl <;> simp [Touches]) []

end GoMetrics
