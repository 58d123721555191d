import Verif.Model.ConfigJson
import Mathlib.Data.Nat.Digits.Lemmas
/-! # C103 — the configuration as a JSON document -/
namespace GoMetrics
namespace ConfigJson

/-! ## Specification -/

/-- A key of a document that is the same as a lower-case name up to case. The Kelvin sign (E2 84 AA) counts as a k and the long s (C5 BF) as an s. -/
inductive SameUpToCase : GoStr → GoStr → Prop
  | nil : SameUpToCase [] []
  | same (c : UInt8) {k n : GoStr} : SameUpToCase k n → SameUpToCase (c :: k) (c :: n)
  | capital (c : UInt8) {k n : GoStr} : 97 ≤ c → c ≤ 122 → SameUpToCase k n → SameUpToCase ((c - 32) :: k) (c :: n)
  | kelvin {k n : GoStr} : SameUpToCase k n → SameUpToCase (0xE2 :: 0x84 :: 0xAA :: k) (107 :: n)
  | longS {k n : GoStr} : SameUpToCase k n → SameUpToCase (0xC5 :: 0xBF :: k) (115 :: n)

/-- The `int` fields that can be configured, with their documented keys. -/
def intFields : List (GoStr × (MetricConfig → Int)) :=
  [(key ['m','a','x','_','s','u','b','c','a','t','e','g','o','r','y','_','c','o','u','n','t'], MetricConfig.maxSubCategoryCount),
   (key ['g','l','o','b','a','l','_','i','n','t','e','r','v','a','l'], MetricConfig.globalInterval),
   (key ['m','a','x','_','c','o','m','p','a','s','s','_','e','r','r','o','r','_','c','o','d','e','_','c','o','u','n','t'], MetricConfig.maxCompassErrorCodeCount),
   (key ['r','e','s','e','r','v','o','i','r','_','t','y','p','e'], MetricConfig.reservoirType),
   (key ['b','u','c','k','e','t','_','c','o','u','n','t'], MetricConfig.bucketCount)]

/-- "manager", "enables", "level_interval" -/
def managerKey : GoStr := key ['m','a','n','a','g','e','r']
def enablesKey : GoStr := key ['e','n','a','b','l','e','s']
def levelKey : GoStr := key ['l','e','v','e','l','_','i','n','t','e','r','v','a','l']

/-- `s` is the number `n` in decimal: perhaps a sign, then at least one digit, leading zeros allowed. -/
def Numeral (s : GoStr) (n : Int) : Prop :=
  InI64 n ∧ ∃ ds : List Nat, ds ≠ [] ∧ (∀ d ∈ ds, d < 10) ∧
    let m : Nat := ds.foldl (fun a d => a * 10 + d) 0
    let t : GoStr := ds.map fun d => UInt8.ofNat (48 + d)
    (s = 45 :: t ∧ n = - (m : Int)) ∨ ((s = 43 :: t ∨ s = t) ∧ n = m)

/-- All numbers of a configuration are 64 bit, and its map is a map. -/
def Sound (c : MetricConfig) : Prop :=
  InI64 c.maxSubCategoryCount ∧ InI64 c.globalInterval ∧ InI64 c.maxCompassErrorCodeCount ∧ InI64 c.reservoirType ∧ InI64 c.bucketCount ∧
    ∀ m, c.levelInterval = some m → m.WF ∧ ∀ e ∈ m, InI64 e.1 ∧ InI64 e.2

/-- What a document may hold for a number, a string, a list of strings, and the intervals of the levels. -/
def IntValue (v : Json) : Prop := v = .null ∨ ∃ n, InI64 n ∧ v = .num n
def StrValue (v : Json) : Prop := v = .null ∨ ∃ s, v = .str s
def ListValue (v : Json) : Prop := v = .null ∨ ∃ l, v = .arr l ∧ ∀ j ∈ l, StrValue j
def LevelsValue (v : Json) : Prop := v = .null ∨ ∃ l, v = .obj l ∧ ∀ e ∈ l, (∃ n, Numeral e.1 n) ∧ IntValue e.2

/-! ## Proofs -/

theorem visible_eq : visible = [(managerKey, .manager), (enablesKey, .enables),
   (key ['m','a','x','_','s','u','b','c','a','t','e','g','o','r','y','_','c','o','u','n','t'], .maxSubCategoryCount),
   (key ['g','l','o','b','a','l','_','i','n','t','e','r','v','a','l'], .globalInterval),
   (levelKey, .levelInterval),
   (key ['m','a','x','_','c','o','m','p','a','s','s','_','e','r','r','o','r','_','c','o','d','e','_','c','o','u','n','t'], .maxCompassErrorCodeCount),
   (key ['r','e','s','e','r','v','o','i','r','_','t','y','p','e'], .reservoirType),
   (key ['b','u','c','k','e','t','_','c','o','u','n','t'], .bucketCount)] := by decide +kernel

/-- A name of the kind the tags have: small letters and underscores. -/
def Lower (n : GoStr) : Prop := ∀ c ∈ n, (97 ≤ c ∧ c ≤ 122) ∨ c = 95

instance (n : GoStr) : Decidable (Lower n) := by unfold Lower; infer_instance

theorem visible_lower : ∀ f ∈ visible, Lower f.1 := by rw [visible_eq]; decide +kernel
theorem visible_fold : ∀ f ∈ visible, fold f.1 = f.1 := by rw [visible_eq]; decide +kernel
theorem visible_nodup : (visible.map Prod.fst).Nodup := by rw [visible_eq]; decide +kernel

theorem same_fold {k n : GoStr} (h : SameUpToCase k n) (hn : Lower n) : fold k = n := by
  induction h with
  | nil => rfl
  | same c h ih =>
    have hc := hn c (by simp)
    have ih := ih fun d hd => hn d (by simp [hd])
    rw [fold.eq_def]
    split
    · exact absurd hc (by simp_all)
    · exact absurd hc (by simp_all)
    · rename_i c' t' _ _ heq
      obtain ⟨rfl, rfl⟩ := List.cons.inj heq
      rw [ih, if_neg]
      intro ⟨h1, h2⟩
      rcases hc with ⟨h3, h4⟩ | rfl
      · exact absurd (UInt8.le_trans h3 h2) (by decide)
      · exact absurd h2 (by decide)
    · simp_all
  | capital c h1 h2 h ih =>
    have ih := ih fun d hd => hn d (by simp [hd])
    rw [fold.eq_def]
    have hb : (c - 32).toNat = c.toNat - 32 ∧ 97 ≤ c.toNat ∧ c.toNat ≤ 122 := by
      have h1' : (97 : UInt8).toNat ≤ c.toNat := h1
      have h2' : c.toNat ≤ (122 : UInt8).toNat := h2
      have e1 : (97 : UInt8).toNat = 97 := by decide
      have e2 : (122 : UInt8).toNat = 122 := by decide
      rw [e1] at h1'; rw [e2] at h2'
      refine ⟨?_, h1', h2'⟩
      rw [UInt8.toNat_sub_of_le]
      · rfl
      · exact UInt8.le_trans (by decide) h1
    split
    · rename_i heq
      have := congrArg UInt8.toNat (List.cons.inj heq).1
      rw [hb.1] at this
      have e : (0xE2 : UInt8).toNat = 226 := by decide
      rw [e] at this; omega
    · rename_i heq
      have := congrArg UInt8.toNat (List.cons.inj heq).1
      rw [hb.1] at this
      have e : (0xC5 : UInt8).toNat = 197 := by decide
      rw [e] at this; omega
    · rename_i c' t' _ _ heq
      obtain ⟨rfl, rfl⟩ := List.cons.inj heq
      rw [ih, if_pos]
      · congr 1; simp
      · constructor
        · rw [UInt8.le_iff_toNat_le]
          have e : (65 : UInt8).toNat = 65 := by decide
          rw [hb.1, e]; omega
        · rw [UInt8.le_iff_toNat_le]
          have e : (90 : UInt8).toNat = 90 := by decide
          rw [hb.1, e]; omega
    · simp_all
  | kelvin h ih => rw [fold, ih fun d hd => hn d (by simp [hd])]
  | longS h ih => rw [fold, ih fun d hd => hn d (by simp [hd])]

theorem fold_same (k : GoStr) : SameUpToCase k (fold k) := by
  induction k using fold.induct with
  | case1 t ih => rw [fold]; exact .kelvin ih
  | case2 t ih => rw [fold]; exact .longS ih
  | case3 c t h1 h2 ih =>
    have e : fold (c :: t) = (if 65 ≤ c ∧ c ≤ 90 then c + 32 else c) :: fold t := by
      rw [fold.eq_def]
      split
      · rename_i t' heq; obtain ⟨rfl, rfl⟩ := List.cons.inj heq; exact absurd rfl (h1 _ rfl)
      · rename_i t' heq; obtain ⟨rfl, rfl⟩ := List.cons.inj heq; exact absurd rfl (h2 _ rfl)
      · rename_i heq; obtain ⟨rfl, rfl⟩ := List.cons.inj heq; rfl
      · simp_all
    rw [e]
    split
    · rename_i h
      have : c = (c + 32) - 32 := by simp
      have hb1 : (65 : UInt8).toNat ≤ c.toNat := h.1
      have hb2 : c.toNat ≤ (90 : UInt8).toNat := h.2
      have e1 : (65 : UInt8).toNat = 65 := by decide
      have e2 : (90 : UInt8).toNat = 90 := by decide
      rw [e1] at hb1; rw [e2] at hb2
      have hs : (c + 32).toNat = c.toNat + 32 := by
        rw [UInt8.toNat_add]; show (c.toNat + 32) % 256 = _; omega
      have := SameUpToCase.capital (c + 32) (k := t) (n := fold t)
        (by rw [UInt8.le_iff_toNat_le, hs]; show 97 ≤ _; omega) (by rw [UInt8.le_iff_toNat_le, hs]; show _ ≤ 122; omega) ih
      simpa using this
    · exact .same c ih
  | case4 => exact .nil

theorem same_iff {k n : GoStr} (hn : Lower n) : SameUpToCase k n ↔ fold k = n :=
  ⟨fun h => same_fold h hn, fun h => h ▸ fold_same k⟩

theorem find?_congr' {α : Type} {p q : α → Bool} {l : List α} (h : ∀ x ∈ l, p x = q x) : l.find? p = l.find? q := by
  induction l with
  | nil => rfl
  | cons a l ih =>
    simp only [List.find?_cons]
    rw [h a (by simp), ih fun x hx => h x (by simp [hx])]

theorem find_eq (k : GoStr) : find k = (visible.find? fun f => f.1 = fold k).map Prod.snd := by
  unfold find
  cases h : visible.find? fun f => f.1 = k with
  | none =>
    show (visible.find? fun f => fold f.1 = fold k).map Prod.snd = _
    rw [find?_congr' (p := fun f : GoStr × Slot => decide (fold f.1 = fold k)) (q := fun f : GoStr × Slot => decide (f.1 = fold k))
      fun f hf => by simp only [visible_fold f hf]]
  | some f =>
    have hm := List.mem_of_find?_eq_some h
    have hk : f.1 = k := by simpa using List.find?_some h
    have : fold k = k := by rw [← hk, visible_fold f hm]
    rw [this, h]; rfl

theorem find_some {n : GoStr} {s : Slot} (hm : (n, s) ∈ visible) (k : GoStr) : find k = some s ↔ SameUpToCase k n := by
  rw [same_iff (visible_lower _ hm), find_eq]
  have huniq : ∀ f ∈ visible, ∀ g ∈ visible, f.1 = g.1 → f = g := by rw [visible_eq]; decide +kernel
  have huniq2 : ∀ f ∈ visible, ∀ g ∈ visible, f.2 = g.2 → f = g := by rw [visible_eq]; decide +kernel
  constructor
  · intro h
    obtain ⟨f, hf, hs⟩ := Option.map_eq_some_iff.1 h
    have h1 : f.1 = fold k := by simpa using List.find?_some hf
    have := huniq2 f (List.mem_of_find?_eq_some hf) _ hm hs
    rw [← h1, this]
  · intro h
    cases hf : visible.find? fun f => f.1 = fold k with
    | none =>
      have := List.find?_eq_none.1 hf _ hm
      simp [h] at this
    | some f =>
      have h1 : f.1 = fold k := by simpa using List.find?_some hf
      have := huniq f (List.mem_of_find?_eq_some hf) _ hm (by rw [h1, h])
      rw [this]; rfl

theorem find_visible {k : GoStr} {s : Slot} (h : find k = some s) : s ≠ .maxMetricCountPerRegistry ∧ s ≠ .maxCompassAddonCount := by
  rw [find_eq] at h
  obtain ⟨f, hf, hs⟩ := Option.map_eq_some_iff.1 h
  have hm := List.mem_of_find?_eq_some hf
  have : ∀ f ∈ visible, f.2 ≠ .maxMetricCountPerRegistry ∧ f.2 ≠ .maxCompassAddonCount := by rw [visible_eq]; decide +kernel
  rw [← hs]; exact this f hm

/-- A getter that reads only field `s`. -/
def Only {α : Type} (g : MetricConfig → α) (s : Slot) : Prop := ∀ c v s', s' ≠ s → g (readSlot c v s').1 = g c

theorem fold_untouched {α : Type} {g : MetricConfig → α} {s : Slot} (hg : Only g s) (l : List (GoStr × Json)) (r : MetricConfig × Bool)
    (h : ∀ e ∈ l, find e.1 ≠ some s) : g (l.foldl readKey r).1 = g r.1 := by
  induction l generalizing r with
  | nil => rfl
  | cons e l ih =>
    rw [List.foldl_cons, ih _ fun e' he' => h e' (by simp [he'])]
    unfold readKey
    have := h e (by simp)
    cases hf : find e.1 with
    | none => rfl
    | some s' => exact hg _ _ _ (by rintro rfl; exact this hf)

theorem fold_last {α : Type} {g : MetricConfig → α} {s : Slot} (hg : Only g s) (l1 l2 : List (GoStr × Json)) (k : GoStr) (v : Json) (r : MetricConfig × Bool)
    (hk : find k = some s) (h2 : ∀ e ∈ l2, find e.1 ≠ some s) :
    g ((l1 ++ (k, v) :: l2).foldl readKey r).1 = g (readSlot (l1.foldl readKey r).1 v s).1 := by
  rw [List.foldl_append, List.foldl_cons, fold_untouched hg _ _ h2]
  simp only [readKey, hk]

theorem only_all :
    Only MetricConfig.manager .manager ∧ Only MetricConfig.enables .enables ∧ Only MetricConfig.maxSubCategoryCount .maxSubCategoryCount ∧
    Only MetricConfig.globalInterval .globalInterval ∧ Only MetricConfig.levelInterval .levelInterval ∧
    Only MetricConfig.maxMetricCountPerRegistry .maxMetricCountPerRegistry ∧ Only MetricConfig.maxCompassErrorCodeCount .maxCompassErrorCodeCount ∧
    Only MetricConfig.maxCompassAddonCount .maxCompassAddonCount ∧ Only MetricConfig.reservoirType .reservoirType ∧
    Only MetricConfig.bucketCount .bucketCount := by
  refine ⟨?_, ?_, ?_, ?_, ?_, ?_, ?_, ?_, ?_, ?_⟩ <;> intro c v s' h <;> cases s' <;> first | rfl | exact absurd rfl h

theorem readInt_num (old n : Int) (h : InI64 n) : readInt old (.num n) = (n, false) := by
  show (if -9223372036854775808 ≤ n ∧ n < 9223372036854775808 then (n, false) else (old, true)) = _
  exact if_pos h

/-- The slot of an `int` field, and what reading a number into it does. -/
theorem int_slot {f : GoStr × (MetricConfig → Int)} (hf : f ∈ intFields) :
    ∃ s, (f.1, s) ∈ visible ∧ Only f.2 s ∧ ∀ c v, f.2 (readSlot c v s).1 = (readInt (f.2 c) v).1 := by
  obtain ⟨-, -, o3, o4, -, -, o7, -, o9, o10⟩ := only_all
  simp only [intFields, List.mem_cons, List.not_mem_nil, or_false] at hf
  rcases hf with rfl | rfl | rfl | rfl | rfl
  · exact ⟨.maxSubCategoryCount, by rw [visible_eq]; decide +kernel, o3, fun _ _ => rfl⟩
  · exact ⟨.globalInterval, by rw [visible_eq]; decide +kernel, o4, fun _ _ => rfl⟩
  · exact ⟨.maxCompassErrorCodeCount, by rw [visible_eq]; decide +kernel, o7, fun _ _ => rfl⟩
  · exact ⟨.reservoirType, by rw [visible_eq]; decide +kernel, o9, fun _ _ => rfl⟩
  · exact ⟨.bucketCount, by rw [visible_eq]; decide +kernel, o10, fun _ _ => rfl⟩

theorem manager_slot : (managerKey, Slot.manager) ∈ visible := by rw [visible_eq]; decide +kernel
theorem enables_slot : (enablesKey, Slot.enables) ∈ visible := by rw [visible_eq]; decide +kernel
theorem level_slot : (levelKey, Slot.levelInterval) ∈ visible := by rw [visible_eq]; decide +kernel

/-! ### Numerals -/

theorem digit_byte (d : Nat) (h : d < 10) : (UInt8.ofNat (48 + d)).toNat = 48 + d := by
  rw [UInt8.toNat_ofNat']; omega

theorem parseDigits_spec (s : GoStr) (m : Nat) : parseDigits s = some m ↔
    ∃ ds : List Nat, ds ≠ [] ∧ (∀ d ∈ ds, d < 10) ∧ s = ds.map (fun d => UInt8.ofNat (48 + d)) ∧ m = ds.foldl (fun a d => a * 10 + d) 0 := by
  have hval : ∀ (ds : List Nat) (a : Nat), (∀ d ∈ ds, d < 10) →
      (ds.map fun d => UInt8.ofNat (48 + d)).foldl (fun a c => a * 10 + (c.toNat - 48)) a = ds.foldl (fun a d => a * 10 + d) a := by
    intro ds
    induction ds with
    | nil => intro a _; rfl
    | cons d ds ih =>
      intro a h
      simp only [List.map_cons, List.foldl_cons]
      rw [digit_byte d (h d (by simp)), ih _ fun x hx => h x (by simp [hx])]
      congr 2; omega
  unfold parseDigits
  constructor
  · intro h
    split at h
    · cases h
    · rename_i hne
      split at h
      · rename_i hall
        have hb : ∀ c ∈ s, 48 ≤ c.toNat ∧ c.toNat ≤ 57 := by
          intro c hc
          have := List.all_eq_true.1 hall c hc
          simp only [Bool.and_eq_true, decide_eq_true_eq] at this
          rw [UInt8.le_iff_toNat_le, UInt8.le_iff_toNat_le] at this
          exact ⟨this.1, this.2⟩
        have hmap : s = (s.map fun c => c.toNat - 48).map fun d => UInt8.ofNat (48 + d) := by
          rw [List.map_map]
          conv_lhs => rw [← List.map_id s]
          refine List.map_congr_left fun c hc => ?_
          have := hb c hc
          apply UInt8.toNat_inj.1
          simp only [Function.comp, id]
          rw [digit_byte _ (by omega)]; omega
        refine ⟨s.map fun c => c.toNat - 48, fun he => hne (List.map_eq_nil_iff.1 he), ?_, ?_, ?_⟩
        · intro d hd
          obtain ⟨c, hc, rfl⟩ := List.mem_map.1 hd
          have := hb c hc; omega
        · exact hmap
        · rw [List.foldl_map]; exact (Option.some.inj h).symm
      · cases h
  · rintro ⟨ds, hne, hd, rfl, rfl⟩
    rw [if_neg (by simpa using hne), if_pos, hval ds 0 hd]
    rw [List.all_eq_true]
    intro c hc
    obtain ⟨d, hd', rfl⟩ := List.mem_map.1 hc
    have h1 := digit_byte d (hd d hd')
    have h2 := hd d hd'
    simp only [Bool.and_eq_true, decide_eq_true_eq]
    rw [UInt8.le_iff_toNat_le, UInt8.le_iff_toNat_le, h1]
    exact ⟨by show 48 ≤ _; omega, by show _ ≤ 57; omega⟩

theorem parseDigits_sign (t : GoStr) (c : UInt8) (hc : c.toNat < 48) : parseDigits (c :: t) = none := by
  unfold parseDigits
  rw [if_neg (by simp), if_neg]
  intro h
  have := List.all_eq_true.1 h c (by simp)
  simp only [Bool.and_eq_true, decide_eq_true_eq] at this
  have h1 := UInt8.le_iff_toNat_le.1 this.1
  have e : (48 : UInt8).toNat = 48 := by decide
  rw [e] at h1; omega

theorem parseInt_numeral (s : GoStr) (n : Int) : parseInt s = some n ↔ Numeral s n := by
  have aux : ∀ r : Option Int, r.filter (fun n => -9223372036854775808 ≤ n ∧ n < 9223372036854775808) = some n ↔ InI64 n ∧ r = some n := by
    intro r
    rw [Option.filter_eq_some_iff, decide_eq_true_eq]
    exact ⟨fun h => ⟨h.2, h.1⟩, fun h => ⟨h.2, h.1⟩⟩
  unfold parseInt Numeral
  rw [aux]
  refine and_congr_right fun _ => ?_
  have start : ∀ (ds : List Nat) (c : UInt8), ds ≠ [] → (∀ d ∈ ds, d < 10) → c.toNat < 48 → ∀ t, c :: t ≠ ds.map fun d => UInt8.ofNat (48 + d) := by
    intro ds c h1 h2 h3 t he
    cases ds with
    | nil => exact h1 rfl
    | cons d ds =>
      have := congrArg UInt8.toNat (List.cons.inj he).1
      rw [digit_byte d (h2 d (by simp))] at this; omega
  split
  · rename_i t
    constructor
    · intro h
      obtain ⟨m, hm, rfl⟩ := Option.map_eq_some_iff.1 h
      obtain ⟨ds, h1, h2, h3, h4⟩ := (parseDigits_spec _ _).1 hm
      exact ⟨ds, h1, h2, .inl ⟨by rw [h3], by rw [h4]⟩⟩
    · rintro ⟨ds, h1, h2, ⟨h3, h4⟩ | ⟨h3 | h3, h4⟩⟩
      · refine Option.map_eq_some_iff.2 ⟨_, (parseDigits_spec _ _).2 ⟨ds, h1, h2, (List.cons.inj h3).2, rfl⟩, h4.symm⟩
      · exact absurd (List.cons.inj h3).1 (by decide)
      · exact absurd h3 (start ds 45 h1 h2 (by decide) t)
  · rename_i t
    constructor
    · intro h
      obtain ⟨m, hm, rfl⟩ := Option.map_eq_some_iff.1 h
      obtain ⟨ds, h1, h2, h3, h4⟩ := (parseDigits_spec _ _).1 hm
      exact ⟨ds, h1, h2, .inr ⟨.inl (by rw [h3]), by rw [h4]⟩⟩
    · rintro ⟨ds, h1, h2, ⟨h3, h4⟩ | ⟨h3 | h3, h4⟩⟩
      · exact absurd (List.cons.inj h3).1 (by decide)
      · refine Option.map_eq_some_iff.2 ⟨_, (parseDigits_spec _ _).2 ⟨ds, h1, h2, (List.cons.inj h3).2, rfl⟩, h4.symm⟩
      · exact absurd h3 (start ds 43 h1 h2 (by decide) t)
  · rename_i hm45 hp43
    constructor
    · intro h
      obtain ⟨m, hm, rfl⟩ := Option.map_eq_some_iff.1 h
      obtain ⟨ds, h1, h2, h3, h4⟩ := (parseDigits_spec _ _).1 hm
      exact ⟨ds, h1, h2, .inr ⟨.inr h3, by rw [h4]⟩⟩
    · rintro ⟨ds, h1, h2, ⟨h3, h4⟩ | ⟨h3 | h3, h4⟩⟩
      · exact absurd h3 (hm45 _)
      · exact absurd h3 (hp43 _)
      · exact Option.map_eq_some_iff.2 ⟨_, (parseDigits_spec _ _).2 ⟨ds, h1, h2, h3, rfl⟩, h4.symm⟩

theorem numeral_format (n : Int) (h : InI64 n) : Numeral (formatInt n) n := by
  have hd : ∀ m : Nat, ∃ ds : List Nat, ds ≠ [] ∧ (∀ d ∈ ds, d < 10) ∧ m = ds.foldl (fun a d => a * 10 + d) 0 ∧
      (if m = 0 then ([48] : GoStr) else (Nat.digits 10 m).reverse.map fun d => UInt8.ofNat (48 + d)) = ds.map fun d => UInt8.ofNat (48 + d) := by
    intro m
    by_cases hm : m = 0
    · subst hm
      exact ⟨[0], by simp, by simp, rfl, rfl⟩
    · refine ⟨(Nat.digits 10 m).reverse, ?_, ?_, ?_, by rw [if_neg hm]⟩
      · simpa using Nat.digits_ne_nil_iff_ne_zero.2 hm
      · intro d hd
        exact Nat.digits_lt_base (by norm_num) (List.mem_reverse.1 hd)
      · conv_lhs => rw [← Nat.ofDigits_digits 10 m]
        rw [List.foldl_reverse, Nat.ofDigits_eq_foldr]
        congr 1
        funext a b; simp; ring
  refine ⟨h, ?_⟩
  unfold formatInt
  obtain ⟨ds, h1, h2, h3, h4⟩ := hd n.natAbs
  refine ⟨ds, h1, h2, ?_⟩
  simp only
  rw [h4, ← h3]
  by_cases hn : n < 0
  · left; rw [if_pos hn]; exact ⟨rfl, by omega⟩
  · right; rw [if_neg hn]; exact ⟨.inr rfl, by omega⟩

theorem parse_format (n : Int) (h : InI64 n) : parseInt (formatInt n) = some n := (parseInt_numeral _ _).2 (numeral_format n h)

/-! ### Maps -/

/-- One entry of an object read into a map. -/
def mapStep (r : Option (GoMap Int Int) × Bool) (e : GoStr × Json) : Option (GoMap Int Int) × Bool :=
  match parseInt e.1 with
  | some k => (some (GoMap.set (r.1.getD []) k (readInt 0 e.2).1), r.2 || (readInt 0 e.2).2)
  | none => (r.1, true)

theorem readMap_obj (old : Option (GoMap Int Int)) (l : List (GoStr × Json)) : readMap old (.obj l) = l.foldl mapStep (some (old.getD []), false) := rfl

theorem map_untouched (l : List (GoStr × Json)) (r : Option (GoMap Int Int) × Bool) (k : Int) (h : ∀ e ∈ l, parseInt e.1 ≠ some k) :
    GoMap.get? ((l.foldl mapStep r).1.getD []) k = GoMap.get? (r.1.getD []) k := by
  induction l generalizing r with
  | nil => rfl
  | cons e l ih =>
    rw [List.foldl_cons, ih _ fun e' he' => h e' (by simp [he'])]
    unfold mapStep
    have := h e (by simp)
    cases hp : parseInt e.1 with
    | none => rfl
    | some k' =>
      simp only [Option.getD_some]
      exact GoMap.get?_set_ne _ _ (by rintro rfl; exact this hp)

theorem map_last (l1 l2 : List (GoStr × Json)) (s : GoStr) (k : Int) (v : Json) (r : Option (GoMap Int Int) × Bool) (hk : parseInt s = some k)
    (h2 : ∀ e ∈ l2, parseInt e.1 ≠ some k) :
    GoMap.get? (((l1 ++ (s, v) :: l2).foldl mapStep r).1.getD []) k = some (readInt 0 v).1 := by
  rw [List.foldl_append, List.foldl_cons, map_untouched _ _ _ h2]
  simp only [mapStep, hk, Option.getD_some, GoMap.get?_set_self]

theorem map_error (l : List (GoStr × Json)) (r : Option (GoMap Int Int) × Bool) :
    (l.foldl mapStep r).2 = true ↔ r.2 = true ∨ ∃ e ∈ l, parseInt e.1 = none ∨ (readInt 0 e.2).2 = true := by
  induction l generalizing r with
  | nil => simp
  | cons e l ih =>
    rw [List.foldl_cons, ih]
    unfold mapStep
    cases hp : parseInt e.1 with
    | none => simp [hp]
    | some k => simp [hp, or_assoc]

/-- Reading back what was written for a map. -/
theorem read_written (m : GoMap Int Int) (hw : m.WF) (hi : ∀ e ∈ m, InI64 e.1 ∧ InI64 e.2) :
    let r := readMap none (.obj ((m.map fun e => (formatInt e.1, Json.num e.2)).insertionSort fun a b => a.1 ≤ b.1))
    (∀ k, GoMap.get? (r.1.getD []) k = m.get? k) ∧ r.2 = false := by
  intro r
  have hperm := List.perm_insertionSort (fun a b : GoStr × Json => a.1 ≤ b.1) (m.map fun e => (formatInt e.1, Json.num e.2))
  generalize hl : (m.map fun e => (formatInt e.1, Json.num e.2)).insertionSort (fun a b => a.1 ≤ b.1) = l at *
  have hr : r = l.foldl mapStep (some [], false) := by show readMap none (.obj ((m.map _).insertionSort _)) = _; rw [hl]; rfl
  have hmem : ∀ e, e ∈ l ↔ ∃ p ∈ m, (formatInt p.1, Json.num p.2) = e := by
    intro e; rw [hperm.mem_iff, List.mem_map]
  have hnd : (l.map Prod.fst).Nodup := by
    rw [(hperm.map Prod.fst).nodup_iff, List.map_map]
    unfold GoMap.WF GoMap.keys at hw
    have : m.map (Prod.fst ∘ fun e => (formatInt e.1, Json.num e.2)) = (m.map Prod.fst).map formatInt := by rw [List.map_map]; rfl
    rw [this]
    refine List.Nodup.map_on ?_ hw
    intro a ha b hb hab
    obtain ⟨p, hp, rfl⟩ := List.mem_map.1 ha
    obtain ⟨q, hq, rfl⟩ := List.mem_map.1 hb
    have h1 := parse_format p.1 (hi p hp).1
    have h2 := parse_format q.1 (hi q hq).1
    rw [hab, h2] at h1
    exact (Option.some.inj h1).symm
  constructor
  · intro k
    rw [hr]
    cases hg : m.get? k with
    | none =>
      rw [map_untouched _ _ _ ?_]
      · rfl
      · intro e he hc
        obtain ⟨p, hp, rfl⟩ := (hmem e).1 he
        rw [parse_format p.1 (hi p hp).1] at hc
        obtain rfl := Option.some.inj hc
        have := GoMap.get?_of_mem hw (k := p.1) (v := p.2) hp
        rw [hg] at this; cases this
    | some v =>
      have hm := GoMap.mem_of_get? hg
      have hin : (formatInt k, Json.num v) ∈ l := (hmem _).2 ⟨(k, v), hm, rfl⟩
      obtain ⟨l1, l2, rfl⟩ := List.append_of_mem hin
      rw [map_last l1 l2 _ k _ _ (parse_format k (hi _ hm).1) ?_, readInt_num _ _ (hi _ hm).2]
      intro e he hc
      obtain ⟨p, hp, rfl⟩ := (hmem e).1 (by simp [he])
      rw [parse_format p.1 (hi p hp).1] at hc
      obtain rfl := Option.some.inj hc
      rw [List.map_append, List.map_cons, List.nodup_append] at hnd
      have := (List.nodup_cons.1 hnd.2.1).1
      exact this (List.mem_map.2 ⟨_, he, rfl⟩)
  · rw [hr]
    rw [← Bool.not_eq_true, map_error]
    rintro (h | ⟨e, he, h⟩)
    · cases h
    · obtain ⟨p, hp, rfl⟩ := (hmem e).1 he
      rw [parse_format p.1 (hi p hp).1, readInt_num _ _ (hi p hp).2] at h
      simp at h

/-! ### Round trip -/

theorem fold_filterMap {α : Type} (h : α → Option (GoStr × Json)) (f : α) (fs : List α) (r : MetricConfig × Bool) :
    ((f :: fs).filterMap h).foldl readKey r = (fs.filterMap h).foldl readKey (match h f with | none => r | some e => readKey r e) := by
  rw [List.filterMap_cons]
  cases h f <;> rfl

theorem find_self {n : GoStr} {s : Slot} (hm : (n, s) ∈ visible) : find n = some s := by
  rw [find_some hm, same_iff (visible_lower _ hm)]; exact visible_fold _ hm

/-- What reading does with the entry written for a field: nothing if none is written. -/
def back (c : MetricConfig) (r : MetricConfig × Bool) (s : Slot) : MetricConfig × Bool :=
  match writeSlot c s with
  | none => r
  | some v => ((readSlot r.1 v s).1, r.2 || (readSlot r.1 v s).2)

theorem fold_written (c : MetricConfig) (fs : List (GoStr × Slot)) (hfs : ∀ f ∈ fs, f ∈ visible) (r : MetricConfig × Bool) :
    (fs.filterMap fun f => (writeSlot c f.2).map fun v => (f.1, v)).foldl readKey r = (fs.map Prod.snd).foldl (back c) r := by
  induction fs generalizing r with
  | nil => rfl
  | cons f fs ih =>
    rw [fold_filterMap, ih fun g hg => hfs g (by simp [hg]), List.map_cons, List.foldl_cons]
    congr 1
    unfold back
    cases h : writeSlot c f.2 with
    | none => rfl
    | some v =>
      simp only [Option.map_some, readKey]
      rw [find_self (hfs f (by simp))]

theorem unmarshal_marshal (c d : MetricConfig) : unmarshal d (marshal c) =
    [Slot.manager, .enables, .maxSubCategoryCount, .globalInterval, .levelInterval, .maxCompassErrorCodeCount, .reservoirType, .bucketCount].foldl
      (back c) (d, false) := by
  show (visible.filterMap _).foldl readKey _ = _
  rw [fold_written c visible fun _ h => h]
  rw [visible_eq]; rfl

theorem back_int {c : MetricConfig} {r : MetricConfig × Bool} {s : Slot} {n : Int} (set : MetricConfig → Int → MetricConfig) (get : MetricConfig → Int)
    (hw : writeSlot c s = if n = 0 then none else some (.num n)) (hr : ∀ v, readSlot r.1 v s = (set r.1 (readInt (get r.1) v).1, (readInt (get r.1) v).2))
    (h0 : set r.1 0 = r.1) (hi : InI64 n) : back c r s = (set r.1 n, r.2) := by
  unfold back
  rw [hw]
  by_cases hn : n = 0
  · rw [if_pos hn, hn, h0]
  · rw [if_neg hn]
    simp only [hr, readInt_num _ _ hi, Bool.or_false]

theorem readInt_error (old : Int) (v : Json) : (readInt old v).2 = true ↔ ¬ IntValue v := by
  unfold IntValue
  cases v with
  | num n =>
    by_cases h : InI64 n
    · rw [readInt_num _ _ h]; simp [h]
    · show (if -9223372036854775808 ≤ n ∧ n < 9223372036854775808 then (n, false) else (old, true)).2 = true ↔ _
      have h' : ¬ (-9223372036854775808 ≤ n ∧ n < 9223372036854775808) := h
      rw [if_neg h']; simp [h]
  | _ => simp [readInt]

theorem readStr_error (old : GoStr) (v : Json) : (readStr old v).2 = true ↔ ¬ StrValue v := by
  unfold StrValue
  cases v <;> simp [readStr]

theorem readStrs_error (old : List GoStr) (v : Json) : (readStrs old v).2 = true ↔ ¬ ListValue v := by
  unfold ListValue
  cases v with
  | arr l =>
    show l.any (fun j => (readStr [] j).2) = true ↔ _
    rw [List.any_eq_true]
    constructor
    · rintro ⟨j, hj, h⟩ (h' | ⟨l', h', hl⟩)
      · cases h'
      · obtain rfl := Json.arr.inj h'
        exact (readStr_error _ _).1 h (hl j hj)
    · intro h
      by_contra hc
      refine h (.inr ⟨l, rfl, fun j hj => ?_⟩)
      by_contra hn
      exact hc ⟨j, hj, (readStr_error _ _).2 hn⟩
  | _ => simp [readStrs]

theorem readMap_error (old : Option (GoMap Int Int)) (v : Json) : (readMap old v).2 = true ↔ ¬ LevelsValue v := by
  unfold LevelsValue
  cases v with
  | obj l =>
    rw [readMap_obj, map_error]
    constructor
    · rintro (h | ⟨e, he, h⟩) (h' | ⟨l', h', hl⟩)
      · cases h
      · cases h
      · cases h'
      · obtain rfl := Json.obj.inj h'
        obtain ⟨⟨n, hn⟩, hv⟩ := hl e he
        rcases h with h | h
        · rw [(parseInt_numeral _ _).2 hn] at h; cases h
        · exact (readInt_error _ _).1 h hv
    · intro h
      by_contra hc
      refine h (.inr ⟨l, rfl, fun e he => ⟨?_, ?_⟩⟩)
      · cases hp : parseInt e.1 with
        | none => exact absurd (.inr ⟨e, he, .inl hp⟩) hc
        | some n => exact ⟨n, (parseInt_numeral _ _).1 hp⟩
      · by_contra hn
        exact hc (.inr ⟨e, he, .inr ((readInt_error _ _).2 hn)⟩)
  | _ => simp [readMap]

/-- The values that fit a field. -/
def Fits (v : Json) : Slot → Prop
  | .manager => StrValue v
  | .enables => ListValue v
  | .levelInterval => LevelsValue v
  | _ => IntValue v

theorem readSlot_error (c : MetricConfig) (v : Json) (s : Slot) : (readSlot c v s).2 = true ↔ ¬ Fits v s := by
  cases s with
  | manager => exact readStr_error _ _
  | enables => exact readStrs_error _ _
  | levelInterval => exact readMap_error _ _
  | _ => exact readInt_error _ _

theorem fold_error (l : List (GoStr × Json)) (r : MetricConfig × Bool) :
    (l.foldl readKey r).2 = true ↔ r.2 = true ∨ ∃ e ∈ l, ∃ s, find e.1 = some s ∧ ¬ Fits e.2 s := by
  induction l generalizing r with
  | nil => simp
  | cons e l ih =>
    rw [List.foldl_cons, ih]
    unfold readKey
    cases hf : find e.1 with
    | none => simp [hf]
    | some s => simp [hf, readSlot_error, or_assoc]

end ConfigJson

open ConfigJson

/-- **C103.** An `int` field (the limits of subcategories and error codes, the interval, the reservoir type, the number of buckets) takes the number that stands last under
its key in the document, whatever the case of the key and whatever else the document holds. -/
theorem C103_reads_numbers (f : GoStr × (MetricConfig → Int)) (hf : f ∈ intFields) (c : MetricConfig) (l1 l2 : List (GoStr × Json)) (k : GoStr) (n : Int)
    (hk : SameUpToCase k f.1) (h2 : ∀ e ∈ l2, ¬ SameUpToCase e.1 f.1) (hn : InI64 n) :
    f.2 (unmarshal c (.obj (l1 ++ (k, .num n) :: l2))).1 = n := by
  obtain ⟨s, hm, ho, hr⟩ := int_slot hf
  show f.2 ((l1 ++ (k, .num n) :: l2).foldl readKey (c, false)).1 = n
  rw [fold_last ho l1 l2 k _ _ ((find_some hm k).2 hk) fun e he h => h2 e he ((find_some hm e.1).1 h), hr, readInt_num _ _ hn]

/-- `{"Global_Interval": 5, "x": null, "bucket_count": 7}` -/
example : let doc : Json := .obj [(key ['G','l','o','b','a','l','_','I','n','t','e','r','v','a','l'], .num 5), (key ['x'], .null),
      (key ['b','u','c','k','e','t','_','c','o','u','n','t'], .num 7)]
    (unmarshal {} doc).1.globalInterval = 5 ∧ (unmarshal {} doc).1.bucketCount = 7 ∧ (unmarshal {} doc).2 = false := by decide +kernel

/-- **C103.** `manager` and `enables` likewise. -/
theorem C103_reads_strings (c : MetricConfig) (l1 l2 : List (GoStr × Json)) (k : GoStr) :
    (∀ name : GoStr, SameUpToCase k managerKey → (∀ e ∈ l2, ¬ SameUpToCase e.1 managerKey) →
      (unmarshal c (.obj (l1 ++ (k, .str name) :: l2))).1.manager = name) ∧
    (∀ names : List GoStr, SameUpToCase k enablesKey → (∀ e ∈ l2, ¬ SameUpToCase e.1 enablesKey) →
      (unmarshal c (.obj (l1 ++ (k, .arr (names.map .str)) :: l2))).1.enables = names) := by
  obtain ⟨o1, o2, -⟩ := only_all
  constructor
  · intro name hk h2
    show ((l1 ++ (k, Json.str name) :: l2).foldl readKey (c, false)).1.manager = name
    rw [fold_last o1 l1 l2 k _ _ ((find_some manager_slot k).2 hk) fun e he h => h2 e he ((find_some manager_slot e.1).1 h)]
    rfl
  · intro names hk h2
    show ((l1 ++ (k, Json.arr (names.map .str)) :: l2).foldl readKey (c, false)).1.enables = names
    rw [fold_last o2 l1 l2 k _ _ ((find_some enables_slot k).2 hk) fun e he h => h2 e he ((find_some enables_slot e.1).1 h)]
    show (names.map Json.str).map (fun j => (readStr [] j).1) = names
    rw [List.map_map]
    exact (List.map_congr_left fun _ _ => rfl).trans (List.map_id _)

/-- **C103.** Of the object under `level_interval`, a level gets the number that stands last under a decimal numeral of the level. -/
theorem C103_reads_levels (c : MetricConfig) (l1 l2 : List (GoStr × Json)) (k : GoStr) (hk : SameUpToCase k levelKey) (h2 : ∀ e ∈ l2, ¬ SameUpToCase e.1 levelKey)
    (o1 o2 : List (GoStr × Json)) (s : GoStr) (level : Int) (hs : Numeral s level) (ho : ∀ e ∈ o2, ¬ Numeral e.1 level) (n : Int) (hn : InI64 n) :
    ∃ m, (unmarshal c (.obj (l1 ++ (k, .obj (o1 ++ (s, .num n) :: o2)) :: l2))).1.levelInterval = some m ∧ m.get? level = some n := by
  obtain ⟨-, -, -, -, o5, -⟩ := only_all
  have h : (unmarshal c (.obj (l1 ++ (k, .obj (o1 ++ (s, .num n) :: o2)) :: l2))).1.levelInterval =
      (readMap (l1.foldl readKey (c, false)).1.levelInterval (.obj (o1 ++ (s, .num n) :: o2))).1 := by
    show ((l1 ++ (k, Json.obj (o1 ++ (s, .num n) :: o2)) :: l2).foldl readKey (c, false)).1.levelInterval = _
    rw [fold_last o5 l1 l2 k _ _ ((find_some level_slot k).2 hk) fun e he h => h2 e he ((find_some level_slot e.1).1 h)]
    rfl
  rw [h, readMap_obj]
  have hl := map_last o1 o2 s level (.num n) (some ((l1.foldl readKey (c, false)).1.levelInterval.getD []), false) ((parseInt_numeral _ _).2 hs)
    fun e he h => ho e he ((parseInt_numeral _ _).1 h)
  rw [readInt_num _ _ hn] at hl
  cases hc : ((o1 ++ (s, Json.num n) :: o2).foldl mapStep (some ((l1.foldl readKey (c, false)).1.levelInterval.getD []), false)).1 with
  | none => rw [hc] at hl; cases hl
  | some m => rw [hc] at hl; exact ⟨m, rfl, hl⟩

/-- `{"level_interval": {"+02": 9}}` -/
example : Numeral (key ['+','0','2']) 2 ∧
    (unmarshal {} (.obj [(levelKey, .obj [(key ['+','0','2'], .num 9)])])).1.levelInterval = some [(2, 9)] :=
  ⟨⟨by unfold InI64; omega, [0, 2], by simp, by simp, .inr ⟨.inl rfl, rfl⟩⟩, by decide +kernel⟩

/-- **C103.** A field whose key the document does not have keeps its value. -/
theorem C103_leaves_others (c : MetricConfig) (l : List (GoStr × Json)) :
    (∀ f ∈ intFields, (∀ e ∈ l, ¬ SameUpToCase e.1 f.1) → f.2 (unmarshal c (.obj l)).1 = f.2 c) ∧
    ((∀ e ∈ l, ¬ SameUpToCase e.1 managerKey) → (unmarshal c (.obj l)).1.manager = c.manager) ∧
    ((∀ e ∈ l, ¬ SameUpToCase e.1 enablesKey) → (unmarshal c (.obj l)).1.enables = c.enables) ∧
    ((∀ e ∈ l, ¬ SameUpToCase e.1 levelKey) → (unmarshal c (.obj l)).1.levelInterval = c.levelInterval) := by
  obtain ⟨o1, o2, -, -, o5, -⟩ := only_all
  refine ⟨fun f hf h => ?_, fun h => ?_, fun h => ?_, fun h => ?_⟩
  · obtain ⟨s, hm, ho, -⟩ := int_slot hf
    exact fold_untouched ho l (c, false) fun e he hc => h e he ((find_some hm e.1).1 hc)
  · exact fold_untouched o1 l (c, false) fun e he hc => h e he ((find_some manager_slot e.1).1 hc)
  · exact fold_untouched o2 l (c, false) fun e he hc => h e he ((find_some enables_slot e.1).1 hc)
  · exact fold_untouched o5 l (c, false) fun e he hc => h e he ((find_some level_slot e.1).1 hc)

/-- **C103.** Reading reports an error exactly if a value does not fit the field its key names - unknown keys are no error -, and goes on. -/
theorem C103_errors (c : MetricConfig) (l : List (GoStr × Json)) : (unmarshal c (.obj l)).2 = true ↔ ∃ e ∈ l,
    (∃ f ∈ intFields, SameUpToCase e.1 f.1 ∧ ¬ IntValue e.2) ∨ (SameUpToCase e.1 managerKey ∧ ¬ StrValue e.2) ∨
    (SameUpToCase e.1 enablesKey ∧ ¬ ListValue e.2) ∨ (SameUpToCase e.1 levelKey ∧ ¬ LevelsValue e.2) := by
  show (l.foldl readKey (c, false)).2 = true ↔ _
  rw [fold_error]
  simp only [Bool.false_eq_true, false_or]
  refine exists_congr fun e => and_congr_right fun _ => ?_
  constructor
  · rintro ⟨s, hs, hf⟩
    cases s with
    | manager => exact .inr (.inl ⟨(find_some manager_slot _).1 hs, hf⟩)
    | enables => exact .inr (.inr (.inl ⟨(find_some enables_slot _).1 hs, hf⟩))
    | levelInterval => exact .inr (.inr (.inr ⟨(find_some level_slot _).1 hs, hf⟩))
    | maxMetricCountPerRegistry => exact absurd rfl (find_visible hs).1
    | maxCompassAddonCount => exact absurd rfl (find_visible hs).2
    | maxSubCategoryCount => exact .inl ⟨_, .head _, (find_some (by rw [visible_eq]; decide +kernel) _).1 hs, hf⟩
    | globalInterval => exact .inl ⟨_, .tail _ (.head _), (find_some (by rw [visible_eq]; decide +kernel) _).1 hs, hf⟩
    | maxCompassErrorCodeCount => exact .inl ⟨_, .tail _ (.tail _ (.head _)), (find_some (by rw [visible_eq]; decide +kernel) _).1 hs, hf⟩
    | reservoirType => exact .inl ⟨_, .tail _ (.tail _ (.tail _ (.head _))), (find_some (by rw [visible_eq]; decide +kernel) _).1 hs, hf⟩
    | bucketCount => exact .inl ⟨_, .tail _ (.tail _ (.tail _ (.tail _ (.head _)))), (find_some (by rw [visible_eq]; decide +kernel) _).1 hs, hf⟩
  · rintro (⟨f, hf, hk, hv⟩ | ⟨hk, hv⟩ | ⟨hk, hv⟩ | ⟨hk, hv⟩)
    · simp only [intFields, List.mem_cons, List.not_mem_nil, or_false] at hf
      rcases hf with rfl | rfl | rfl | rfl | rfl
      · exact ⟨.maxSubCategoryCount, (find_some (by rw [visible_eq]; decide +kernel) _).2 hk, hv⟩
      · exact ⟨.globalInterval, (find_some (by rw [visible_eq]; decide +kernel) _).2 hk, hv⟩
      · exact ⟨.maxCompassErrorCodeCount, (find_some (by rw [visible_eq]; decide +kernel) _).2 hk, hv⟩
      · exact ⟨.reservoirType, (find_some (by rw [visible_eq]; decide +kernel) _).2 hk, hv⟩
      · exact ⟨.bucketCount, (find_some (by rw [visible_eq]; decide +kernel) _).2 hk, hv⟩
    · exact ⟨.manager, (find_some manager_slot _).2 hk, hv⟩
    · exact ⟨.enables, (find_some enables_slot _).2 hk, hv⟩
    · exact ⟨.levelInterval, (find_some level_slot _).2 hk, hv⟩

/-- `{"bucket_count": "7", "manager": "m"}` reports an error and sets the manager. -/
example : let doc : Json := .obj [(key ['b','u','c','k','e','t','_','c','o','u','n','t'], .str (key ['7'])), (managerKey, .str (key ['m']))]
    (unmarshal {} doc).2 = true ∧ (unmarshal {} doc).1.bucketCount = 0 ∧ (unmarshal {} doc).1.manager = key ['m'] := by decide +kernel

/-- **C103.** But the limit of metrics per registry and the limit of addons - whose tags give both the same key - cannot be configured: no document whatsoever changes them. -/
theorem C103_limits_cannot_be_read (c : MetricConfig) (doc : Json) :
    (unmarshal c doc).1.maxMetricCountPerRegistry = c.maxMetricCountPerRegistry ∧
    (unmarshal c doc).1.maxCompassAddonCount = c.maxCompassAddonCount := by
  obtain ⟨-, -, -, -, -, o6, -, o8, -⟩ := only_all
  cases doc with
  | obj l =>
    exact ⟨fold_untouched o6 l (c, false) fun e _ h => (find_visible h).1 rfl, fold_untouched o8 l (c, false) fun e _ h => (find_visible h).2 rfl⟩
  | _ => exact ⟨rfl, rfl⟩

/-- **C103.** So a configuration read from a document always has the defaults, 5000 and 20, ... -/
theorem C103_limits_are_defaults (doc : Json) :
    (unmarshal MetricConfig.getMetricConfig doc).1.getMaxMetricCountPerRegistry = 5000 ∧
    (unmarshal MetricConfig.getMetricConfig doc).1.getMaxCompassAddonCount = 20 := by
  obtain ⟨h1, h2⟩ := C103_limits_cannot_be_read MetricConfig.getMetricConfig doc
  unfold MetricConfig.getMaxMetricCountPerRegistry MetricConfig.getMaxCompassAddonCount
  rw [h1, h2]
  exact ⟨rfl, rfl⟩

/-- **C103.** ... also if the document says otherwise, and without an error. -/
theorem C103_limit_refuted : ¬ ∀ n : Int, 0 < n → InI64 n → (unmarshal {} (.obj
    [(key ['m','a','x','_','m','e','t','r','i','c','_','c','o','u','n','t','_','p','e','r','_','r','e','g','i','s','t','r','y'], .num n)])).1.getMaxMetricCountPerRegistry = n ∨
    (unmarshal {} (.obj
    [(key ['m','a','x','_','m','e','t','r','i','c','_','c','o','u','n','t','_','p','e','r','_','r','e','g','i','s','t','r','y'], .num n)])).2 = true := by
  intro H
  have := H 100 (by omega) (by unfold InI64; omega)
  revert this
  decide +kernel

/-- **C103.** They are not written either: configurations that differ only in them have the same document. -/
theorem C103_limits_are_not_written (c : MetricConfig) (a b : Int) :
    marshal { c with maxMetricCountPerRegistry := a, maxCompassAddonCount := b } = marshal c := by
  unfold marshal
  rw [visible_eq]
  rfl

/-- **C103.** Everything else survives: a configuration that is written and read again is the same but for these two limits, which are unset. -/
theorem C103_round_trip (c : MetricConfig) (hc : Sound c) :
    let c' := (unmarshal {} (marshal c)).1
    (unmarshal {} (marshal c)).2 = false ∧
    c' = { c with maxMetricCountPerRegistry := 0, maxCompassAddonCount := 0, levelInterval := c'.levelInterval } ∧
    ∀ level, (c'.levelInterval.getD []).get? level = (c.levelInterval.getD []).get? level := by
  obtain ⟨i1, i2, i3, i4, i5, hm⟩ := hc
  -- the map
  have hM : ∃ M e, (∀ r : MetricConfig × Bool, r.1.levelInterval = none → back c r .levelInterval = ({ r.1 with levelInterval := M }, r.2 || e)) ∧
      e = false ∧ ∀ level, GoMap.get? (M.getD []) level = GoMap.get? (c.levelInterval.getD []) level := by
    by_cases h0 : (c.levelInterval.getD []).length = 0
    · refine ⟨none, false, ?_, rfl, ?_⟩
      · intro r hr
        unfold back writeSlot
        simp only [if_pos h0, Bool.or_false]
        obtain ⟨r1, r2⟩ := r
        simp only at hr ⊢
        rw [← hr]
      · intro level
        rw [List.length_eq_zero_iff.1 h0]; rfl
    · have hw : (c.levelInterval.getD []).WF ∧ ∀ e ∈ c.levelInterval.getD [], InI64 e.1 ∧ InI64 e.2 := by
        cases hl : c.levelInterval with
        | none => rw [hl] at h0; exact absurd rfl h0
        | some m => exact hm m hl
      obtain ⟨h1, h2⟩ := read_written _ hw.1 hw.2
      refine ⟨_, _, ?_, h2, h1⟩
      intro r hr
      unfold back writeSlot
      simp only [if_neg h0]
      unfold readSlot
      simp only [hr]
  obtain ⟨M, e, hM1, rfl, hM2⟩ := hM
  have hfin : unmarshal {} (marshal c) = ({ c with maxMetricCountPerRegistry := 0, maxCompassAddonCount := 0, levelInterval := M }, false) := by
    rw [unmarshal_marshal]
    simp only [List.foldl_cons, List.foldl_nil]
    have s1 : back c ({}, false) .manager = ({ manager := c.manager }, false) := by
      unfold back writeSlot
      by_cases h : c.manager = []
      · simp only [if_pos h]; rw [h]
      · simp only [if_neg h]; rfl
    have s2 : back c ({ manager := c.manager }, false) .enables = ({ manager := c.manager, enables := c.enables }, false) := by
      unfold back writeSlot
      by_cases h : c.enables = []
      · simp only [if_pos h]; rw [h]
      · simp only [if_neg h]
        have e1 : (c.enables.map Json.str).map (fun j => (readStr [] j).1) = c.enables := by
          rw [List.map_map]; exact (List.map_congr_left fun _ _ => rfl).trans (List.map_id _)
        have e2 : (c.enables.map Json.str).any (fun j => (readStr [] j).2) = false := by
          rw [List.any_eq_false]
          intro j hj
          obtain ⟨x, -, rfl⟩ := List.mem_map.1 hj
          simp [readStr]
        simp only [readSlot, readStrs, e1, e2, Bool.or_false]
    rw [s1, s2]
    rw [back_int (c := c) (r := ({ manager := c.manager, enables := c.enables }, false)) (s := .maxSubCategoryCount) (n := c.maxSubCategoryCount) (fun c n => { c with maxSubCategoryCount := n }) MetricConfig.maxSubCategoryCount rfl (fun _ => rfl) rfl i1]
    rw [back_int (c := c) (r := ({ manager := c.manager, enables := c.enables, maxSubCategoryCount := c.maxSubCategoryCount }, false)) (s := .globalInterval) (n := c.globalInterval) (fun c n => { c with globalInterval := n }) MetricConfig.globalInterval rfl (fun _ => rfl) rfl i2]
    rw [hM1 _ rfl]
    simp only [Bool.or_false]
    rw [back_int (c := c) (r := ({ manager := c.manager, enables := c.enables, maxSubCategoryCount := c.maxSubCategoryCount, globalInterval := c.globalInterval, levelInterval := M }, false)) (s := .maxCompassErrorCodeCount) (n := c.maxCompassErrorCodeCount) (fun c n => { c with maxCompassErrorCodeCount := n }) MetricConfig.maxCompassErrorCodeCount rfl (fun _ => rfl) rfl i3]
    rw [back_int (c := c) (r := ({ manager := c.manager, enables := c.enables, maxSubCategoryCount := c.maxSubCategoryCount, globalInterval := c.globalInterval, levelInterval := M, maxCompassErrorCodeCount := c.maxCompassErrorCodeCount }, false)) (s := .reservoirType) (n := c.reservoirType) (fun c n => { c with reservoirType := n }) MetricConfig.reservoirType rfl (fun _ => rfl) rfl i4]
    rw [back_int (c := c) (r := ({ manager := c.manager, enables := c.enables, maxSubCategoryCount := c.maxSubCategoryCount, globalInterval := c.globalInterval, levelInterval := M, maxCompassErrorCodeCount := c.maxCompassErrorCodeCount, reservoirType := c.reservoirType }, false)) (s := .bucketCount) (n := c.bucketCount) (fun c n => { c with bucketCount := n }) MetricConfig.bucketCount rfl (fun _ => rfl) rfl i5]
  rw [hfin]
  exact ⟨rfl, rfl, hM2⟩

/-- A configuration with a map of intervals, and what it becomes. -/
example : let c : MetricConfig := { manager := key ['m'], levelInterval := some [(10, 7), (-2, 0)], maxMetricCountPerRegistry := 100, bucketCount := 3 }
    Sound c ∧ (unmarshal {} (marshal c)).1.levelInterval = some [(-2, 0), (10, 7)] ∧ (unmarshal {} (marshal c)).1.maxMetricCountPerRegistry = 0 ∧
      (unmarshal {} (marshal c)).1.bucketCount = 3 := by
  refine ⟨⟨by unfold InI64; decide, by unfold InI64; decide, by unfold InI64; decide, by unfold InI64; decide, by unfold InI64; decide, ?_⟩, by decide +kernel, by decide +kernel,
    by decide +kernel⟩
  intro m hm
  obtain rfl := Option.some.inj hm
  unfold GoMap.WF GoMap.keys InI64
  decide

/-- **C103.** The interval in a document is taken as nanoseconds; the documentation of the field (config/metric_config.go:68-72) says seconds. So whoever writes a number of
seconds - any up to 1000000000 - gets the default of 60 seconds. -/
theorem C103_seconds (n : Int) (hn : n ≤ 1000000000) (hi : InI64 n) :
    (unmarshal {} (.obj [(key ['g','l','o','b','a','l','_','i','n','t','e','r','v','a','l'], .num n)])).1.getGlobalInterval = 60 * 1000000000 := by
  have h := C103_reads_numbers (key ['g','l','o','b','a','l','_','i','n','t','e','r','v','a','l'], MetricConfig.globalInterval) (by unfold intFields; simp) {} [] []
    (key ['g','l','o','b','a','l','_','i','n','t','e','r','v','a','l']) n
    ((same_iff (by decide +kernel)).2 (by decide +kernel)) (by simp) hi
  simp only [List.nil_append] at h
  unfold MetricConfig.getGlobalInterval goSecond
  rw [h, if_pos (by omega)]

/-- **C103.** -/
theorem C103_seconds_refuted : ¬ ∀ n : Int, 1 < n → n ≤ 3600 →
    (unmarshal {} (.obj [(key ['g','l','o','b','a','l','_','i','n','t','e','r','v','a','l'], .num n)])).1.getGlobalInterval = n * 1000000000 := by
  intro H
  have h1 := H 30 (by omega) (by omega)
  rw [C103_seconds 30 (by omega) (by unfold InI64; omega)] at h1
  omega

end GoMetrics
