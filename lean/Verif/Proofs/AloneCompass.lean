import Verif.Proofs.AloneParts
import Verif.Model.WholeCompass
/-! # A call of a compass that nobody interrupts: the counters and label maps -/
namespace GoMetrics
open Machine
namespace CompassConc
open Whole (pastTotal markOver)

theorem follow_go {c : BucketCounter.Call} (h : c.ended = false) (go : BucketCounter.Call → MarkPC) (next : MarkPC) : follow c go next = go c := by
  obtain ⟨n, pc⟩ := c
  cases pc <;> simp [BucketCounter.Call.ended] at h <;> rfl

theorem follow_end {P : Int → Prop} {b b' : BucketCounter} {n : Int} {c : BucketCounter.Call} (h : c.ended = true) (hl : BucketCounter.Leaves P b n b' c)
    (go : BucketCounter.Call → MarkPC) (next : MarkPC) :
    ∃ t, P t ∧ b' = (b.updateN t n).state ∧ follow c go next = if (b.updateN t n).panicked then .crashed else next := by
  obtain ⟨t, h1, h2, h3⟩ := hl
  refine ⟨t, h1, h2, ?_⟩
  obtain ⟨k, pc⟩ := c
  cases pc <;> simp [BucketCounter.Call.ended] at h
  · have : (b.updateN t n).panicked = false := by simpa using h3
    simp [follow, this]
  · have : (b.updateN t n).panicked = true := by simpa using h3
    simp [follow, this]

theorem setLab_setLab (s : Marks) (w : Bool) (l l' : Labels) : (s.setLab w l).setLab w l' = s.setLab w l' := by
  simp [Marks.setLab]

theorem setLab_lab (s : Marks) (w : Bool) (l : Labels) : (s.setLab w l).lab w = l := by simp [Marks.setLab]

theorem setLab_self (s : Marks) (w : Bool) : s.setLab w (s.lab w) = s := by simp [Marks.setLab]

variable {P : Int → Prop} {Q : Marks → Mark → Prop}

/-- The total. -/
theorem wlp_total (s : Marks) (a : MarkArg) :
    marking.Wlp pastTotal P (fun s' m => ∃ t, P t ∧ s' = { s with total := (s.total.updateN t 1).state } ∧
      m = ⟨a, if (s.total.updateN t 1).panicked then .crashed else atSuccess a⟩) s (marking.call a) := by
  have := Wlp.phase (M := marking) (M' := BucketCounter.conc) (stop := pastTotal) (stop' := BucketCounter.Call.ended) (P := P) (P' := P)
    (Q := fun s' m => ∃ t, P t ∧ s' = { s with total := (s.total.updateN t 1).state } ∧
      m = ⟨a, if (s.total.updateN t 1).panicked then .crashed else atSuccess a⟩) id (fun b' _ => { s with total := b' })
    (fun _ c => ⟨a, follow c .total (atSuccess a)⟩) (fun _ h => h)
    (fun _ c h => by rw [follow_go h]; rfl) (fun b' c x h => by
      rw [follow_go h]
      rfl) (s := s.total) (c := ⟨1, .start⟩) ?_
  · exact this
  · refine (BucketCounter.wlp_updateN P s.total 1).mono ?_
    intro b' c hc hl
    obtain ⟨t, h1, h2, h3⟩ := follow_end hc hl .total (atSuccess a)
    rw [h3]
    refine Wlp.now _ ?_ ⟨t, h1, by rw [h2], rfl⟩
    split
    · rfl
    · unfold atSuccess atError atAddon
      (repeat' split) <;> rfl

/-- The success counter. -/
theorem wlp_success (s : Marks) (a : MarkArg) (h : ∀ t, P t →
      marking.Wlp markOver P Q { s with success := (s.success.updateN t 1).state } ⟨a, if (s.success.updateN t 1).panicked then .crashed else atError a⟩) :
    marking.Wlp markOver P Q s ⟨a, .success ⟨1, .start⟩⟩ := by
  have := Wlp.phase (M := marking) (M' := BucketCounter.conc) (stop := markOver) (stop' := BucketCounter.Call.ended) (P := P) (P' := P)
    (Q := Q) id (fun b' _ => { s with success := b' })
    (fun _ c => ⟨a, follow c .success (atError a)⟩) (fun _ h => h)
    (fun _ c h => by rw [follow_go h]; rfl) (fun b' c x h => by
      rw [follow_go h]
      rfl) (s := s.success) (c := ⟨1, .start⟩) ?_
  · exact this
  · refine (BucketCounter.wlp_updateN P s.success 1).mono ?_
    intro b' c hc hl
    obtain ⟨t, h1, h2, h3⟩ := follow_end hc hl .success (atError a)
    rw [h3, h2]
    exact h t h1

/-- A label's counter. -/
theorem wlp_hit (s : Marks) (a : MarkArg) (w : Bool) (b : BucketCounter) (hb : (s.lab w).counters.get? (a.label w) = some b) (h : ∀ t, P t →
      marking.Wlp markOver P Q (s.setLab w { s.lab w with counters := (s.lab w).counters.set (a.label w) (b.updateN t 1).state })
        ⟨a, if (b.updateN t 1).panicked then .crashed else afterHit a w⟩) :
    marking.Wlp markOver P Q s ⟨a, .hit w ⟨1, .start⟩⟩ := by
  have := Wlp.phase (M := marking) (M' := BucketCounter.conc) (stop := markOver) (stop' := BucketCounter.Call.ended) (P := P) (P' := P)
    (Q := Q) id (fun b' _ => s.setLab w { s.lab w with counters := (s.lab w).counters.set (a.label w) b' })
    (fun _ c => ⟨a, follow c (.hit w) (afterHit a w)⟩) (fun _ h => h)
    (fun _ c h => by rw [follow_go h]; rfl) (fun b' c x h => by
      rw [follow_go h]
      simp only [marking, markStep, setLab_lab, GoMap.get?_set_self, setLab_setLab, GoMap.set_set, id]
      rfl) (s := b) (c := ⟨1, .start⟩) ?_
  · rw [GoMap.set_get _ _ _ hb] at this
    change marking.Wlp _ _ _ (s.setLab w (s.lab w)) _ at this
    rw [setLab_self] at this
    exact this
  · refine (BucketCounter.wlp_updateN P b 1).mono ?_
    intro b' c hc hl
    obtain ⟨t, h1, h2, h3⟩ := follow_end hc hl (.hit w) (afterHit a w)
    rw [h3, h2]
    exact h t h1

/-- A label. -/
theorem wlp_label (s : Marks) (a : MarkArg) (w : Bool)
    (hok : ∀ t0 t, P t0 → P t → ∀ m, Compass.bump s.interval s.buckets (s.lab w).limit (s.lab w).counters (a.label w) t0 t = .ok m →
      marking.Wlp markOver P Q (s.setLab w { s.lab w with counters := m }) ⟨a, afterHit a w⟩)
    (hpanic : ∀ t0 t, P t0 → P t → ∀ m, Compass.bump s.interval s.buckets (s.lab w).limit (s.lab w).counters (a.label w) t0 t = .panic m →
      ∀ pc, pc = .crashed ∨ pc = .panicked w → Q (s.setLab w { s.lab w with counters := m }) ⟨a, pc⟩) :
    marking.Wlp markOver P Q s ⟨a, .lock w⟩ := by
  cases hh : (s.lab w).held with
  | true => exact Wlp.blocked _ rfl fun x => by simp [marking, markStep, hh]
  | false =>
    refine Wlp.step' _ (fun _ => (s.setLab w { s.lab w with held := true }, ⟨a, .find w⟩)) rfl (fun x => by simp [marking, markStep, hh]) fun x0 hx0 => ?_
    have hfin : ∀ (b : BucketCounter) (m : GoMap String BucketCounter), m.get? (a.label w) = some b →
        (∃ t0, P t0 ∧ ∀ t, Compass.bump s.interval s.buckets (s.lab w).limit (s.lab w).counters (a.label w) t0 t =
          (b.update t).lift fun b => m.set (a.label w) b) →
        marking.Wlp markOver P Q (s.setLab w { s.lab w with held := true, counters := m }) ⟨a, .unlock w true⟩ := by
      rintro b m hb ⟨t0, ht0, he⟩
      refine Wlp.step _ rfl fun _ _ => ?_
      have e : (marking.step (s.setLab w { s.lab w with held := true, counters := m }) ‹Int› ⟨a, .unlock w true⟩) =
          (s.setLab w { s.lab w with counters := m }, ⟨a, .hit w ⟨1, .start⟩⟩) := by
        simp [marking, markStep, setLab_lab, setLab_setLab, hh]
      rw [e]
      refine wlp_hit _ a w b (by simpa [setLab_lab] using hb) fun t ht => ?_
      simp only [setLab_lab, setLab_setLab]
      have he := he t
      cases hu : b.updateN t 1 with
      | ok b' =>
        rw [BucketCounter.update, hu] at he
        exact hok t0 t ht0 ht _ he
      | panic b' =>
        rw [BucketCounter.update, hu] at he
        exact Wlp.now _ rfl (hpanic t0 t ht0 ht _ he _ (.inl rfl))
    cases hg : (s.lab w).counters.get? (a.label w) with
    | some b =>
      refine Wlp.step' _ (fun _ => (s.setLab w { s.lab w with held := true }, ⟨a, .unlock w true⟩)) rfl
        (fun x => by simp [marking, markStep, setLab_lab, hg]) fun _ _ => ?_
      exact hfin b _ hg ⟨x0, hx0, fun t => by simp [Compass.bump, hg]⟩
    | none =>
      by_cases hlim : ((s.lab w).counters.length : Int) < (s.lab w).limit
      · refine Wlp.step' _ (fun _ => (s.setLab w { s.lab w with held := true }, ⟨a, .make w⟩)) rfl
          (fun x => by simp [marking, markStep, setLab_lab, hg, hlim]) fun _ _ => ?_
        refine Wlp.step' _ (fun t => (s.setLab w { s.lab w with held := true }, ⟨a, .insert w (BucketCounter.new s.interval s.buckets t true)⟩)) rfl
          (fun x => rfl) fun t0 ht0 => ?_
        refine Wlp.step' _ (fun _ => (s.setLab w { s.lab w with held := true, counters := ((s.lab w).counters.set (a.label w) (BucketCounter.new s.interval s.buckets t0 true)) },
          ⟨a, .unlock w true⟩)) rfl
          (fun x => by simp [marking, markStep, setLab_lab, setLab_setLab]) fun _ _ => ?_
        refine hfin (BucketCounter.new s.interval s.buckets t0 true) _ (by simp) ⟨t0, ht0, fun t => ?_⟩
        simp only [Compass.bump, hg, if_pos hlim, GoMap.set_set]
      · refine Wlp.step' _ (fun _ => (s.setLab w { s.lab w with held := true }, ⟨a, .unlock w false⟩)) rfl
          (fun x => by simp [marking, markStep, setLab_lab, hg, hlim]) fun _ _ => ?_
        refine Wlp.step' _ (fun _ => (s.setLab w (s.lab w), ⟨a, .panicked w⟩)) rfl ?_ fun _ _ => ?_
        · intro x
          simp only [marking, markStep, setLab_lab, setLab_setLab]
          have e : (⟨(s.lab w).limit, false, (s.lab w).counters⟩ : Labels) = s.lab w := by rw [← hh]
          rw [e]
          rfl
        · refine Wlp.now _ rfl (hpanic x0 x0 hx0 hx0 (s.lab w).counters ?_ _ (.inr rfl))
          simp only [Compass.bump, hg, if_neg hlim]

end CompassConc

/-- The counters and label maps of a compass, in place of those of `c`. -/
def Compass.withMarks {σ : Type} (c : Compass σ) (s : CompassConc.Marks) : Compass σ :=
  { c with totalCount := s.total, successCount := s.success, errorCodes := (s.lab false).counters, addons := (s.lab true).counters,
           maxErrorCodeCount := (s.lab false).limit, maxAddonCount := (s.lab true).limit, bucketInterval := s.interval, numberOfBucket := s.buckets }

namespace CompassConc
open Whole (pastTotal markOver)
variable {P : Int → Prop} {σ : Type}

/-- What lines 150-167 leave. -/
def Rest (P : Int → Prop) (c : Compass σ) (s : Marks) (a : MarkArg) (s' : Marks) (m : Mark) : Prop :=
  ∃ tS tE0 tE tA0 tA, (P tS ∧ P tE0 ∧ P tE ∧ P tA0 ∧ P tA) ∧
    let r := ((c.withMarks s).successStep tS a.isSuccess).andThen fun c => (c.errorStep tE0 tE a.errorCode).andThen fun c => c.addonStep tA0 tA a.addon
    c.withMarks s' = r.state ∧ (m.pc = .done ↔ r.panicked = false)

theorem withMarks_setLab_true (c : Compass σ) (s : Marks) (m : GoMap String BucketCounter) :
    c.withMarks (s.setLab true { s.lab true with counters := m }) = { c.withMarks s with addons := m } := by
  simp [Compass.withMarks, Marks.setLab]

theorem withMarks_setLab_false (c : Compass σ) (s : Marks) (m : GoMap String BucketCounter) :
    c.withMarks (s.setLab false { s.lab false with counters := m }) = { c.withMarks s with errorCodes := m } := by
  simp [Compass.withMarks, Marks.setLab]

theorem wlp_addon (c : Compass σ) (s : Marks) (a : MarkArg) (x0 : Int) (hx0 : P x0) :
    marking.Wlp markOver P (fun s' m => ∃ tA0 tA, (P tA0 ∧ P tA) ∧ c.withMarks s' = ((c.withMarks s).addonStep tA0 tA a.addon).state ∧
      (m.pc = .done ↔ ((c.withMarks s).addonStep tA0 tA a.addon).panicked = false)) s ⟨a, atAddon a⟩ := by
  by_cases h : 0 < a.addon.length
  · rw [atAddon, if_pos h]
    refine wlp_label s a true ?_ ?_
    · intro t0 t ht0 ht m hm
      refine Wlp.now _ rfl ⟨t0, t, ⟨ht0, ht⟩, ?_⟩
      have : (c.withMarks s).addonStep t0 t a.addon = .ok { c.withMarks s with addons := m } := by
        simp only [Compass.addonStep, gt_iff_lt, if_pos h]
        change (Compass.bump s.interval s.buckets (s.lab true).limit (s.lab true).counters (a.label true) t0 t).lift _ = _
        rw [hm]; rfl
      rw [this, withMarks_setLab_true]
      simp [afterHit]
    · intro t0 t ht0 ht m hm pc hpc
      refine ⟨t0, t, ⟨ht0, ht⟩, ?_⟩
      have : (c.withMarks s).addonStep t0 t a.addon = .panic { c.withMarks s with addons := m } := by
        simp only [Compass.addonStep, gt_iff_lt, if_pos h]
        change (Compass.bump s.interval s.buckets (s.lab true).limit (s.lab true).counters (a.label true) t0 t).lift _ = _
        rw [hm]; rfl
      rw [this, withMarks_setLab_true]
      rcases hpc with rfl | rfl <;> simp
  · rw [atAddon, if_neg h]
    refine Wlp.now _ rfl ⟨x0, x0, ⟨hx0, hx0⟩, ?_⟩
    simp [Compass.addonStep, h]

theorem wlp_error (c : Compass σ) (s : Marks) (a : MarkArg) (x0 : Int) (hx0 : P x0) :
    marking.Wlp markOver P (fun s' m => ∃ tE0 tE tA0 tA, (P tE0 ∧ P tE ∧ P tA0 ∧ P tA) ∧
      let r := ((c.withMarks s).errorStep tE0 tE a.errorCode).andThen fun c => c.addonStep tA0 tA a.addon
      c.withMarks s' = r.state ∧ (m.pc = .done ↔ r.panicked = false)) s ⟨a, atError a⟩ := by
  by_cases h : 0 < a.errorCode.length
  · rw [atError, if_pos h]
    refine wlp_label s a false ?_ ?_
    · intro t0 t ht0 ht m hm
      have : (c.withMarks s).errorStep t0 t a.errorCode = .ok { c.withMarks s with errorCodes := m } := by
        simp only [Compass.errorStep, gt_iff_lt, if_pos h]
        change (Compass.bump s.interval s.buckets (s.lab false).limit (s.lab false).counters (a.label false) t0 t).lift _ = _
        rw [hm]; rfl
      refine (wlp_addon c (s.setLab false { s.lab false with counters := m }) a x0 hx0).mono ?_
      rintro s' k - ⟨tA0, tA, g1, g2, g3⟩
      refine ⟨t0, t, tA0, tA, ⟨ht0, ht, g1⟩, ?_⟩
      rw [this]
      rw [withMarks_setLab_false] at g2 g3
      exact ⟨g2, g3⟩
    · intro t0 t ht0 ht m hm pc hpc
      refine ⟨t0, t, x0, x0, ⟨ht0, ht, hx0, hx0⟩, ?_⟩
      have : (c.withMarks s).errorStep t0 t a.errorCode = .panic { c.withMarks s with errorCodes := m } := by
        simp only [Compass.errorStep, gt_iff_lt, if_pos h]
        change (Compass.bump s.interval s.buckets (s.lab false).limit (s.lab false).counters (a.label false) t0 t).lift _ = _
        rw [hm]; rfl
      rw [this, withMarks_setLab_false]
      rcases hpc with rfl | rfl <;> simp [Res.andThen]
  · rw [atError, if_neg h]
    refine (wlp_addon c s a x0 hx0).mono ?_
    rintro s' k - ⟨tA0, tA, g1, g2, g3⟩
    refine ⟨x0, x0, tA0, tA, ⟨hx0, hx0, g1⟩, ?_⟩
    simpa [Compass.errorStep, h, Res.andThen] using ⟨g2, g3⟩

theorem wlp_rest (c : Compass σ) (s : Marks) (a : MarkArg) (x0 : Int) (hx0 : P x0) :
    marking.Wlp markOver P (Rest P c s a) s ⟨a, atSuccess a⟩ := by
  cases h : a.isSuccess with
  | true =>
    simp only [atSuccess, h, if_true]
    refine wlp_success s a fun t ht => ?_
    have e : (c.withMarks s).successStep t a.isSuccess = (s.success.updateN t 1).lift fun b => { c.withMarks s with successCount := b } := by
      simp only [Compass.successStep, h, if_true]; rfl
    cases hu : s.success.updateN t 1 with
    | ok b =>
      refine (wlp_error c { s with success := b } a x0 hx0).mono ?_
      rintro s' k - ⟨tE0, tE, tA0, tA, g1, g2, g3⟩
      refine ⟨t, tE0, tE, tA0, tA, ⟨ht, g1⟩, ?_⟩
      rw [e, hu]
      exact ⟨g2, g3⟩
    | panic b =>
      refine Wlp.now _ rfl ⟨t, x0, x0, x0, x0, ⟨ht, hx0, hx0, hx0, hx0⟩, ?_⟩
      rw [e, hu]
      refine ⟨rfl, ?_⟩
      simp [Res.andThen, Res.lift]
  | false =>
    simp only [atSuccess, h]
    refine (wlp_error c s a x0 hx0).mono ?_
    rintro s' k - ⟨tE0, tE, tA0, tA, g1, g2, g3⟩
    refine ⟨x0, tE0, tE, tA0, tA, ⟨hx0, g1⟩, ?_⟩
    simpa [Compass.successStep, h, Res.andThen] using ⟨g2, g3⟩

end CompassConc
end GoMetrics
