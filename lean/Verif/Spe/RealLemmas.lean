import Verif.Spe.Spec
import Mathlib.MeasureTheory.Measure.Real
import Verif.Util.ExceptLemmas
import Verif.Sets.TotalLemmas
import Verif.Sets.AndLemmas

/-!
# The distribution of real leaves

The functions `cdf`, `probIvl`, `probFinite`, `probValues` of the model compute the measure of the numbers of a set
under the distribution of the leaf.
-/

set_option linter.all false

namespace Sppl
open Classical MeasureTheory
open scoped ENNReal ProbabilityTheory

theorem pdiff_ok {a b r : ℝ} (h : pdiff a b = .ok r) : r = a - b ∧ b ≤ a := by
  unfold pdiff at h
  split at h
  · cases h; exact ⟨rfl, by linarith⟩
  · split at h
    · cases h; constructor <;> linarith
    · cases h

/-- The reals up to `x`. -/
def IicE (x : EReal) : Set ℝ := {y | (y : EReal) ≤ x}
/-- The reals above `lo` up to `hi`. -/
def IocE (lo hi : EReal) : Set ℝ := {y | lo < (y : EReal) ∧ (y : EReal) ≤ hi}

theorem measurable_IicE (x : EReal) : MeasurableSet (IicE x) := measurable_coe_real_ereal measurableSet_Iic
theorem measurable_IocE (lo hi : EReal) : MeasurableSet (IocE lo hi) := measurable_coe_real_ereal measurableSet_Ioc

theorem real_IocE (m : Measure ℝ) [IsFiniteMeasure m] {lo hi : EReal} (h : lo ≤ hi) :
    m.real (IocE lo hi) = m.real (IicE hi) - m.real (IicE lo) := by
  have hs : IicE lo ⊆ IicE hi := fun y hy => le_trans hy h
  have : IocE lo hi = IicE hi \ IicE lo := by
    ext y; simp only [IocE, IicE, Set.mem_setOf_eq, Set.mem_diff, not_le]; tauto
  rw [this, measureReal_diff hs (measurable_IicE lo)]

theorem real_IocE_of_le (m : Measure ℝ) [IsFiniteMeasure m] {lo hi : EReal}
    (h : m.real (IicE lo) ≤ m.real (IicE hi)) : m.real (IocE lo hi) = m.real (IicE hi) - m.real (IicE lo) := by
  rcases le_total lo hi with hl | hl
  · exact real_IocE m hl
  · have hs : IicE hi ⊆ IicE lo := fun y hy => le_trans hy hl
    have h2 := measureReal_mono hs (μ := m)
    have : IocE lo hi = ∅ := by
      ext y; simp only [IocE, Set.mem_setOf_eq, Set.mem_empty_iff_false, iff_false, not_and, not_le]
      intro h; exact lt_of_le_of_lt hl h
    rw [this]; simp; linarith

/-! ## Truncation -/

theorem truncZ_int (n : ℤ) : truncZ (n : ℝ) = n := by simp [truncZ]

theorem floatToInt_int (n : ℤ) : floatToInt ((n : ℝ) : EReal) = ((n : ℝ) : EReal) := by
  simp [floatToInt, EReal.coe_ne_bot, EReal.coe_ne_top, truncZ_int]
@[simp] theorem floatToInt_bot : floatToInt ⊥ = ⊥ := by simp [floatToInt]
@[simp] theorem floatToInt_top : floatToInt ⊤ = ⊤ := by simp [floatToInt]
theorem floatToInt_nonneg {x : ℝ} (h : 0 ≤ x) : floatToInt (x : EReal) = (((⌊x⌋ : ℤ) : ℝ) : EReal) := by
  simp [floatToInt, EReal.coe_ne_bot, EReal.coe_ne_top, truncZ, h]

/-- `int(x)` is the floor of the endpoints. -/
def TruncOK (i : Ivl EReal) : Prop :=
  (i.a = ⊥ ∨ (∃ n : ℤ, i.a = ((n : ℝ) : EReal)) ∨ 0 ≤ i.a) ∧ (i.b = ⊤ ∨ (∃ n : ℤ, i.b = ((n : ℝ) : EReal)) ∨ 0 ≤ i.b)

/-- Moreover, where all values are positive (`P`), the endpoints do not matter if they are negative. -/
def TruncOn (P : Prop) (i : Ivl EReal) : Prop := P ∨ TruncOK i

/-- The lower end used by `logprob_interval__`. -/
noncomputable def ivlLo (k : Kind) (i : Ivl EReal) : EReal :=
  match k with
  | .cont => i.a
  | .disc => floatToInt i.a - (if i.lo = false ∧ isInt i.a = true then 1 else 0)

/-- The upper end used by `logprob_interval__`. -/
noncomputable def ivlHi (k : Kind) (i : Ivl EReal) : EReal :=
  match k with
  | .cont => i.b
  | .disc => floatToInt i.b - (if i.ro = true ∧ isInt i.b = true then 1 else 0)

theorem isInt_iff {x : EReal} : isInt x = true ↔ ∃ n : ℤ, x = ((n : ℝ) : EReal) := by simp [isInt]

theorem coe_sub_one (x : ℝ) : ((x : EReal) - 1) = ((x - 1 : ℝ) : EReal) := by
  rw [EReal.coe_sub]; rfl
theorem coe_add_one (x : ℝ) : ((x : EReal) + 1) = ((x + 1 : ℝ) : EReal) := by
  rw [EReal.coe_add]; rfl
@[simp] theorem EReal.coe_sub_zero' (x : EReal) : x - 0 = x := sub_zero x

/-- Integers above the left end. -/
theorem lo_iff {a : EReal} {lo : Bool} (hb : a ≠ ⊤) (hlo : a = ⊥ → lo = true)
    (h : a = ⊥ ∨ (∃ n : ℤ, a = ((n : ℝ) : EReal)) ∨ 0 ≤ a) (n : ℤ) :
    (if lo = true then a < ((n : ℝ) : EReal) else a ≤ ((n : ℝ) : EReal)) ↔
      floatToInt a - (if lo = false ∧ isInt a = true then 1 else 0) < ((n : ℝ) : EReal) := by
  rcases h with rfl | ⟨m, rfl⟩ | h
  · simp [hlo rfl]
  · rw [floatToInt_int]
    have hi : isInt ((m : ℝ) : EReal) = true := isInt_iff.2 ⟨m, rfl⟩
    cases lo
    · simp only [Bool.false_eq_true, if_false, hi, and_self, if_true, coe_sub_one, EReal.coe_le_coe_iff, EReal.coe_lt_coe_iff]
      norm_cast
      constructor <;> intro h <;> omega
    · simp
  · induction a with
    | bot => simp at h
    | top => exact absurd rfl hb
    | coe x =>
      have hx : 0 ≤ x := by exact_mod_cast h
      by_cases hi : isInt (x : EReal) = true
      · obtain ⟨m, hm⟩ := isInt_iff.1 hi
        have hm' : x = m := by exact_mod_cast hm
        subst hm'
        rw [floatToInt_int]
        cases lo
        · simp only [Bool.false_eq_true, if_false, hi, and_self, if_true, coe_sub_one, EReal.coe_le_coe_iff, EReal.coe_lt_coe_iff]
          norm_cast
          constructor <;> intro h <;> omega
        · simp
      · rw [floatToInt_nonneg hx]
        simp only [hi, and_false, if_false, sub_zero, EReal.coe_le_coe_iff, EReal.coe_lt_coe_iff]
        have hne : x ≠ n := by
          intro hh; exact hi (isInt_iff.2 ⟨n, by rw [hh]⟩)
        have h1 : (x < n ↔ x ≤ n) := ⟨le_of_lt, fun h => lt_of_le_of_ne h hne⟩
        have h2 : ((⌊x⌋ : ℝ) < n ↔ x < n) := by
          rw [Int.cast_lt, Int.floor_lt]
        cases lo <;> simp [h1, h2]

/-- Integers below the right end. -/
theorem hi_iff {b : EReal} {ro : Bool} (hb : b ≠ ⊥) (hro : b = ⊤ → ro = true)
    (h : b = ⊤ ∨ (∃ n : ℤ, b = ((n : ℝ) : EReal)) ∨ 0 ≤ b) (n : ℤ) :
    (if ro = true then ((n : ℝ) : EReal) < b else ((n : ℝ) : EReal) ≤ b) ↔
      ((n : ℝ) : EReal) ≤ floatToInt b - (if ro = true ∧ isInt b = true then 1 else 0) := by
  have key : ∀ m : ℤ, (if ro = true then ((n : ℝ) : EReal) < ((m : ℝ) : EReal) else ((n : ℝ) : EReal) ≤ ((m : ℝ) : EReal)) ↔
      ((n : ℝ) : EReal) ≤ floatToInt ((m : ℝ) : EReal) - (if ro = true ∧ isInt ((m : ℝ) : EReal) = true then 1 else 0) := by
    intro m
    rw [floatToInt_int]
    have hi : isInt ((m : ℝ) : EReal) = true := isInt_iff.2 ⟨m, rfl⟩
    cases ro
    · simp
    · simp only [hi, and_self, if_true, coe_sub_one, EReal.coe_le_coe_iff, EReal.coe_lt_coe_iff]
      norm_cast
      constructor <;> intro h <;> omega
  rcases h with rfl | ⟨m, rfl⟩ | h
  · have : isInt (⊤ : EReal) ≠ true := by
      rw [Ne, isInt_iff]; rintro ⟨n, hn⟩; exact absurd hn.symm (EReal.coe_ne_top _)
    simp [hro rfl, this, EReal.coe_lt_top]
  · exact key m
  · induction b with
    | bot => exact absurd rfl hb
    | top =>
      have : isInt (⊤ : EReal) ≠ true := by
        rw [Ne, isInt_iff]; rintro ⟨n, hn⟩; exact absurd hn.symm (EReal.coe_ne_top _)
      simp [hro rfl, this, EReal.coe_lt_top]
    | coe x =>
      have hx : 0 ≤ x := by exact_mod_cast h
      by_cases hi : isInt (x : EReal) = true
      · obtain ⟨m, hm⟩ := isInt_iff.1 hi
        have hm' : x = m := by exact_mod_cast hm
        subst hm'
        exact key m
      · rw [floatToInt_nonneg hx]
        simp only [hi, and_false, if_false, sub_zero, EReal.coe_le_coe_iff, EReal.coe_lt_coe_iff]
        have hne : (n : ℝ) ≠ x := by
          intro hh; exact hi (isInt_iff.2 ⟨n, by rw [hh]⟩)
        have h1 : ((n : ℝ) < x ↔ (n : ℝ) ≤ x) := ⟨le_of_lt, fun h => lt_of_le_of_ne h hne⟩
        have h2 : ((n : ℝ) ≤ (⌊x⌋ : ℝ) ↔ (n : ℝ) ≤ x) := by
          rw [Int.cast_le, Int.le_floor]
        cases ro <;> simp [h1, h2]

theorem floatToInt_neg {x : ℝ} (h : x < 0) : floatToInt (x : EReal) ≤ 0 := by
  simp only [floatToInt, EReal.coe_ne_bot, EReal.coe_ne_top, or_self, EReal.toReal_coe, truncZ, not_le.2 h, if_false]
  have : ⌈x⌉ ≤ 0 := Int.ceil_le.2 (by simpa using h.le)
  exact_mod_cast this

theorem sub_ite_le (x : EReal) (P : Prop) [Decidable P] : x - (if P then 1 else 0) ≤ x := by
  split
  · exact EReal.sub_le_of_le_add (by simpa using add_le_add_right (show (0 : EReal) ≤ 1 from zero_le_one) x)
  · simp

/-- Positive integers above the left end. -/
theorem lo_iff_pos {a : EReal} {lo : Bool} (hb : a ≠ ⊤) (hlo : a = ⊥ → lo = true) {n : ℤ} (hn : 0 < n) :
    (if lo = true then a < ((n : ℝ) : EReal) else a ≤ ((n : ℝ) : EReal)) ↔
      floatToInt a - (if lo = false ∧ isInt a = true then 1 else 0) < ((n : ℝ) : EReal) := by
  by_cases h : 0 ≤ a
  · exact lo_iff hb hlo (.inr (.inr h)) n
  induction a with
  | bot => exact lo_iff hb hlo (.inl rfl) n
  | top => exact absurd rfl hb
  | coe x =>
    have hx : x < 0 := by rw [not_le] at h; exact_mod_cast h
    have hn' : (0 : ℝ) < n := by exact_mod_cast hn
    have h1 : (x : EReal) < ((n : ℝ) : EReal) := by exact_mod_cast hx.trans hn'
    have h2 : floatToInt (x : EReal) - (if lo = false ∧ isInt (x : EReal) = true then 1 else 0) < ((n : ℝ) : EReal) :=
      ((sub_ite_le _ _).trans (floatToInt_neg hx)).trans_lt (by exact_mod_cast hn')
    refine ⟨fun _ => h2, fun _ => ?_⟩
    split
    · exact h1
    · exact h1.le

/-- Positive integers below the right end. -/
theorem hi_iff_pos {b : EReal} {ro : Bool} (hb : b ≠ ⊥) (hro : b = ⊤ → ro = true) {n : ℤ} (hn : 0 < n) :
    (if ro = true then ((n : ℝ) : EReal) < b else ((n : ℝ) : EReal) ≤ b) ↔
      ((n : ℝ) : EReal) ≤ floatToInt b - (if ro = true ∧ isInt b = true then 1 else 0) := by
  by_cases h : 0 ≤ b
  · exact hi_iff hb hro (.inr (.inr h)) n
  induction b with
  | bot => exact absurd rfl hb
  | top => simp at h
  | coe x =>
    have hx : x < 0 := by rw [not_le] at h; exact_mod_cast h
    have hn' : (0 : ℝ) < n := by exact_mod_cast hn
    have h1 : (x : EReal) < ((n : ℝ) : EReal) := by exact_mod_cast hx.trans hn'
    have h2 : floatToInt (x : EReal) - (if ro = true ∧ isInt (x : EReal) = true then 1 else 0) < ((n : ℝ) : EReal) :=
      ((sub_ite_le _ _).trans (floatToInt_neg hx)).trans_lt (by exact_mod_cast hn')
    refine ⟨fun h3 => ?_, fun h3 => absurd h3 (not_le.2 h2)⟩
    split at h3
    · exact absurd h3 (not_lt.2 h1.le)
    · exact absurd h3 (not_le.2 h1)

/-! ## Almost everywhere -/

theorem DistOK.ae_ne {L : Lib} {μ : Dist → Measure ℝ} {d : Dist} (h : DistOK L μ .cont d) (a : EReal) :
    ∀ᵐ y : ℝ ∂(μ d), (y : EReal) ≠ a := by
  rw [ae_iff]
  refine measure_mono_null (t := {a.toReal}) ?_ (h.cont rfl _)
  intro y hy
  simp only [Set.mem_setOf_eq, not_not] at hy
  rw [Set.mem_singleton_iff, ← hy, EReal.toReal_coe]

theorem DistOK.ae_int {L : Lib} {μ : Dist → Measure ℝ} {d : Dist} (h : DistOK L μ .disc d) :
    ∀ᵐ y : ℝ ∂(μ d), ∃ n : ℤ, y = n := by
  rw [ae_iff]
  have := h.disc rfl
  convert this using 2
  ext y; simp

/-- The numbers of an interval, up to a null set. -/
theorem ivl_ae {L : Lib} {μ : Dist → Measure ℝ} {k : Kind} {d : Dist} (hd : DistOK L μ k d) {i : Ivl EReal} (hi : i.WF)
    (ht : k = .disc → TruncOn (μ d (Set.Iic 0) = 0) i) : ∀ᵐ y : ℝ ∂(μ d), y ∈ i.reals ↔ y ∈ IocE (ivlLo k i) (ivlHi k i) := by
  cases k with
  | cont =>
    filter_upwards [hd.ae_ne i.a, hd.ae_ne i.b] with y h1 h2
    simp only [Ivl.reals, Ivl.Mem, IocE, ivlLo, ivlHi, Set.mem_setOf_eq]
    refine and_congr ?_ ?_
    · split
      · rfl
      · exact ⟨fun h => lt_of_le_of_ne h h1.symm, le_of_lt⟩
    · split
      · exact ⟨le_of_lt, fun h => lt_of_le_of_ne h h2⟩
      · rfl
  | disc =>
    rcases ht rfl with hP | this
    · have hP' : ∀ᵐ y : ℝ ∂(μ d), 0 < y := by
        rw [ae_iff]
        simpa [not_lt, Set.Iic] using hP
      filter_upwards [hd.ae_int, hP'] with y h1 h2
      obtain ⟨n, rfl⟩ := h1
      have hn : 0 < n := by exact_mod_cast h2
      simp only [Ivl.reals, Ivl.Mem, IocE, ivlLo, ivlHi, Set.mem_setOf_eq]
      exact and_congr (lo_iff_pos (ne_top_of_lt hi.1) hi.2.1 hn) (hi_iff_pos (ne_bot_of_gt hi.1) hi.2.2 hn)
    filter_upwards [hd.ae_int] with y h1
    obtain ⟨n, rfl⟩ := h1
    simp only [Ivl.reals, Ivl.Mem, IocE, ivlLo, ivlHi, Set.mem_setOf_eq]
    exact and_congr (lo_iff (ne_top_of_lt hi.1) hi.2.1 this.1 n) (hi_iff (ne_bot_of_gt hi.1) hi.2.2 this.2 n)

theorem measureReal_congr' {α : Type} [MeasurableSpace α] {m : Measure α} {s t : Set α} (h : ∀ᵐ y ∂m, y ∈ s ↔ y ∈ t) : m.real s = m.real t :=
  measureReal_congr (Filter.eventuallyEq_set.2 h)

/-! ## Conditioned leaves -/

/-- The distribution of the base variable of the leaf. -/
noncomputable abbrev RLeaf.meas (μ : Dist → Measure ℝ) (l : RLeaf) : Measure ℝ := realMeas μ l.d l.supp l.cond

/-- A well-formed real leaf. -/
structure RLeafOK (L : Lib) (μ : Dist → Measure ℝ) (l : RLeaf) : Prop where
  dist : DistOK L μ l.k l.d
  wf : l.supp.WF
  ints : l.k = .disc → (l.supp.a = ⊥ ∨ ∃ n : ℤ, l.supp.a = ((n : ℝ) : EReal)) ∧ (l.supp.b = ⊤ ∨ ∃ n : ℤ, l.supp.b = ((n : ℝ) : EReal))
  mass : if l.cond = true then μ l.d l.supp.reals ≠ 0 else μ l.d l.supp.reals = 1

variable {L : Lib} {μ : Dist → Measure ℝ} {l : RLeaf}

theorem RLeafOK.prob (h : RLeafOK L μ l) : IsProbabilityMeasure (l.meas μ) := by
  have := h.dist.prob
  unfold RLeaf.meas realMeas
  split
  · rename_i hc
    have hm := h.mass
    rw [if_pos hc] at hm
    exact ProbabilityTheory.cond_isProbabilityMeasure hm
  · exact h.dist.prob

theorem RLeafOK.ac (l : RLeaf) : l.meas μ ≪ μ l.d := by
  unfold RLeaf.meas realMeas
  split
  · exact ProbabilityTheory.cond_absolutelyContinuous
  · exact Measure.AbsolutelyContinuous.rfl

theorem RLeafOK.ae {l : RLeaf} {p : ℝ → Prop} (h : ∀ᵐ y : ℝ ∂(μ l.d), p y) : ∀ᵐ y : ℝ ∂(l.meas μ), p y := (RLeafOK.ac l).ae_le h

/-- Almost surely the value is in the support. -/
theorem RLeafOK.ae_supp (h : RLeafOK L μ l) : ∀ᵐ y : ℝ ∂(l.meas μ), y ∈ l.supp.reals := by
  have := h.dist.prob
  have hm := h.mass
  unfold RLeaf.meas realMeas
  split
  · exact ProbabilityTheory.ae_cond_mem (Ivl.measurableSet _)
  · rename_i hc
    rw [if_neg hc] at hm
    have hm' : (μ l.d) {x | x ∈ l.supp.reals} = 1 := hm
    exact (mem_ae_iff_prob_eq_one (Ivl.measurableSet l.supp)).2 hm'

theorem RLeaf.meas_cond (l : RLeaf) (hc : l.cond = true) (A : Set ℝ) :
    (l.meas μ).real A = (μ l.d).real (l.supp.reals ∩ A) / (μ l.d).real l.supp.reals := by
  have hS : MeasurableSet l.supp.reals := Ivl.measurableSet _
  simp only [RLeaf.meas, realMeas, if_pos hc]
  simp only [Measure.real]
  rw [ProbabilityTheory.cond_apply hS, ENNReal.toReal_mul, ENNReal.toReal_inv, div_eq_inv_mul]

/-- The lower bound of the values, exclusive. -/
noncomputable def RLeaf.low (l : RLeaf) : EReal :=
  match l.k with
  | .cont => l.xl
  | .disc => l.xl - 1

theorem RLeaf.Fl_eq (l : RLeaf) : l.Fl L = L.cdf l.d l.low := by
  unfold RLeaf.Fl RLeaf.low; cases l.k <;> rfl

theorem RLeafOK.low_eq (h : RLeafOK L μ l) : l.low = ivlLo l.k l.supp ∧ l.xu = ivlHi l.k l.supp := by
  unfold RLeaf.low RLeaf.xl RLeaf.xu ivlLo ivlHi
  have hI := h.ints
  have hw := h.wf
  cases hk : l.k with
  | cont => simp
  | disc =>
    obtain ⟨h1, h2⟩ := hI hk
    simp only
    constructor
    · rcases h1 with h1 | ⟨n, h1⟩
      · simp [h1]
      · have : isInt ((n : ℝ) : EReal) = true := isInt_iff.2 ⟨n, rfl⟩
        rw [h1, floatToInt_int]
        cases l.supp.lo
        · simp [this]
        · simp only [if_true, coe_add_one, coe_sub_one]; simp
    · rcases h2 with h2 | ⟨n, h2⟩
      · have h3 := hw.2.2 h2
        rw [h2]
        have : isInt (⊤ : EReal) ≠ true := by
          rw [Ne, isInt_iff]; rintro ⟨n, hn⟩; exact absurd hn.symm (EReal.coe_ne_top _)
        simp only [h3, if_true, this, and_false, if_false, sub_zero, floatToInt_top]
        exact EReal.top_sub_coe 1
      · have : isInt ((n : ℝ) : EReal) = true := isInt_iff.2 ⟨n, rfl⟩
        rw [h2, floatToInt_int]
        cases l.supp.ro <;> simp [this]

theorem RLeafOK.supp_trunc (h : RLeafOK L μ l) : l.k = .disc → TruncOK l.supp := by
  intro hk
  obtain ⟨h1, h2⟩ := h.ints hk
  exact ⟨h1.elim .inl (fun h => .inr (.inl h)), h2.elim .inl (fun h => .inr (.inl h))⟩

theorem RLeafOK.supp_ae (h : RLeafOK L μ l) : ∀ᵐ y : ℝ ∂(μ l.d), y ∈ l.supp.reals ↔ y ∈ IocE l.low l.xu := by
  rw [h.low_eq.1, h.low_eq.2]
  exact ivl_ae h.dist h.wf (fun hk => .inr (h.supp_trunc hk))

/-- `Z` is the mass of the support. -/
theorem RLeafOK.Z_ok (h : RLeafOK L μ l) {z : ℝ} (hz : l.Z L = .ok z) : z = (μ l.d).real l.supp.reals := by
  have := h.dist.prob
  unfold RLeaf.Z at hz
  obtain ⟨h1, h2⟩ := pdiff_ok hz
  rw [RLeaf.Fl_eq, h.dist.cdf, h.dist.cdf] at h1 h2
  rw [measureReal_congr' h.supp_ae, h1]
  exact (real_IocE_of_le _ h2).symm

theorem xl_int (h : RLeafOK L μ l) (hk : l.k = .disc) : l.xl = ⊥ ∨ ∃ n : ℤ, l.xl = ((n : ℝ) : EReal) := by
  unfold RLeaf.xl
  rw [hk]
  rcases (h.ints hk).1 with h1 | ⟨n, h1⟩
  · left; simp [h1]
  · right
    rw [h1, floatToInt_int]
    cases l.supp.lo
    · exact ⟨n, by simp⟩
    · exact ⟨n + 1, by simp only [if_true]; push_cast; rfl⟩

/-- The values are at least `xl`. -/
theorem RLeafOK.xl_ae (h : RLeafOK L μ l) : ∀ᵐ y : ℝ ∂(μ l.d), y ∈ l.supp.reals → l.xl ≤ (y : EReal) ∧ (y : EReal) ≤ l.xu := by
  have h0 := h.dist
  cases hk : l.k with
  | cont =>
    filter_upwards [h.supp_ae] with y hy hs
    have := hy.1 hs
    refine ⟨?_, this.2⟩
    have h1 := this.1
    unfold RLeaf.low at h1
    rw [hk] at h1
    exact h1.le
  | disc =>
    rw [hk] at h0
    filter_upwards [h.supp_ae, h0.ae_int] with y hy hn hs
    have := hy.1 hs
    refine ⟨?_, this.2⟩
    have h1 := this.1
    unfold RLeaf.low at h1
    rw [hk] at h1
    obtain ⟨n, rfl⟩ := hn
    rcases xl_int h hk with hx | ⟨m, hx⟩
    · rw [hx]; exact bot_le
    · rw [hx] at h1 ⊢
      simp only [coe_sub_one, EReal.coe_lt_coe_iff, EReal.coe_le_coe_iff] at h1 ⊢
      norm_cast at h1 ⊢
      omega

/-- `logcdf` of a leaf. -/
theorem RLeafOK.cdf_ok (h : RLeafOK L μ l) {x : EReal} {p : ℝ} (hp : l.cdf L x = .ok p) : p = (l.meas μ).real (IicE x) := by
  have hP := h.dist.prob
  have hP' := h.prob
  unfold RLeaf.cdf at hp
  split at hp
  · rename_i hc
    cases hp
    rw [h.dist.cdf]
    simp only [RLeaf.meas, realMeas, hc]; rfl
  · rename_i hc
    have hc : l.cond = true := by simpa using hc
    split at hp
    · rename_i hx
      cases hp
      have : ∀ᵐ y : ℝ ∂(l.meas μ), y ∈ IicE x ↔ y ∈ Set.univ := by
        filter_upwards [h.ae_supp, RLeafOK.ae h.xl_ae] with y h1 h2
        simp only [Set.mem_univ, iff_true]
        exact le_trans (h2 h1).2 hx.le
      rw [measureReal_congr' this]; simp
    · split at hp
      · rename_i hx
        cases hp
        have : ∀ᵐ y : ℝ ∂(l.meas μ), y ∈ IicE x ↔ y ∈ (∅ : Set ℝ) := by
          filter_upwards [h.ae_supp, RLeafOK.ae h.xl_ae] with y h1 h2
          simp only [Set.mem_empty_iff_false, iff_false]
          intro h3
          exact absurd (le_trans (h2 h1).1 h3) (not_le.2 hx)
        rw [measureReal_congr' this]; simp
      · rename_i hxu hxl
        simp only [bind, Except.bind] at hp
        split at hp; · cases hp
        rename_i q hq
        split at hp; · cases hp
        rename_i z hz
        cases hp
        rw [l.meas_cond hc, ← h.Z_ok hz]
        congr 1
        obtain ⟨h1, h2⟩ := pdiff_ok hq
        rw [RLeaf.Fl_eq, h.dist.cdf, h.dist.cdf] at h1 h2
        rw [h1]
        rw [show {y : ℝ | (y : EReal) ≤ x} = IicE x from rfl, show {y : ℝ | (y : EReal) ≤ l.low} = IicE l.low from rfl, ← real_IocE_of_le _ h2]
        refine measureReal_congr' ?_
        filter_upwards [h.supp_ae] with y hy
        rw [Set.mem_inter_iff, hy]
        simp only [IocE, IicE, Set.mem_setOf_eq]
        constructor
        · rintro ⟨h3, h4⟩; exact ⟨⟨h3, h4.trans (not_lt.1 hxu)⟩, h4⟩
        · rintro ⟨⟨h3, _⟩, h4⟩; exact ⟨h3, h4⟩

/-- `logprob_interval__`. -/
theorem RLeafOK.probIvl_ok (h : RLeafOK L μ l) {i : Ivl EReal} (hi : i.WF) (ht : l.k = .disc → TruncOn (μ l.d (Set.Iic 0) = 0) i) {p : ℝ}
    (hp : l.probIvl L i = .ok p) : p = (l.meas μ).real i.reals := by
  have hP' := h.prob
  have key : ∃ fl fu, l.cdf L (ivlLo l.k i) = .ok fl ∧ l.cdf L (ivlHi l.k i) = .ok fu ∧ pdiff fu fl = .ok p := by
    unfold RLeaf.probIvl at hp
    cases hk : l.k with
    | cont =>
      rw [hk] at hp
      simp only [bind, Except.bind] at hp
      split at hp; · cases hp
      rename_i fl hfl
      split at hp; · cases hp
      rename_i fu hfu
      exact ⟨fl, fu, hfl, hfu, hp⟩
    | disc =>
      rw [hk] at hp
      simp only [bind, Except.bind] at hp
      split at hp; · cases hp
      rename_i il hil
      split at hp; · cases hp
      rename_i ir hir
      split at hp; · cases hp
      rename_i fl hfl
      split at hp; · cases hp
      rename_i fu hfu
      refine ⟨fl, fu, ?_, ?_, hp⟩
      · convert hfl using 2
        simp only [ivlLo]
        cases hlo : i.lo
        · have ha : i.a ≠ ⊥ := fun ha => by have := hi.2.1 ha; rw [hlo] at this; cases this
          have ha' : i.a ≠ ⊤ := ne_top_of_lt hi.1
          rw [leftIncl, hlo] at hil
          simp only [Bool.false_eq_true, if_false, intOrNegInf, if_neg ha, if_neg ha', leftIncl, Except.ok.injEq] at hil
          rw [← hil]; simp
        · rw [leftIncl, hlo] at hil
          simp only [if_true, leftIncl, Except.ok.injEq] at hil
          rw [← hil]; simp
      · convert hfu using 2
        simp only [ivlHi]
        cases hro : i.ro
        · rw [rightExcl, hro] at hir
          simp only [Bool.false_eq_true, if_false, rightExcl, Except.ok.injEq] at hir
          rw [← hir]; simp
        · have hb' : i.b ≠ ⊥ := ne_bot_of_gt hi.1
          rw [rightExcl, hro] at hir
          by_cases hb : i.b = ⊤
          · have : isInt (⊤ : EReal) ≠ true := by
              rw [Ne, isInt_iff]; rintro ⟨n, hn⟩; exact absurd hn.symm (EReal.coe_ne_top _)
            simp only [if_true, intOrPosInf, hb, rightExcl, Except.ok.injEq] at hir
            rw [← hir, hb]
            simp only [this, and_false, if_false, sub_zero, floatToInt_top, if_true]
            exact (EReal.top_sub_coe 1).symm
          · simp only [if_true, intOrPosInf, if_neg hb, if_neg hb', rightExcl, Except.ok.injEq] at hir
            rw [← hir]; simp
  obtain ⟨fl, fu, h1, h2, h3⟩ := key
  obtain ⟨h4, h5⟩ := pdiff_ok h3
  rw [h.cdf_ok h1, h.cdf_ok h2] at h4 h5
  rw [h4, ← real_IocE_of_le _ h5]
  exact (measureReal_congr' (RLeafOK.ae (ivl_ae h.dist hi ht))).symm

/-- `logpdf__` of a discrete leaf. -/
theorem RLeafOK.pmf_ok (h : RLeafOK L μ l) (hk : l.k = .disc) {x : EReal} {p : ℝ} (hp : l.pmf L x = .ok p) :
    p = (l.meas μ).real {y | (y : EReal) = x} := by
  have hP := h.dist.prob
  unfold RLeaf.pmf at hp
  split at hp
  · rename_i hc
    cases hp
    rw [h.dist.pmf hk]
    simp only [RLeaf.meas, realMeas, hc]; rfl
  · rename_i hc
    have hc : l.cond = true := by simpa using hc
    split at hp
    · rename_i hx
      cases hp
      have : ∀ᵐ y : ℝ ∂(l.meas μ), y ∈ {y : ℝ | (y : EReal) = x} ↔ y ∈ (∅ : Set ℝ) := by
        filter_upwards [h.ae_supp, RLeafOK.ae h.xl_ae] with y h1 h2
        simp only [Set.mem_setOf_eq, Set.mem_empty_iff_false, iff_false]
        rintro rfl
        rcases hx with hx | hx
        · exact absurd (h2 h1).1 (not_le.2 hx)
        · exact absurd (h2 h1).2 (not_le.2 hx)
      rw [measureReal_congr' this]; simp
    · rename_i hx
      push Not at hx
      simp only [bind, Except.bind] at hp
      split at hp; · cases hp
      rename_i z hz
      cases hp
      rw [l.meas_cond hc, ← h.Z_ok hz, h.dist.pmf hk]
      congr 1
      refine measureReal_congr' ?_
      filter_upwards [h.supp_ae] with y hy
      rw [Set.mem_inter_iff, hy]
      simp only [Set.mem_setOf_eq, IocE]
      constructor
      · rintro rfl
        refine ⟨⟨?_, hx.2⟩, rfl⟩
        unfold RLeaf.low
        rw [hk]
        rcases xl_int h hk with hxl | ⟨m, hxl⟩
        · simp [hxl]
        · have h1 := hx.1
          rw [hxl] at h1 ⊢
          simp only [coe_sub_one, EReal.coe_lt_coe_iff, EReal.coe_le_coe_iff] at h1 ⊢
          linarith
      · exact fun h => h.2

theorem real_finset (m : Measure ℝ) [IsFiniteMeasure m] (s : List EReal) (hs : s.Nodup) :
    (s.map (fun x => m.real {y : ℝ | (y : EReal) = x})).sum = m.real {y : ℝ | (y : EReal) ∈ s} := by
  induction s with
  | nil => simp
  | cons x s ih =>
    rw [List.nodup_cons] at hs
    rw [List.map_cons, List.sum_cons, ih hs.2]
    have : {y : ℝ | (y : EReal) ∈ x :: s} = {y : ℝ | (y : EReal) = x} ∪ {y : ℝ | (y : EReal) ∈ s} := by
      ext y; simp
    rw [this, measureReal_union]
    · rw [Set.disjoint_left]
      rintro y hy hy'
      simp only [Set.mem_setOf_eq] at hy hy'
      exact hs.1 (hy ▸ hy')
    · have := Finset.measurableSet_coe s.toFinset
      simpa using this

theorem mapM_map_eq {α β : Type} {f : α → Res β} {g : α → β} {l : List α} {r : List β} (h : l.mapM f = .ok r)
    (hf : ∀ a ∈ l, ∀ b, f a = .ok b → b = g a) : r = l.map g := by
  have := mapM_ok h
  clear h
  induction this with
  | nil => rfl
  | cons h1 _ ih =>
    rw [List.map_cons, ← hf _ (by simp) _ h1, ← ih (fun a ha => hf a (by simp [ha]))]

/-- `logprob_finite__`. -/
theorem RLeafOK.probFinite_ok (h : RLeafOK L μ l) {s : Finset EReal} {p : ℝ} (hp : l.probFinite L s = .ok p) :
    p = (l.meas μ).real {y | (y : EReal) ∈ s} := by
  have hP' := h.prob
  unfold RLeaf.probFinite at hp
  cases hk : l.k with
  | cont =>
    rw [hk] at hp
    cases hp
    have h0 := h.dist
    rw [hk] at h0
    have : ∀ᵐ y : ℝ ∂(μ l.d), ∀ x ∈ s, (y : EReal) ≠ x := (ae_ball_iff s.countable_toSet).2 (fun x _ => h0.ae_ne x)
    have : ∀ᵐ y : ℝ ∂(l.meas μ), y ∈ {y : ℝ | (y : EReal) ∈ s} ↔ y ∈ (∅ : Set ℝ) := by
      filter_upwards [RLeafOK.ae this] with y hy
      simp only [Set.mem_setOf_eq, Set.mem_empty_iff_false, iff_false]
      exact fun h => hy _ h rfl
    rw [measureReal_congr' this]; simp
  | disc =>
    rw [hk] at hp
    simp only [bind, Except.bind] at hp
    split at hp; · cases hp
    rename_i ps hps
    cases hp
    rw [mapM_map_eq hps (g := fun x => (l.meas μ).real {y | (y : EReal) = x}) (fun a _ b hb => h.pmf_ok hk hb), real_finset _ _ (s.sort_nodup _)]
    simp

/-- The numbers of a set. -/
def SSet.realSet (V : SSet EReal) : Set ℝ := {y | Val.num (y : EReal) ∈ V.den}
/-- The numbers of a basic set. -/
def Piece.realSet (p : Piece EReal) : Set ℝ := {y | Val.num (y : EReal) ∈ p.den}

theorem Piece.measurable_realSet (p : Piece EReal) : MeasurableSet p.realSet := by
  cases p with
  | nom n => simp [Piece.realSet, Piece.den]
  | fin s => simpa [Piece.realSet, Piece.den] using Finset.measurableSet_coe s
  | ivl i => simpa [Piece.realSet, Piece.den] using i.measurableSet

theorem SSet.measurable_realSet (V : SSet EReal) : MeasurableSet V.realSet := by
  cases V with
  | empty => simp [SSet.realSet, SSet.den]
  | pc p => exact p.measurable_realSet
  | un u =>
    have : (SSet.un u).realSet = ⋃ p ∈ u.values, p.realSet := by ext; simp [SSet.realSet, SSet.den, Piece.realSet]
    rw [this]
    exact MeasurableSet.biUnion (Set.Finite.countable (List.finite_toSet _)) (fun p _ => p.measurable_realSet)

/-- The truncated endpoints of the intervals are their floors. -/
def PieceTrunc (P : Prop) (k : Kind) (p : Piece EReal) : Prop := k = .disc → ∀ i, p = .ivl i → TruncOn P i

theorem RLeafOK.probPiece_ok (h : RLeafOK L μ l) {q : Piece EReal} (hq : q.WF) (ht : PieceTrunc (μ l.d (Set.Iic 0) = 0) l.k q) {p : ℝ}
    (hp : l.probPiece L q = .ok p) : p = (l.meas μ).real q.realSet := by
  cases q with
  | nom n => cases hp
  | fin s => rw [h.probFinite_ok hp]; congr 1; ext y; simp [Piece.realSet]
  | ivl i => rw [h.probIvl_ok hq (fun hk => ht hk i rfl) hp]; congr 1; ext y; simp [Piece.realSet, Ivl.reals]

theorem real_pieces (m : Measure ℝ) [IsFiniteMeasure m] (ps : List (Piece EReal)) (hs : ps.Nodup)
    (hd : ∀ p ∈ ps, ∀ q ∈ ps, p ≠ q → ∀ v, ¬ (v ∈ p.den ∧ v ∈ q.den)) :
    (ps.map (fun p => m.real p.realSet)).sum = m.real {y : ℝ | ∃ p ∈ ps, y ∈ p.realSet} := by
  induction ps with
  | nil => simp
  | cons x s ih =>
    rw [List.nodup_cons] at hs
    rw [List.map_cons, List.sum_cons, ih hs.2 (fun p hp q hq => hd p (by simp [hp]) q (by simp [hq]))]
    have : {y : ℝ | ∃ p ∈ x :: s, y ∈ p.realSet} = x.realSet ∪ {y : ℝ | ∃ p ∈ s, y ∈ p.realSet} := by
      ext y; simp
    rw [this, measureReal_union]
    · rw [Set.disjoint_left]
      rintro y hy ⟨p, hp, hy'⟩
      exact hd x (by simp) p (by simp [hp]) (fun h => hs.1 (h ▸ hp)) _ ⟨hy, hy'⟩
    · have : {y : ℝ | ∃ p ∈ s, y ∈ p.realSet} = ⋃ p ∈ s, p.realSet := by ext; simp
      rw [this]
      exact MeasurableSet.biUnion (Set.Finite.countable (List.finite_toSet _)) (fun p _ => p.measurable_realSet)

theorem ivl_sub_left {i j : Ivl EReal} (hi : i.WF) (hs : ∀ x, i.Mem x → j.Mem x) : j.a ≤ i.a := by
  by_contra h
  push Not at h
  obtain ⟨x, h1, h2⟩ := exists_between (lt_min h hi.1)
  have hx : i.Mem x := by
    unfold Ivl.Mem
    have h3 := lt_of_lt_of_le h2 (min_le_right _ _)
    constructor
    · split
      · exact h1
      · exact h1.le
    · split
      · exact h3
      · exact h3.le
  have := (hs x hx).1
  have h4 := lt_of_lt_of_le h2 (min_le_left _ _)
  split at this
  · exact absurd this (not_lt.2 h4.le)
  · exact absurd h4 (not_lt.2 this)

theorem trunc_of_sub {i j : Ivl EReal} (hi : i.WF) (hs : ∀ x, i.Mem x → j.Mem x) (hj : 0 ≤ j.a) : TruncOK i :=
  ⟨.inr (.inr (hj.trans (ivl_sub_left hi hs))), .inr (.inr ((hj.trans (ivl_sub_left hi hs)).trans hi.1.le))⟩

/-- The intervals in the support of a leaf. -/
theorem NotNeg.trunc {μ : Dist → Measure ℝ} {d : Dist} {i j : Ivl EReal} (h : NotNeg μ d j) (hi : i.WF) (hj : j.a ≤ i.a) : TruncOn (μ d (Set.Iic 0) = 0) i :=
  h.elim (fun h => .inr ⟨.inr (.inr (h.trans hj)), .inr (.inr ((h.trans hj).trans hi.1.le))⟩) .inl

theorem NotNeg.sub {μ : Dist → Measure ℝ} {d : Dist} {i j : Ivl EReal} (h : NotNeg μ d j) (hj : j.a ≤ i.a) : NotNeg μ d i := h.imp (·.trans hj) id

/-- The pieces of a set. -/
def SSet.argPieces : SSet EReal → List (Piece EReal)
  | .empty => []
  | .pc p => [p]
  | .un u => u.args

/-- `logprob_values__`. -/
theorem RLeafOK.probValues_ok (h : RLeafOK L μ l) {V : SSet EReal} (hw : V.WF) (hd : V.Disj)
    (hn : V.argPieces.Nodup) (ht : ∀ p ∈ V.argPieces, PieceTrunc (μ l.d (Set.Iic 0) = 0) l.k p) {p : ℝ} (hp : l.probValues L V = .ok p) :
    p = (l.meas μ).real V.realSet := by
  have hP := h.prob
  cases V with
  | empty => cases hp; simp [SSet.realSet]
  | pc q => exact h.probPiece_ok hw (ht q (by simp [SSet.argPieces])) hp
  | un u =>
    simp only [RLeaf.probValues, bind, Except.bind] at hp
    split at hp; · cases hp
    rename_i ps hps
    cases hp
    have hu : u.WF := hw
    rw [mapM_map_eq hps (g := fun q => (l.meas μ).real q.realSet)
      (fun q hq b hb => h.probPiece_ok (hu.pieces q ((hu.mem_args q).1 hq)) (ht q hq) hb)]
    rw [real_pieces _ u.args hn (fun p hp q hq => hd p ((hu.mem_args p).1 hp) q ((hu.mem_args q).1 hq))]
    congr 1
    ext y
    simp only [SSet.realSet, SSet.den, Piece.realSet, Set.mem_setOf_eq, hu.mem_args]

end Sppl
