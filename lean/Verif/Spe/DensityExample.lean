import Verif.Spe.RectLemmas
import Mathlib.MeasureTheory.Measure.Lebesgue.Basic

set_option linter.all false

/-!
# SPEs with densities

Used to show that the hypotheses of the theorems are met, and for counterexamples.
-/

namespace Sppl
open Classical MeasureTheory Topology
open scoped ENNReal ProbabilityTheory

/-- The name of another distribution. -/
def d1 : Dist := ⟨"bernoulli", [1], [], []⟩

theorem d1_ne : d1 ≠ d0 := by intro h; have := congrArg Dist.name h; simp [d1, d0] at this

/-- `d0` is uniform on `[1/2, 3/2]`, the others are 1 with certainty. -/
noncomputable def muD (d : Dist) : Measure ℝ := if d = d0 then volume.restrict (Set.Icc (1/2) (3/2)) else Measure.dirac 1

theorem muD_d0 : muD d0 = volume.restrict (Set.Icc (1/2) (3/2)) := by simp [muD]
theorem muD_d1 : muD d1 = Measure.dirac 1 := by simp [muD, d1_ne]

/-- A correct scipy for `muD`. -/
noncomputable def libD : Lib := { libOf muD with pdf := fun d x => if d = d0 ∧ x ∈ Set.Icc (1/2 : ℝ) (3/2) then 1 else 0 }

theorem libD_nonneg (d : Dist) (x : ℝ) : 0 ≤ libD.pdf d x := by simp only [libD]; split <;> norm_num

theorem libD_pdf : libD.pdf d0 1 = 1 := by simp only [libD]; rw [if_pos]; exact ⟨trivial, by norm_num, by norm_num⟩

theorem libD_pmf : libD.pmf d1 ((1 : ℝ) : EReal) = 1 := by
  simp only [libD, libOf, muD_d1, EReal.coe_eq_coe_iff]
  simp [measureReal_def]

theorem distOK_d0 : DistOK libD muD .cont d0 where
  prob := ⟨by rw [muD_d0]; simp; norm_num⟩
  cdf x := rfl
  cont := by intro _ x; simp [muD_d0]
  disc := by intro h; cases h
  pmf := by intro h; cases h

theorem distOK_d1 : DistOK libD muD .disc d1 where
  prob := by rw [muD_d1]; infer_instance
  cdf x := rfl
  cont := by intro h; cases h
  disc := by
    intro _
    rw [muD_d1]
    have : (1 : ℝ) ∉ {x : ℝ | ∀ n : ℤ, x ≠ n} := fun h => h 1 (by simp)
    simp [this]
  pmf := by intro _ x; rfl

/-- The support `[1/2, 3/2]`. -/
noncomputable def suppC : Ivl EReal := ⟨((1/2 : ℝ) : EReal), ((3/2 : ℝ) : EReal), false, false⟩
/-- The support `[0, 2]`. -/
noncomputable def suppD : Ivl EReal := ⟨((0 : ℝ) : EReal), ((2 : ℝ) : EReal), false, false⟩

theorem suppC_wf : suppC.WF :=
  ⟨by simp only [suppC, EReal.coe_lt_coe_iff]; norm_num, fun h => absurd h (EReal.coe_ne_bot _), fun h => absurd h (EReal.coe_ne_top _)⟩
theorem suppD_wf : suppD.WF :=
  ⟨by simp only [suppD, EReal.coe_lt_coe_iff]; norm_num, fun h => absurd h (EReal.coe_ne_bot _), fun h => absurd h (EReal.coe_ne_top _)⟩

theorem suppC_reals : suppC.reals = Set.Icc (1/2) (3/2) := by
  ext x
  simp only [suppC, Ivl.reals, Set.mem_setOf_eq, Ivl.Mem, Bool.false_eq_true, if_false, EReal.coe_le_coe_iff, Set.mem_Icc]
theorem suppD_reals : suppD.reals = Set.Icc 0 2 := by
  ext x
  simp only [suppD, Ivl.reals, Set.mem_setOf_eq, Ivl.Mem, Bool.false_eq_true, if_false, EReal.coe_le_coe_iff, Set.mem_Icc]

/-- A uniform variable. -/
noncomputable def leafC (X : String) : Spe := .real .cont X d0 suppC false [(X, .id X)]
/-- A variable that is always 1. -/
noncomputable def leafD (X : String) : Spe := .real .disc X d1 suppD false [(X, .id X)]

theorem single_regular (X : String) (x : ℝ) : EnvRegular X [(X, .id X)] x := by intro p hp; simp at hp; subst hp; trivial

theorem leafC_wf (c : Ctx) (X : String) : (leafC X).WF c libD muD := by
  refine .real distOK_d0 (envOK_single c X) suppC_wf (by intro h; cases h) ?_ (Filter.Eventually.of_forall (single_regular X))
  simp only [Bool.false_eq_true, if_false, suppC_reals]
  rw [muD_d0]; simp; norm_num

theorem leafD_wf (c : Ctx) (X : String) : (leafD X).WF c libD muD := by
  refine .real distOK_d1 (envOK_single c X) suppD_wf ?_ ?_ (Filter.Eventually.of_forall (single_regular X))
  · intro _
    exact ⟨⟨.inl (by simp [suppD]), .inr ⟨0, by simp [suppD]⟩⟩, Or.inr ⟨2, by simp [suppD]⟩⟩
  · simp only [Bool.false_eq_true, if_false, suppD_reals]
    rw [muD_d1]
    have : (1 : ℝ) ∈ Set.Icc (0 : ℝ) 2 := ⟨by norm_num, by norm_num⟩
    rw [Measure.dirac_apply_of_mem this]

theorem leafC_pdf (X : String) : (leafC X).pdfMem libD [(X, .num 1)] = .ok (1, 1) := by
  simp [leafC, Spe.pdfMem, leafPdfMem, leafValue, Spe.leafEnv, leafPdf, RLeaf.pdf, leafDim, libD_pdf, bind, Except.bind]

theorem leafD_pdf (X : String) : (leafD X).pdfMem libD [(X, .num 1)] = .ok (0, 1) := by
  have := libD_pmf
  simp [leafD, Spe.pdfMem, leafPdfMem, leafValue, Spe.leafEnv, leafPdf, RLeaf.pmf, leafDim, bind, Except.bind]
  exact this

theorem leafC_constrain (X : String) : (leafC X).constrainMem libD [(X, .num 1)] = .ok (.atomic X 1 [(X, .id X)]) := by
  simp [leafC, Spe.constrainMem, leafConstrainMem, leafConstrain, leafValue, Spe.leafEnv, leafPdf, RLeaf.pdf, libD_pdf, bind, Except.bind]

theorem leafD_constrain (X : String) : (leafD X).constrainMem libD [(X, .num 1)] = .ok (.atomic X 1 [(X, .id X)]) := by
  have := libD_pmf
  simp [leafD, Spe.constrainMem, leafConstrainMem, leafConstrain, leafValue, Spe.leafEnv, leafPdf, RLeaf.pmf, bind, Except.bind]
  rw [show ((1 : EReal)) = ((1 : ℝ) : EReal) by simp, this]
  simp

/-- The mass of a small interval around 1. -/
theorem ball_mass {ε : ℝ} (h0 : 0 < ε) (h1 : ε < 1/2) : (muD d0).real {y | |y - 1| ≤ ε} = 2 * ε := by
  have hB : {y : ℝ | |y - 1| ≤ ε} = Metric.closedBall 1 ε := by ext y; simp [Real.dist_eq]
  have hs : Metric.closedBall (1 : ℝ) ε ⊆ Set.Icc (1/2) (3/2) := by
    intro y hy
    rw [Metric.mem_closedBall, Real.dist_eq, abs_le] at hy
    constructor <;> linarith [hy.1, hy.2]
  rw [hB, muD_d0, measureReal_restrict_apply measurableSet_closedBall, Set.inter_eq_left.2 hs, measureReal_def, Real.volume_closedBall,
    ENNReal.toReal_ofReal (by positivity)]

theorem pdfAt_one : PdfAt libD muD d0 suppC false 1 where
  lim := by
    rw [libD_pdf]
    refine tendsto_const_nhds.congr' ?_
    have : Set.Iio (1/2 : ℝ) ∈ 𝓝[>] (0 : ℝ) := nhdsWithin_le_nhds (Iio_mem_nhds (by norm_num))
    filter_upwards [self_mem_nhdsWithin, this] with ε (h0 : 0 < ε) (h1 : ε < 1/2)
    rw [ball_mass h0 h1, div_self (by positivity)]
  zero := by rw [libD_pdf]; intro h; exact absurd h (by norm_num)
  inner := by intro h; cases h

/-- Half of the mass is uniform, the other half is at 1. -/
noncomputable def spike (X : String) : Spe := .sum [leafD X, leafC X] [1/2, 1/2]

theorem spike_wf (c : Ctx) (X : String) : (spike X).WF c libD muD := by
  refine .sum (S := {X}) ?_ (by simp) rfl ?_ (by norm_num) ?_
  · intro s hs; simp at hs; rcases hs with rfl | rfl; exact leafD_wf c X; exact leafC_wf c X
  · intro w hw; simp at hw; subst hw; norm_num
  · intro s hs; simp at hs; rcases hs with rfl | rfl <;> simp [leafC, leafD, Spe.symbols]

theorem spike_pdf (X : String) : (spike X).pdfMem libD [(X, .num 1)] = .ok (0, 1/2) := by
  rw [spike, Spe.pdfMem, Spe.pdfMemL_eq]
  simp [callAll, leafD_pdf, leafC_pdf, bind, Except.bind, pure, Except.pure, List.mapM_cons, mixPdf, List.min?]

/-- A uniform variable and a coin. -/
noncomputable def pair : Spe := .prod [leafC "X", coin "Y"]

theorem pair_wf (c : Ctx) : pair.WF c libD muD := by
  refine .prod ?_ (by simp) ?_
  · intro s hs; simp at hs; rcases hs with rfl | rfl; exact leafC_wf c "X"; exact coin_wf c _ _ "Y"
  · simp [Spe.symbolsL, Spe.symbols, coin, leafC]

/-- `{X: 1, Y: 'a'}`. -/
noncomputable def pairAt : Point := [("X", .num 1), ("Y", .str "a")]

theorem coin_pdf (L : Lib) (Y : String) : (coin Y).pdfMem L [(Y, .str "a")] = .ok (0, 1/2) := by
  simp [coin, Spe.pdfMem, leafPdfMem, leafValue, Spe.leafEnv, leafPdf, leafDim, bind, Except.bind]

theorem pair_pdf : pair.pdfMem libD pairAt = .ok (1, 1/2) := by
  have hs : Spe.symbolsL [leafC "X", coin "Y"] = [{"X"}, {"Y"}] := by simp [Spe.symbolsL, Spe.symbols, leafC, coin]
  have hX : lookupChild [{"X"}, {"Y"}] "X" = .ok 0 := by decide
  have hY : lookupChild [{"X"}, {"Y"}] "Y" = .ok 1 := by decide
  rw [pair, Spe.pdfMem, Spe.pdfMemL_eq, hs, pairAt]
  simp [splitPoint, hX, hY, bind, Except.bind, pure, Except.pure, List.mapM_cons, leafC_pdf, coin_pdf, prodPdf]

theorem pair_smooth : pair.Smooth libD muD pairAt := by
  refine .prod ?_
  intro s hs; simp at hs; rcases hs with rfl | rfl
  · refine .cont ?_
    intro x hx
    have : x = 1 := by simpa [pairAt] using hx
    subst this; exact pdfAt_one
  · exact .nominal

theorem pair_plain : pair.Plain := by
  refine .prod ?_
  intro s hs; simp at hs; rcases hs with rfl | rfl
  · exact .real
  · exact .nominal

theorem spike_plain (X : String) : (spike X).Plain := by
  refine .sum ?_ ?_
  · intro s hs; simp at hs; rcases hs with rfl | rfl
    · exact .real
    · exact .real
  · intro w hw; simp at hw; subst hw; norm_num

/-- The mixture of `spike` and a coin. -/
noncomputable def spikes : Spe := .prod [spike "X", coin "Y"]

theorem spikes_wf (c : Ctx) : spikes.WF c libD muD := by
  refine .prod ?_ (by simp) ?_
  · intro s hs; simp at hs; rcases hs with rfl | rfl; exact spike_wf c "X"; exact coin_wf c _ _ "Y"
  · simp [Spe.symbolsL, Spe.symbols, coin, spike, leafC, leafD]

theorem spikes_pdf : spikes.pdfMem libD [("X", .num 1)] = .ok (0, 1/2) := by
  have hs : Spe.symbolsL [spike "X", coin "Y"] = [{"X"}, {"Y"}] := by simp [Spe.symbolsL, Spe.symbols, leafC, leafD, spike, coin]
  have hX : lookupChild [{"X"}, {"Y"}] "X" = .ok 0 := by decide
  rw [spikes, Spe.pdfMem, Spe.pdfMemL_eq, hs]
  simp [splitPoint, hX, bind, Except.bind, pure, Except.pure, List.mapM_cons, spike_pdf, prodPdf]

end Sppl
