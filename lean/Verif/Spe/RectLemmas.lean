import Verif.Spe.ConstrainLemmas
import Mathlib.MeasureTheory.Constructions.Cylinders
import Mathlib.MeasureTheory.Measure.WithDensity

set_option linter.all false

/-!
# Rectangles determine distributions; continuous densities (helper lemmas)
-/

namespace Sppl
open Classical MeasureTheory Topology
open scoped ENNReal ProbabilityTheory

variable {c : Ctx} {L : Lib} {μ : Dist → Measure ℝ}

/-- Forget the variables outside `S`. -/
def keepAsg (S : Finset String) (ω : Asg) : Asg := fun s => if s ∈ S then ω s else none

theorem measurable_keepAsg (S : Finset String) : Measurable (keepAsg S) := by
  refine measurable_pi_iff.2 (fun s => ?_)
  unfold keepAsg
  by_cases h : s ∈ S
  · simp only [h, if_true]; exact measurable_pi_apply s
  · simp only [h, if_false]; exact measurable_const'  (fun _ _ => rfl)

/-- The probabilities of rectangles determine the distribution of the variables. -/
theorem eq_of_rects {P Q : Measure Asg} [IsProbabilityMeasure P] [IsProbabilityMeasure Q] {S : Finset String}
    (h : ∀ b : Rect, b.Meas → (∀ p ∈ b, p.1 ∈ S) → P.real b.set = Q.real b.set) {A : Set Asg} (hA : MeasurableSet A) (hD : DepOn S A) : P.real A = Q.real A := by
  have hm := measurable_keepAsg S
  have e : A = keepAsg S ⁻¹' A := by
    ext ω
    exact hD ω (keepAsg S ω) (fun s hs => by simp [keepAsg, hs])
  have : IsProbabilityMeasure (P.map (keepAsg S)) := Measure.isProbabilityMeasure_map hm.aemeasurable
  have : IsProbabilityMeasure (Q.map (keepAsg S)) := Measure.isProbabilityMeasure_map hm.aemeasurable
  have key : P.map (keepAsg S) = Q.map (keepAsg S) := by
    refine ext_of_generate_finite _ (generateFrom_squareCylinders (α := fun _ : String => Option (Val ℝ))).symm
      (isPiSystem_squareCylinders (fun _ => MeasurableSpace.isPiSystem_measurableSet) (by simp)) ?_ (by simp)
    rintro B ⟨s, t, ht, rfl⟩
    have ht : ∀ i, MeasurableSet (t i) := by simpa using ht
    have hB : MeasurableSet ((s : Set String).pi t) := MeasurableSet.pi (Finset.countable_toSet _) (fun i _ => ht i)
    rw [Measure.map_apply hm hB, Measure.map_apply hm hB]
    by_cases hn : ∃ i ∈ s, i ∉ S ∧ none ∉ t i
    · obtain ⟨i, hi, hiS, hit⟩ := hn
      have : keepAsg S ⁻¹' ((s : Set String).pi t) = ∅ := by
        rw [Set.eq_empty_iff_forall_notMem]
        intro ω hω
        have := hω i hi
        simp only [keepAsg, hiS, if_false] at this
        exact hit this
      rw [this]; simp
    · push Not at hn
      let b : Rect := ((s.filter (· ∈ S)).toList).map (fun i => (i, t i))
      have hb : keepAsg S ⁻¹' ((s : Set String).pi t) = b.set := by
        ext ω
        simp only [Set.mem_preimage, Set.mem_pi, Rect.set, b, List.forall_mem_map, Finset.mem_toList, Finset.mem_filter, Set.mem_setOf_eq]
        constructor
        · rintro h i ⟨hi, hiS⟩
          have := h i hi
          simpa [keepAsg, hiS] using this
        · intro h i hi
          by_cases hiS : i ∈ S
          · simpa [keepAsg, hiS] using h i ⟨hi, hiS⟩
          · simpa [keepAsg, hiS] using hn i hi hiS
      rw [hb]
      have := h b (by intro p hp; obtain ⟨i, -, rfl⟩ := List.mem_map.1 hp; exact ht i) (by
        intro p hp; obtain ⟨i, hi, rfl⟩ := List.mem_map.1 hp; exact (by simpa using hi : i ∈ s ∧ i ∈ S).2)
      rwa [measureReal_eq_measureReal_iff] at this
  rw [e, measureReal_def, measureReal_def, ← Measure.map_apply hm hA, ← Measure.map_apply hm hA, key]

/-- A continuous density is the limit of the mass of small intervals, by their length. -/
theorem density_lim {m : Measure ℝ} {f : ℝ → ℝ} (hm : m = volume.withDensity (fun y => ENNReal.ofReal (f y))) [IsFiniteMeasure m] (hf : ∀ y, 0 ≤ f y) {x : ℝ}
    (hc : ContinuousAt f x) : Filter.Tendsto (fun ε => m.real {y | |y - x| ≤ ε} / (2 * ε)) (𝓝[>] (0 : ℝ)) (𝓝 (f x)) := by
  rw [Metric.tendsto_nhds]
  intro δ hδ
  have h1 : ∀ᶠ y in 𝓝 x, |f y - f x| < δ / 2 := by
    have := hc.eventually (Metric.ball_mem_nhds (f x) (half_pos hδ))
    simpa only [Metric.mem_ball, Real.dist_eq] using this
  filter_upwards [eventually_ball h1, self_mem_nhdsWithin] with ε hε (h0 : 0 < ε)
  have hB : {y : ℝ | |y - x| ≤ ε} = Metric.closedBall x ε := by ext y; simp [Real.dist_eq]
  have hBm : MeasurableSet {y : ℝ | |y - x| ≤ ε} := by rw [hB]; exact measurableSet_closedBall
  have hv : volume {y : ℝ | |y - x| ≤ ε} = ENNReal.ofReal (2 * ε) := by rw [hB, Real.volume_closedBall]
  have e : m {y : ℝ | |y - x| ≤ ε} = ∫⁻ y in {y : ℝ | |y - x| ≤ ε}, ENNReal.ofReal (f y) := by rw [hm, withDensity_apply _ hBm]
  have hup : m.real {y : ℝ | |y - x| ≤ ε} ≤ (f x + δ / 2) * (2 * ε) := by
    rw [measureReal_def]
    refine ENNReal.toReal_le_of_le_ofReal (by have := hf x; positivity) ?_
    rw [e, ENNReal.ofReal_mul (by have := hf x; positivity), ← hv]
    calc _ ≤ ∫⁻ y in {y : ℝ | |y - x| ≤ ε}, ENNReal.ofReal (f x + δ / 2) := by
          refine setLIntegral_mono' hBm (fun y hy => ENNReal.ofReal_le_ofReal ?_)
          have := abs_lt.1 (hε y hy); linarith
      _ = _ := by rw [setLIntegral_const]
  have hlo : (f x - δ / 2) * (2 * ε) ≤ m.real {y : ℝ | |y - x| ≤ ε} := by
    by_cases hneg : f x - δ / 2 ≤ 0
    · exact (mul_nonpos_of_nonpos_of_nonneg hneg (by positivity)).trans measureReal_nonneg
    · push Not at hneg
      rw [measureReal_def]
      refine (ENNReal.ofReal_le_iff_le_toReal (measure_ne_top _ _)).1 ?_
      rw [e, ENNReal.ofReal_mul hneg.le, ← hv]
      calc _ = ∫⁻ y in {y : ℝ | |y - x| ≤ ε}, ENNReal.ofReal (f x - δ / 2) := by rw [setLIntegral_const]
        _ ≤ _ := by
          refine setLIntegral_mono' hBm (fun y hy => ENNReal.ofReal_le_ofReal ?_)
          have := abs_lt.1 (hε y hy); linarith
  rw [Real.dist_eq]
  have h2 : (0 : ℝ) < 2 * ε := by positivity
  rw [abs_lt]
  constructor
  · have := (le_div_iff₀ h2).2 hlo; linarith
  · have := (div_le_iff₀ h2).2 hup; linarith

end Sppl
