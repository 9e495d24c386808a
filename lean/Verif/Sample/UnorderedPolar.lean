import Verif.Sample.UnorderedNode
import Mathlib.Algebra.MvPolynomial.Funext

set_option linter.all false

/-!
# From expected products to the law up to the order (helper lemmas)
-/

namespace Sppl
open Classical MeasureTheory
open scoped ENNReal ProbabilityTheory

section

variable {N : ℕ} {Λ : Measure (Fin N → Asg)} {ν : Measure Asg}

/-- The samples are in the sets, in the order given by `f`. -/
def boxOf (A : Fin N → Set Asg) (f : Fin N → Fin N) : Set (Fin N → Asg) := {ω | ∀ i, ω i ∈ A (f i)}

theorem measurableSet_boxOf {A : Fin N → Set Asg} (hA : ∀ i, MeasurableSet (A i)) (f : Fin N → Fin N) : MeasurableSet (boxOf A f) := by
  have : boxOf A f = Set.pi Set.univ (fun i => A (f i)) := by ext ω; simp [boxOf]
  rw [this]
  exact MeasurableSet.univ_pi fun i => hA _

theorem prod_indicator_box (A : Fin N → Set Asg) (f : Fin N → Fin N) (ω : Fin N → Asg) :
    ∏ i, (A (f i)).indicator (1 : Asg → ℝ≥0∞) (ω i) = (boxOf A f).indicator 1 ω := by
  by_cases hs : ω ∈ boxOf A f
  · rw [Set.indicator_of_mem hs]
    refine Finset.prod_eq_one (fun i _ => ?_)
    rw [Set.indicator_of_mem (hs i)]; rfl
  · rw [Set.indicator_of_notMem hs]
    simp only [boxOf, Set.mem_ofPred_eq, not_forall] at hs
    obtain ⟨i, hi⟩ := hs
    refine Finset.prod_eq_zero (Finset.mem_univ i) ?_
    rw [Set.indicator_of_notMem hi]

theorem boxes_eq (h : ProdLaw Λ ν) [IsProbabilityMeasure Λ] [IsProbabilityMeasure ν] {A : Fin N → Set Asg} (hA : ∀ i, MeasurableSet (A i)) (z : Fin N → ℝ) (hz : ∀ i, 0 ≤ z i) :
    ∑ f : Fin N → Fin N, (∏ i, z (f i)) * Λ.real (boxOf A f) = ∑ f : Fin N → Fin N, (∏ i, z (f i)) * ∏ i, ν.real (A (f i)) := by
  let φ : Asg → ℝ≥0∞ := fun a => ∑ j, ENNReal.ofReal (z j) * (A j).indicator 1 a
  have hφ : Measurable φ := Finset.measurable_sum _ (fun j _ => (measurable_one.indicator (hA j)).const_mul _)
  have h1 := h φ hφ
  have e1 : ∀ ω : Fin N → Asg, ∏ i, φ (ω i) = ∑ f : Fin N → Fin N, (∏ i, ENNReal.ofReal (z (f i))) * (boxOf A f).indicator 1 ω := by
    intro ω
    simp only [φ]
    rw [Finset.prod_univ_sum, Fintype.piFinset_univ]
    refine Finset.sum_congr rfl (fun f _ => ?_)
    rw [Finset.prod_mul_distrib, prod_indicator_box]
  have e2 : (∫⁻ a, φ a ∂ν) = ∑ j, ENNReal.ofReal (z j) * ν (A j) := by
    simp only [φ]
    rw [lintegral_finset_sum _ (fun j _ => (measurable_one.indicator (hA j)).const_mul _)]
    refine Finset.sum_congr rfl (fun j _ => ?_)
    rw [lintegral_const_mul _ (measurable_one.indicator (hA j)), lintegral_indicator_one (hA j)]
  have e3 : (∑ j, ENNReal.ofReal (z j) * ν (A j)) ^ N = ∑ f : Fin N → Fin N, (∏ i, ENNReal.ofReal (z (f i))) * ∏ i, ν (A (f i)) := by
    have := Finset.prod_univ_sum (ι := Fin N) (fun _ => (Finset.univ : Finset (Fin N))) (fun _ j => ENNReal.ofReal (z j) * ν (A j))
    rw [Finset.prod_const, Finset.card_univ, Fintype.card_fin, Fintype.piFinset_univ] at this
    rw [this]
    exact Finset.sum_congr rfl (fun f _ => Finset.prod_mul_distrib)
  simp only [e1] at h1
  rw [e2, e3, lintegral_finset_sum _ (fun f _ => (measurable_one.indicator (measurableSet_boxOf hA f)).const_mul _)] at h1
  have e4 : ∀ f : Fin N → Fin N, ∫⁻ ω, (∏ i, ENNReal.ofReal (z (f i))) * (boxOf A f).indicator 1 ω ∂Λ = (∏ i, ENNReal.ofReal (z (f i))) * Λ (boxOf A f) := by
    intro f
    rw [lintegral_const_mul _ (measurable_one.indicator (measurableSet_boxOf hA f)), lintegral_indicator_one (measurableSet_boxOf hA f)]
  simp only [e4] at h1
  have h2 := congrArg ENNReal.toReal h1
  rw [ENNReal.toReal_sum, ENNReal.toReal_sum] at h2
  · simpa only [ENNReal.toReal_mul, ENNReal.toReal_prod, ENNReal.toReal_ofReal (hz _), Measure.real] using h2
  · intro f _
    exact ENNReal.mul_ne_top (ENNReal.prod_ne_top fun i _ => ENNReal.ofReal_ne_top) (ENNReal.prod_ne_top fun i _ => measure_ne_top _ _)
  · intro f _
    exact ENNReal.mul_ne_top (ENNReal.prod_ne_top fun i _ => ENNReal.ofReal_ne_top) (measure_ne_top _ _)

open MvPolynomial in
/-- A polynomial that vanishes on the positive orthant has no term in which every variable occurs once. -/
theorem polar {d : (Fin N → Fin N) → ℝ} (h : ∀ z : Fin N → ℝ, (∀ i, 0 ≤ z i) → ∑ f : Fin N → Fin N, (∏ i, z (f i)) * d f = 0) :
    ∑ π : Equiv.Perm (Fin N), d π = 0 := by
  let p : MvPolynomial (Fin N) ℝ := ∑ f : Fin N → Fin N, monomial (∑ i, Finsupp.single (f i) 1) (d f)
  have hp : p = 0 := by
    refine funext_set (fun _ => Set.Ici 0) (fun _ => Set.Ici_infinite 0) ?_
    intro z hz
    simp only [p, map_sum, map_zero]
    rw [← h z (fun i => hz i trivial)]
    refine Finset.sum_congr rfl (fun f _ => ?_)
    rw [eval_monomial, mul_comm]
    congr 1
    rw [← Finsupp.prod_finset_sum_index (by simp) (by intros; rw [pow_add])]
    refine Finset.prod_congr rfl (fun i _ => ?_)
    rw [Finsupp.prod_single_index (by simp), pow_one]
  have hc := congrArg (coeff (∑ j : Fin N, Finsupp.single j 1)) hp
  simp only [p, coeff_sum, coeff_monomial, coeff_zero] at hc
  have key : ∀ f : Fin N → Fin N, (∑ i, Finsupp.single (f i) 1 : Fin N →₀ ℕ) = ∑ j : Fin N, Finsupp.single j 1 ↔ Function.Bijective f := by
    intro f
    constructor
    · intro e
      refine Finite.surjective_iff_bijective.1 fun j => ?_
      have := DFunLike.congr_fun e j
      simp only [Finsupp.coe_finset_sum, Finset.sum_apply, Finsupp.single_apply, Finset.sum_ite_eq', Finset.mem_univ, if_true] at this
      by_contra hc
      push Not at hc
      rw [Finset.sum_eq_zero (fun i _ => by simp [hc i])] at this
      exact absurd this (by norm_num)
    · intro hf
      exact (Equiv.ofBijective f hf).sum_comp (fun j => Finsupp.single j 1)
  simp only [key] at hc
  rw [← Finset.sum_filter] at hc
  rw [← hc]
  refine Finset.sum_bij (fun π _ => (π : Fin N → Fin N)) ?_ ?_ ?_ ?_
  · intro π _; exact Finset.mem_filter.2 ⟨Finset.mem_univ _, π.bijective⟩
  · intro π _ π' _ e; exact DFunLike.coe_injective e
  · intro f hf
    simp only [Finset.mem_filter, Finset.mem_univ, true_and] at hf
    exact ⟨Equiv.ofBijective f hf, Finset.mem_univ _, rfl⟩
  · intro π _; rfl

theorem measurable_perm (π : Equiv.Perm (Fin N)) : Measurable (fun (ω : Fin N → Asg) i => ω (π i)) := measurable_pi_iff.2 fun i => measurable_pi_apply (π i)

/-- The law, in a random order, is that of independent draws. -/
theorem symmetrised (h : ProdLaw Λ ν) [IsProbabilityMeasure Λ] [IsProbabilityMeasure ν] :
    (Measure.pi fun _ : Fin N => ν) = (N.factorial : ℝ≥0∞)⁻¹ • ∑ π : Equiv.Perm (Fin N), Λ.map (fun ω i => ω (π i)) := by
  refine Measure.pi_eq ?_
  intro A hA
  have h0 := polar (N := N) (d := fun f => Λ.real (boxOf A f) - ∏ i, ν.real (A (f i))) (by
    intro z hz
    simp only [mul_sub, Finset.sum_sub_distrib]
    rw [boxes_eq h hA z hz, sub_self])
  rw [Finset.sum_sub_distrib, sub_eq_zero] at h0
  have e1 : ∑ π : Equiv.Perm (Fin N), ∏ i, ν.real (A (π i)) = N.factorial * ∏ i, ν.real (A i) := by
    rw [Finset.sum_congr rfl (fun π _ => Equiv.prod_comp π (fun i => ν.real (A i))), Finset.sum_const, Finset.card_univ, Fintype.card_perm, Fintype.card_fin, nsmul_eq_mul]
  rw [e1] at h0
  rw [Measure.smul_apply, Measure.finset_sum_apply, smul_eq_mul]
  have e2 : ∀ π : Equiv.Perm (Fin N), Λ.map (fun ω i => ω (π i)) (Set.pi Set.univ A) = Λ (boxOf A (π⁻¹ : Equiv.Perm (Fin N))) := by
    intro π
    rw [Measure.map_apply (measurable_perm π) (MeasurableSet.univ_pi hA)]
    congr 1
    ext ω
    simp only [Set.mem_preimage, Set.mem_pi, Set.mem_univ, true_implies, boxOf, Set.mem_ofPred_eq]
    constructor
    · intro h i; simpa using h (π⁻¹ i)
    · intro h i; have := h (π i); rwa [show (π⁻¹ : Equiv.Perm (Fin N)) (π i) = i from π.symm_apply_apply i] at this
  simp only [e2]
  have e4 : ∑ π : Equiv.Perm (Fin N), Λ (boxOf A (π⁻¹ : Equiv.Perm (Fin N))) = ∑ π : Equiv.Perm (Fin N), Λ (boxOf A π) :=
    Equiv.sum_comp (Equiv.inv (Equiv.Perm (Fin N))) (fun π : Equiv.Perm (Fin N) => Λ (boxOf A π))
  rw [e4]
  have e3 : ∑ π : Equiv.Perm (Fin N), Λ (boxOf A π) = N.factorial * ∏ i, ν (A i) := by
    rw [← ENNReal.toReal_eq_toReal_iff' (ENNReal.sum_ne_top.2 fun _ _ => measure_ne_top _ _)
      (ENNReal.mul_ne_top (by simp) (ENNReal.prod_ne_top fun _ _ => measure_ne_top _ _)), ENNReal.toReal_sum (fun _ _ => measure_ne_top _ _), ENNReal.toReal_mul, ENNReal.toReal_prod]
    simpa [Measure.real] using h0
  rw [e3, ← mul_assoc, ENNReal.inv_mul_cancel (by simp [Nat.factorial_ne_zero]) (by simp), one_mul]

theorem unordered_perm (ω : Fin N → Asg) (π : Equiv.Perm (Fin N)) : unordered (fun i => ω (π i)) = unordered ω := by
  unfold unordered
  rw [Multiset.coe_eq_coe]
  exact π.ofFn_comp_perm ω

theorem unordered_law (h : ProdLaw Λ ν) [IsProbabilityMeasure Λ] [IsProbabilityMeasure ν] {S : Set (Multiset Asg)} (hS : MeasurableSet {ω : Fin N → Asg | unordered ω ∈ S}) :
    Λ {ω | unordered ω ∈ S} = (Measure.pi fun _ : Fin N => ν) {ω | unordered ω ∈ S} := by
  rw [symmetrised h, Measure.smul_apply, Measure.finset_sum_apply]
  have e : ∀ π : Equiv.Perm (Fin N), Λ.map (fun ω i => ω (π i)) {ω | unordered ω ∈ S} = Λ {ω | unordered ω ∈ S} := by
    intro π
    rw [Measure.map_apply (measurable_perm π) hS]
    congr 1
    ext ω
    simp only [Set.mem_preimage, Set.mem_ofPred_eq, unordered_perm]
  simp only [e, Finset.sum_const, Finset.card_univ, Fintype.card_perm, Fintype.card_fin, nsmul_eq_mul, smul_eq_mul]
  rw [← mul_assoc, ENNReal.inv_mul_cancel (by simp [Nat.factorial_ne_zero]) (by simp), one_mul]

end

end Sppl
