import Verif.Sample.Spec
import Mathlib.MeasureTheory.Constructions.Pi
import Mathlib.MeasureTheory.Measure.Count
import Mathlib.MeasureTheory.Measure.Lebesgue.Basic

/-!
# Specification of sampling: the law of samples
-/

namespace Sppl
open Classical MeasureTheory
open scoped ENNReal ProbabilityTheory

/-- Random orders are a discrete space. -/
instance permMeasurableSpace (n : ℕ) : MeasurableSpace (Equiv.Perm (Fin n)) := ⊤

/-- From a state distributed as `U`, `f` draws a value from `ν` and leaves a state that is again distributed as `U`, independent of the value. -/
def Draws {τ β : Type} [MeasurableSpace τ] [MeasurableSpace β] (U : Measure τ) (f : τ → β × τ) (ν : Measure β) : Prop :=
  Measurable f ∧ U.map f = ν.prod U

/-- The law of an index drawn with the probabilities `p`. -/
noncomputable def pickLaw (p : List ℝ) : Measure ℕ := ∑ i ∈ Finset.range p.length, ENNReal.ofReal (p.getD i 0) • Measure.dirac i

/-- What is assumed of numpy and scipy for the law of samples: the generators give independent draws from the laws that they document. -/
structure Rand.Fair {τ : Type} [MeasurableSpace τ] (R : Rand τ) (U : Measure τ) (L : Lib) (μ : Dist → Measure ℝ) : Prop where
  prob : IsProbabilityMeasure U
  uniform : ∀ N, Draws U (R.uniform N) (Measure.pi fun _ : Fin N => volume.restrict (Set.Ico (0 : ℝ) 1))
  choice : ∀ p N, (∀ w ∈ p, 0 ≤ w) → p.sum = 1 → Draws U (R.choice p N) (Measure.pi fun _ : Fin N => pickLaw p)
  shuffle : ∀ n, Draws U (R.shuffle n) ((n.factorial : ℝ≥0∞)⁻¹ • Measure.count)
  rvs : ∀ k d N, DistOK L μ k d → Draws U (R.rvs d N) (Measure.pi fun _ : Fin N => μ d)
  ppf_measurable : ∀ k d, DistOK L μ k d → Measurable (R.ppf d)
  ppf : ∀ k d, DistOK L μ k d → ∀ q, 0 < q → q < 1 → ∀ x, R.ppf d q ≤ x ↔ q ≤ (μ d).real (Set.Iic x)

/-- The derived variables of the SPE have values almost surely, and their `evaluate` methods work (no logarithms or piecewise functions). -/
inductive Spe.Sampled (μ : Dist → Measure ℝ) : Spe → Prop
  | real {k X d supp cond env} : (∀ p ∈ env, p.2.Plain) →
      (∀ᵐ x ∂(realMeas μ d supp cond), ∀ p ∈ env, env.extend (baseAsg X (.num x)) p.1 ≠ none) → Spe.Sampled μ (.real k X d supp cond env)
  | atomic {X v env} : (∀ p ∈ env, p.2.Plain) → (∀ p ∈ env, env.extend (baseAsg X (.num v)) p.1 ≠ none) → Spe.Sampled μ (.atomic X v env)
  | nominal {X dist} : Spe.Sampled μ (.nominal X dist)
  | sum {cs ws} : (∀ s ∈ cs, Spe.Sampled μ s) → Spe.Sampled μ (.sum cs ws)
  | prod {cs} : (∀ s ∈ cs, Spe.Sampled μ s) → Spe.Sampled μ (.prod cs)

/-- SPEs without mixtures. -/
inductive Spe.NoMix : Spe → Prop
  | real {k X d supp cond env} : Spe.NoMix (.real k X d supp cond env)
  | atomic {X v env} : Spe.NoMix (.atomic X v env)
  | nominal {X dist} : Spe.NoMix (.nominal X dist)
  | prod {cs} : (∀ s ∈ cs, Spe.NoMix s) → Spe.NoMix (.prod cs)

/-- The computation `m` almost surely returns, and what it returns is `φ` of a draw from `ν`. -/
def Law {τ α β : Type} [MeasurableSpace τ] [MeasurableSpace β] (U : Measure τ) (m : τ → Res (α × τ)) (φ : β → α) (ν : Measure β) : Prop :=
  ∃ f : τ → β × τ, Draws U f ν ∧ ∀ᵐ t ∂U, m t = .ok (φ (f t).1, (f t).2)

/-- `sample(N)` gives `N` independent draws from the distribution that the SPE denotes. -/
def Spe.IID {τ : Type} [MeasurableSpace τ] (R : Rand τ) (U : Measure τ) (L : Lib) (μ : Dist → Measure ℝ) (s : Spe) (N : ℕ) : Prop :=
  Law U (s.sample R L N) (fun ω : Fin N → Asg => List.ofFn (fun i => toDct (ω i))) (Measure.pi fun _ => s.den μ)

end Sppl
