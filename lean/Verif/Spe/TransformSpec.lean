import Verif.Spe.Spec

/-!
# Specification of `transform`
-/

namespace Sppl
open Classical MeasureTheory

/-- The assignment extended with `Y`, the value of `t`. -/
noncomputable def withVar (Y : String) (t : Tr) (ω : Asg) : Asg := fun s => if s = Y then t.eval ω else ω s

/-- The leaves that get the derived variable almost surely do not hit a singularity of its logarithms, and atomic leaves do not get expressions
that compare with strings. -/
inductive Spe.CanTransform (μ : Dist → Measure ℝ) (t : Tr) : Spe → Prop
  | real {k X d supp cond env} : (∀ᵐ x ∂(realMeas μ d supp cond), t.Regular (env.extend (baseAsg X (.num x)))) →
      Spe.CanTransform μ t (.real k X d supp cond env)
  | atomic {X v env} : t.NoNom → t.Regular (env.extend (baseAsg X (.num v))) → Spe.CanTransform μ t (.atomic X v env)
  | nominal {X dist} : Spe.CanTransform μ t (.nominal X dist)
  | sum {cs ws} : (∀ s ∈ cs, Spe.CanTransform μ t s) → Spe.CanTransform μ t (.sum cs ws)
  | prod {cs} : (∀ s ∈ cs, t.symbols ⊆ s.symbols → Spe.CanTransform μ t s) → Spe.CanTransform μ t (.prod cs)

end Sppl
