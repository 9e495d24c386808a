import Verif.Spe.Mix
import Verif.Spe.Spec

/-!
# Specification of distributions
-/

namespace Sppl
open Classical MeasureTheory

/-- What is assumed about a distribution: of scipy, and of the domain that `get_domain` returns. -/
inductive Distr.WF (L : Lib) (μ : Dist → Measure ℝ) : Distr → Prop
  | nominal {dist} : (dist.map Prod.fst).Nodup → (∀ p ∈ dist, 0 ≤ p.2) → Distr.WF L μ (.nominal dist)
  | real {k d supp} : d.values = [] → DistOK L μ k d → supp.WF → (k = .disc → NotNeg μ d supp) → μ d supp.reals = 1 → Distr.WF L μ (.real k d supp)

/-- The distribution of one variable `X`. -/
noncomputable def Distr.law (μ : Dist → Measure ℝ) (X : String) : Distr → Measure Asg
  | .nominal dist => mixture (dist.map (fun p => (p.2 : ℝ))) (dist.map (fun p => Measure.dirac (baseAsg X (.str p.1))))
  | .real _ d _ => (μ d).map (fun x => baseAsg X (.num x))

end Sppl
