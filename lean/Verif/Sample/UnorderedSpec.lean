import Verif.Sample.LawSpec

/-!
# Specification of sampling: the law of samples up to their order
-/

namespace Sppl
open Classical MeasureTheory
open scoped ENNReal ProbabilityTheory

/-- The samples without their order. -/
def unordered {N : ℕ} (ω : Fin N → Asg) : Multiset Asg := Multiset.ofList (List.ofFn ω)

/-- `sample(N)` gives, up to the order, `N` independent draws from the distribution that the SPE denotes: every statistic that does not depend on the
order of the samples has the law that it has for independent draws. -/
def Spe.UpToOrder {τ : Type} [MeasurableSpace τ] (R : Rand τ) (U : Measure τ) (L : Lib) (μ : Dist → Measure ℝ) (s : Spe) (N : ℕ) : Prop :=
  ∀ S : Set (Multiset Asg), MeasurableSet {ω : Fin N → Asg | unordered ω ∈ S} →
    U {t | ∃ (ω : Fin N → Asg) (t' : τ), s.sample R L N t = .ok (List.ofFn (fun i => toDct (ω i)), t') ∧ unordered ω ∈ S} =
      (Measure.pi fun _ : Fin N => s.den μ) {ω | unordered ω ∈ S}

/-- SPEs where no product has two factors with mixtures. -/
inductive Spe.OneMix : Spe → Prop
  | real {k X d supp cond env} : Spe.OneMix (.real k X d supp cond env)
  | atomic {X v env} : Spe.OneMix (.atomic X v env)
  | nominal {X dist} : Spe.OneMix (.nominal X dist)
  | sum {cs ws} : (∀ s ∈ cs, Spe.OneMix s) → Spe.OneMix (.sum cs ws)
  | prod {cs} : (∀ s ∈ cs, Spe.OneMix s) → cs.Pairwise (fun s s' => s.NoMix ∨ s'.NoMix) → Spe.OneMix (.prod cs)

end Sppl
