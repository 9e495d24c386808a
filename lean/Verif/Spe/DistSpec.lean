import Verif.Spe.Distributions

/-!
# Specification: where the scipy distributions are supported

The table of supports in the documentation of `scipy.stats` (version 1.4.1, which setup.py requires): every distribution is standardised, with support `[a, b]`
that may depend on its shape parameters, and `loc`, `scale` move the support to `loc + scale * [a, b]` (discrete distributions only have `loc`).
Nothing here is taken from distributions.py except the names of the classes.
-/

namespace Sppl

/-- The parameter `loc`. -/
def Kw.loc (kw : Kw) : ℝ := (kw.lookup "loc").getD 0
/-- The parameter `scale`. -/
def Kw.scale (kw : Kw) : ℝ := (kw.lookup "scale").getD 1
/-- A shape parameter. -/
def Kw.par (kw : Kw) (s : String) : ℝ := (kw.lookup s).getD 0

/-- The ends of the support of the standardised distribution. -/
noncomputable def DName.standard (d : DName) (kw : Kw) : EReal × EReal :=
  match d with
  | .cauchy | .crystalball | .dgamma | .dweibull | .exponnorm | .genlogistic | .gennorm | .gumbel_l | .gumbel_r | .hypsecant | .johnsonsu | .kappa4
  | .laplace | .levy_stable | .loggamma | .logistic | .moyal | .nct | .norm | .norminvgauss | .pearson3 | .powernorm | .skewnorm | .t | .vonmises
  | .dlaplace | .skellam => (⊥, ⊤)
  | .alpha | .betaprime | .burr | .burr12 | .chi | .chi2 | .erlang | .expon | .exponpow | .exponweib | .f | .fatiguelife | .fisk | .foldcauchy
  | .foldnorm | .gamma | .genexpon | .gengamma | .geninvgauss | .genpareto | .gilbrat | .gompertz | .halfcauchy | .halfgennorm | .halflogistic
  | .halfnorm | .invgamma | .invgauss | .invweibull | .kappa3 | .kstwobign | .levy | .loglaplace | .lognorm | .lomax | .maxwell | .mielke | .nakagami
  | .ncf | .ncx2 | .powerlognorm | .rayleigh | .recipinvgauss | .rice | .wald | .weibull_min
  | .nbinom | .planck | .poisson => ((0 : ℝ), ⊤)
  | .arcsine | .argus | .beta | .bradford | .gausshyper | .johnsonsb | .ksone | .powerlaw | .trapz | .triang | .uniform
  | .bernoulli => ((0 : ℝ), (1 : ℝ))
  | .levy_l | .weibull_max => (⊥, (0 : ℝ))
  | .geom | .logser | .yulesimon | .zipf | .pareto => ((1 : ℝ), ⊤)
  | .rdist | .semicircular => ((-1 : ℝ), (1 : ℝ))
  | .anglit => ((-(Real.pi / 4) : ℝ), (Real.pi / 4 : ℝ))
  | .cosine | .vonmises_line => ((-Real.pi : ℝ), (Real.pi : ℝ))
  | .wrapcauchy => ((0 : ℝ), (2 * Real.pi : ℝ))
  | .tukeylambda => if 0 < kw.par "lam" then ((-(1 / kw.par "lam") : ℝ), (1 / kw.par "lam" : ℝ)) else (⊥, ⊤)
  | .genextreme => if kw.par "c" = 0 then (⊥, ⊤) else if 0 < kw.par "c" then (⊥, (1 / kw.par "c" : ℝ)) else ((1 / kw.par "c" : ℝ), ⊤)
  | .genhalflogistic => ((0 : ℝ), (1 / kw.par "c" : ℝ))
  | .loguniform | .truncnorm => (kw.par "a", kw.par "b")
  | .truncexpon => ((0 : ℝ), kw.par "b")
  | .betabinom | .binom => ((0 : ℝ), kw.par "n")
  | .boltzmann => ((0 : ℝ), (kw.par "N" - 1 : ℝ))
  | .hypergeom => ((max 0 (kw.par "N" - (kw.par "M" - kw.par "n")) : ℝ), (min (kw.par "n") (kw.par "N") : ℝ))
  | .randint => (kw.par "low", (kw.par "high" - 1 : ℝ))

/-- Whether scipy gives the distribution on the integers a mass function, or the distribution has a density. -/
def DName.onIntegers : DName → Bool
  | .bernoulli | .betabinom | .binom | .boltzmann | .dlaplace | .geom | .hypergeom | .logser | .nbinom | .planck | .poisson | .randint | .skellam
  | .yulesimon | .zipf => true
  | _ => false

/-- The scipy distribution of that name, with exactly the given keyword arguments. -/
def DName.scipy (d : DName) (kw : Kw) : Dist := ⟨d.scipyName, [], kw, []⟩

/-- The support of the distribution with the given parameters. -/
def DName.support (d : DName) (kw : Kw) : Set ℝ :=
  {x | ∃ y : ℝ, (d.standard kw).1 ≤ y ∧ (y : EReal) ≤ (d.standard kw).2 ∧ x = kw.loc + (if d.onIntegers then 1 else kw.scale) * y}

/-- The parameters for which distributions.py has the right interval: five classes have a wrong one (`C49_wrong_domain`, `C49_cosine_wrong`, ...), and many
do not look at `loc` and `scale`. -/
def DName.Fits (d : DName) (kw : Kw) : Prop :=
  match d with
  | .genlogistic | .gumbel_l | .powernorm | .tukeylambda | .loggamma | .cosine | .vonmises | .kstwobign | .hypergeom => False
  | .anglit | .genextreme | .genhalflogistic | .loguniform | .rdist | .semicircular | .truncexpon | .truncnorm | .vonmises_line | .wrapcauchy =>
    kw.loc = 0 ∧ kw.scale = 1
  | .levy_l | .weibull_max => kw.loc ≤ 0
  | .pareto => 1 ≤ kw.loc + kw.scale
  | .bernoulli | .betabinom | .binom | .boltzmann | .randint => kw.loc = 0
  | .logser | .yulesimon | .zipf | .nbinom | .planck | .poisson => 0 ≤ kw.loc
  | _ => True

/-- The shape parameters that the support of the distribution depends on. -/
def DName.shapes : DName → List String
  | .genextreme | .genhalflogistic => ["c"]
  | .loguniform | .truncnorm => ["a", "b"]
  | .truncexpon => ["b"]
  | .betabinom | .binom => ["n"]
  | .boltzmann => ["N"]
  | .hypergeom => ["N", "M", "n"]
  | .randint => ["low", "high"]
  | .tukeylambda => ["lam"]
  | _ => []

/-- The parameters are those of a distribution: `scale` is positive, the shape parameters that matter for the support are given, the support is not empty
(and has an interior, or ends at integers). -/
structure DName.Proper (d : DName) (kw : Kw) : Prop where
  scale : 0 < kw.scale
  shapes : ∀ s ∈ d.shapes, (kw.lookup s).isSome
  real : d.onIntegers = false → (d.standard kw).1 < (d.standard kw).2
  int : d.onIntegers = true → (d.standard kw).1 ≤ (d.standard kw).2 ∧ ((d.standard kw).1 = ⊥ ∨ ∃ n : ℤ, (d.standard kw).1 = ((n : ℝ) : EReal)) ∧
    ((d.standard kw).2 = ⊤ ∨ ∃ n : ℤ, (d.standard kw).2 = ((n : ℝ) : EReal))

/-- The classes of distributions.py that do not look at `loc`, although the support is not the whole line. -/
def DName.fixed : List DName :=
  [.anglit, .cosine, .vonmises_line, .wrapcauchy, .rdist, .semicircular, .pareto, .genextreme, .genhalflogistic, .kstwobign, .loguniform, .truncnorm,
    .truncexpon, .levy_l, .weibull_max, .bernoulli, .betabinom, .binom, .boltzmann, .hypergeom, .logser, .zipf, .yulesimon, .nbinom, .planck, .poisson, .randint]

end Sppl
