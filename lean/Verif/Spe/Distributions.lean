import Verif.Spe.Mix

/-!
# Model of the table of distributions of `/repo/src/distributions.py`

Every class of distributions.py that wraps a scipy distribution says which interval the values of the distribution lie in
(`get_domain`); the leaf made by calling it keeps that interval as its support and never looks outside of it.  Not modelled: what scipy does
with the keyword arguments (`self.dist(**self.kwargs)` raises for names that scipy does not know; the model accepts them).
-/

namespace Sppl
open Classical

/-- The classes of distributions.py 89-682 that wrap a named scipy distribution, in the order of the file; the name of the class is the name of the
distribution (`dist = scipy.stats.<name>`).  `atomic` is `atomicKw`, and `rv_discrete`, `uniformd`, `discrete` are `rvDomain`. -/
inductive DName
  | alpha | anglit | arcsine | argus | beta | betaprime | bradford | burr | burr12 | cauchy | chi | chi2 | cosine | crystalball | dgamma
  | dweibull | erlang | expon | exponnorm | exponweib | exponpow | f | fatiguelife | fisk | foldcauchy | foldnorm | genlogistic | gennorm
  | genpareto | genexpon | genextreme | gausshyper | gamma | gengamma | genhalflogistic | geninvgauss | gilbrat | gompertz | gumbel_r
  | gumbel_l | halfcauchy | halflogistic | halfnorm | halfgennorm | hypsecant | invgamma | invgauss | invweibull | johnsonsb | johnsonsu
  | kappa4 | kappa3 | ksone | kstwobign | laplace | levy | levy_l | levy_stable | logistic | loggamma | loglaplace | lognorm | loguniform
  | lomax | maxwell | mielke | moyal | nakagami | ncx2 | ncf | nct | norm | norminvgauss | pareto | pearson3 | powerlaw | powerlognorm
  | powernorm | rdist | rayleigh | rice | recipinvgauss | semicircular | skewnorm | t | trapz | triang | truncexpon | truncnorm
  | tukeylambda | uniform | vonmises | vonmises_line | wald | weibull_min | weibull_max | wrapcauchy | bernoulli | betabinom | binom
  | boltzmann | dlaplace | geom | hypergeom | logser | nbinom | planck | poisson | randint | skellam | zipf | yulesimon
  deriving DecidableEq

/-- The keyword arguments of a distribution (distributions.py 38: numbers, converted by `floatify`). -/
abbrev Kw := List (String × ℝ)

/-- `self.kwargs[s]`. -/
def kwGet (kw : Kw) (s : String) : Res ℝ :=
  match kw.lookup s with
  | some v => .ok v
  | none => .error .key

/-- `self.kwargs.get(s, v)`. -/
def kwGetD (kw : Kw) (s : String) (v : ℝ) : ℝ := (kw.lookup s).getD v

/-- `Interval(a, b)` with finite ends. -/
noncomputable def closedIvl (a b : ℝ) : Res (Ivl EReal) := mkIvl (a : EReal) (b : EReal) false false

/-- sets.py 408 `Reals`, 416 `Integers`. -/
noncomputable def realsDom : Res (Ivl EReal) := mkIvl ⊥ ⊤ false false

/-- sets.py 409 `RealsPos`, 418 `IntegersPos0`. -/
noncomputable def realsPosDom : Res (Ivl EReal) := mkIvl ((0 : ℝ) : EReal) ⊤ false false

/-- sets.py 410 `RealsNeg`. -/
noncomputable def realsNegDom : Res (Ivl EReal) := mkIvl ⊥ ((0 : ℝ) : EReal) false false

/-- sets.py 417 `IntegersPos`: `Interval.Lopen(0, inf)`. -/
noncomputable def integersPosDom : Res (Ivl EReal) := mkIvl ((0 : ℝ) : EReal) ⊤ true false

/-- distributions.py 76-79 `RealsPosLoc`. -/
noncomputable def realsPosLoc (kw : Kw) : Res (Ivl EReal) :=
  match kw.lookup "loc" with
  | some l => mkIvl (l : EReal) ⊤ false false
  | none => realsPosDom

/-- distributions.py 81-84 `UnitIntervalLocScale`; the same text is in `trapz`, `triang`, `uniform`. -/
noncomputable def unitIntervalLocScale (kw : Kw) : Res (Ivl EReal) :=
  closedIvl (kwGetD kw "loc" 0) (kwGetD kw "loc" 0 + kwGetD kw "scale" 1)

/-- Whether the class derives from `ContinuousReal` (distributions.py 86-87) or `DiscreteReal` (603-604): the attribute `constructor`. -/
def DName.kind : DName → Kind
  | .bernoulli | .betabinom | .binom | .boltzmann | .dlaplace | .geom | .hypergeom | .logser | .nbinom | .planck | .poisson | .randint | .skellam
  | .zipf | .yulesimon => .disc
  | _ => .cont

/-- `get_domain` of every class (distributions.py 89-682). -/
noncomputable def DName.getDomain (d : DName) (kw : Kw) : Res (Ivl EReal) :=
  match d with
  | .alpha | .betaprime | .burr | .burr12 | .chi | .chi2 | .erlang | .expon | .exponweib | .exponpow | .f | .fatiguelife | .fisk | .foldcauchy
  | .foldnorm | .genlogistic | .genpareto | .genexpon | .gamma | .gengamma | .geninvgauss | .gilbrat | .gompertz | .gumbel_l | .halfcauchy
  | .halflogistic | .halfnorm | .halfgennorm | .invgamma | .invgauss | .invweibull | .kappa3 | .levy | .loglaplace | .lognorm | .lomax | .maxwell
  | .mielke | .nakagami | .ncx2 | .ncf | .powerlognorm | .powernorm | .rayleigh | .rice | .recipinvgauss | .tukeylambda | .wald | .weibull_min => realsPosLoc kw
  | .arcsine | .argus | .beta | .bradford | .gausshyper | .johnsonsb | .ksone | .powerlaw | .trapz | .triang | .uniform => unitIntervalLocScale kw
  | .cauchy | .crystalball | .dgamma | .dweibull | .exponnorm | .gennorm | .gumbel_r | .hypsecant | .johnsonsu | .kappa4 | .laplace | .levy_stable
  | .logistic | .moyal | .nct | .norm | .norminvgauss | .pearson3 | .skewnorm | .t => realsDom
  | .levy_l | .loggamma | .weibull_max => realsNegDom
  | .anglit => closedIvl (-Real.pi / 4) (Real.pi / 4)
  | .cosine => closedIvl (-Real.pi / 2) (Real.pi / 2)
  | .vonmises | .vonmises_line => closedIvl (-Real.pi) Real.pi
  | .wrapcauchy => closedIvl 0 (2 * Real.pi)
  | .rdist | .semicircular => closedIvl (-1) 1
  | .pareto => mkIvl ((1 : ℝ) : EReal) ⊤ false false
  | .genextreme => do
    let c ← kwGet kw "c"
    if c = 0 then realsDom
    else if 0 < c then mkIvl ⊥ ((1 / c : ℝ) : EReal) false false
    else mkIvl ((1 / c : ℝ) : EReal) ⊤ false false
  | .genhalflogistic => do
    let c ← kwGet kw "c"
    if 0 < c then closedIvl 0 (1 / c) else .error .assertion
  | .kstwobign => do
    let n ← kwGet kw "n"
    closedIvl 0 (Real.sqrt n)
  | .loguniform | .truncnorm => do
    let a ← kwGet kw "a"
    let b ← kwGet kw "b"
    closedIvl a b
  | .truncexpon => do
    let b ← kwGet kw "b"
    closedIvl 0 b
  | .bernoulli => mkRange ((0 : ℝ) : EReal) ((1 : ℝ) : EReal)
  | .betabinom | .binom => do
    let n ← kwGet kw "n"
    mkRange ((0 : ℝ) : EReal) (n : EReal)
  | .boltzmann => do
    let n ← kwGet kw "N"
    mkRange ((0 : ℝ) : EReal) (n : EReal)
  | .dlaplace | .geom | .skellam => realsDom
  | .hypergeom => do
    let bigN ← kwGet kw "N"
    let bigM ← kwGet kw "M"
    let n ← kwGet kw "n"
    mkRange ((max (max 0 bigN) (bigN - bigM + n) : ℝ) : EReal) ((min n bigN : ℝ) : EReal)
  | .logser | .zipf | .yulesimon => integersPosDom
  | .nbinom | .planck | .poisson => realsPosDom
  | .randint => do
    let low ← kwGet kw "low"
    let high ← kwGet kw "high"
    mkIvl (low : EReal) (high : EReal) false true

/-- `dist.name`: the name scipy gives to the distribution (distributions.py 91-681). -/
def DName.scipyName : DName → String
  | .alpha => "alpha"
  | .anglit => "anglit"
  | .arcsine => "arcsine"
  | .argus => "argus"
  | .beta => "beta"
  | .betaprime => "betaprime"
  | .bradford => "bradford"
  | .burr => "burr"
  | .burr12 => "burr12"
  | .cauchy => "cauchy"
  | .chi => "chi"
  | .chi2 => "chi2"
  | .cosine => "cosine"
  | .crystalball => "crystalball"
  | .dgamma => "dgamma"
  | .dweibull => "dweibull"
  | .erlang => "erlang"
  | .expon => "expon"
  | .exponnorm => "exponnorm"
  | .exponweib => "exponweib"
  | .exponpow => "exponpow"
  | .f => "f"
  | .fatiguelife => "fatiguelife"
  | .fisk => "fisk"
  | .foldcauchy => "foldcauchy"
  | .foldnorm => "foldnorm"
  | .genlogistic => "genlogistic"
  | .gennorm => "gennorm"
  | .genpareto => "genpareto"
  | .genexpon => "genexpon"
  | .genextreme => "genextreme"
  | .gausshyper => "gausshyper"
  | .gamma => "gamma"
  | .gengamma => "gengamma"
  | .genhalflogistic => "genhalflogistic"
  | .geninvgauss => "geninvgauss"
  | .gilbrat => "gilbrat"
  | .gompertz => "gompertz"
  | .gumbel_r => "gumbel_r"
  | .gumbel_l => "gumbel_l"
  | .halfcauchy => "halfcauchy"
  | .halflogistic => "halflogistic"
  | .halfnorm => "halfnorm"
  | .halfgennorm => "halfgennorm"
  | .hypsecant => "hypsecant"
  | .invgamma => "invgamma"
  | .invgauss => "invgauss"
  | .invweibull => "invweibull"
  | .johnsonsb => "johnsonsb"
  | .johnsonsu => "johnsonsu"
  | .kappa4 => "kappa4"
  | .kappa3 => "kappa3"
  | .ksone => "ksone"
  | .kstwobign => "kstwobign"
  | .laplace => "laplace"
  | .levy => "levy"
  | .levy_l => "levy_l"
  | .levy_stable => "levy_stable"
  | .logistic => "logistic"
  | .loggamma => "loggamma"
  | .loglaplace => "loglaplace"
  | .lognorm => "lognorm"
  | .loguniform => "loguniform"
  | .lomax => "lomax"
  | .maxwell => "maxwell"
  | .mielke => "mielke"
  | .moyal => "moyal"
  | .nakagami => "nakagami"
  | .ncx2 => "ncx2"
  | .ncf => "ncf"
  | .nct => "nct"
  | .norm => "norm"
  | .norminvgauss => "norminvgauss"
  | .pareto => "pareto"
  | .pearson3 => "pearson3"
  | .powerlaw => "powerlaw"
  | .powerlognorm => "powerlognorm"
  | .powernorm => "powernorm"
  | .rdist => "rdist"
  | .rayleigh => "rayleigh"
  | .rice => "rice"
  | .recipinvgauss => "recipinvgauss"
  | .semicircular => "semicircular"
  | .skewnorm => "skewnorm"
  | .t => "t"
  | .trapz => "trapz"
  | .triang => "triang"
  | .truncexpon => "truncexpon"
  | .truncnorm => "truncnorm"
  | .tukeylambda => "tukeylambda"
  | .uniform => "uniform"
  | .vonmises => "vonmises"
  | .vonmises_line => "vonmises_line"
  | .wald => "wald"
  | .weibull_min => "weibull_min"
  | .weibull_max => "weibull_max"
  | .wrapcauchy => "wrapcauchy"
  | .bernoulli => "bernoulli"
  | .betabinom => "betabinom"
  | .binom => "binom"
  | .boltzmann => "boltzmann"
  | .dlaplace => "dlaplace"
  | .geom => "geom"
  | .hypergeom => "hypergeom"
  | .logser => "logser"
  | .nbinom => "nbinom"
  | .planck => "planck"
  | .poisson => "poisson"
  | .randint => "randint"
  | .skellam => "skellam"
  | .zipf => "zipf"
  | .yulesimon => "yulesimon"

/-- `self.dist(**self.kwargs)` (distributions.py 41). -/
def DName.frozen (d : DName) (kw : Kw) : Dist := ⟨d.scipyName, [], kw, []⟩

/-- distributions.py 36-38 `RealDistribution.__init__` (`args` are the positional arguments) followed by 39-41 `__call__`. -/
noncomputable def DName.call (L : Lib) (d : DName) (args : List ℝ) (kw : Kw) (X : String) : Res Spe :=
  if args ≠ [] then .error .assertion
  else do
    let domain ← d.getDomain kw
    Distr.call L X (.real d.kind (d.frozen kw) domain)

/-- distributions.py 684-690 `atomic`: `loc` is removed from the keyword arguments and `low`, `high` are set. -/
def atomicKw (kw : Kw) : Res Kw := do
  let loc ← kwGet kw "loc"
  .ok (("low", loc) :: ("high", loc + 1) :: kw.filter (fun p => p.1 ≠ "loc" ∧ p.1 ≠ "low" ∧ p.1 ≠ "high"))

/-- `X >> atomic(**kw)`. -/
noncomputable def atomicCall (L : Lib) (args : List ℝ) (kw : Kw) (X : String) : Res Spe := do
  let kw' ← atomicKw kw
  DName.call L .randint args kw' X

/-- distributions.py 695-697 `rv_discrete.get_domain`; `values` are the atoms with their probabilities.  `min` of no atoms raises. -/
noncomputable def rvDomain (values : List (ℝ × ℝ)) : Res (Ivl EReal) :=
  match values.map Prod.fst with
  | [] => .error .value
  | x :: xs => mkRange ((xs.foldl min x : ℝ) : EReal) ((xs.foldl max x : ℝ) : EReal)

/-- `X >> rv_discrete(values=(xk, pk))` (distributions.py 692-697), and `X >> discrete({..})` (706-714). -/
noncomputable def rvCall (L : Lib) (values : List (ℝ × ℝ)) (X : String) : Res Spe := do
  let domain ← rvDomain values
  Distr.call L X (.real .disc ⟨"rv_discrete", [], [], values⟩ domain)

/-- `X >> uniformd(values=..)` (distributions.py 699-704). -/
noncomputable def uniformdCall (L : Lib) (values : List ℝ) (X : String) : Res Spe :=
  rvCall L (values.map (fun x => (x, 1 / (values.length : ℝ)))) X

end Sppl
