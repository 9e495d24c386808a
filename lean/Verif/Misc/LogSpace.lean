import Verif.Spe.Model
import Mathlib.Analysis.SpecialFunctions.Log.ENNRealLogExp

/-!
# Model of the log-space helpers of `/repo/src/math_util.py`

A float is an element of `EReal`, or `none` for `nan`; arithmetic is exact.
-/

namespace Sppl
open Classical
open scoped ENNReal

/-- `numpy.log`: `-inf` at zero, `nan` below zero. -/
noncomputable def npLog (x : EReal) : Option EReal := if x < 0 then none else some (ENNReal.log x.toENNReal)

/-- `numpy.exp`. -/
noncomputable def npExp (x : EReal) : EReal := (EReal.exp x : EReal)

/-- `numpy.expm1`: `exp(x) - 1`. -/
noncomputable def npExpm1 (x : EReal) : EReal := npExp x - 1

/-- `numpy.log1p`: `log(1 + x)`. -/
noncomputable def npLog1p (x : EReal) : Option EReal := npLog (1 + x)

/-- math_util.py 12-16 `log1mexp`. -/
noncomputable def log1mexp (x : EReal) : Option EReal :=
  if x < ((683 / 1000 : ℝ) : EReal) then npLog (-npExpm1 (-x)) else npLog1p (-npExp (-x))

/-- math_util.py 41-42 `allclose(b, a)`, with numpy's default tolerances; infinite values must be equal. -/
noncomputable def npClose (b a : EReal) : Bool :=
  decide (b = a ∨ ∃ x y : ℝ, b = x ∧ a = y ∧ |x - y| ≤ 1 / 10 ^ 8 + 1 / 10 ^ 5 * |y|)

/-- math_util.py 18-23 `logdiffexp`. -/
noncomputable def logdiffexp (a b : EReal) : Res (Option EReal) :=
  if b < a then .ok ((log1mexp (a - b)).map (a + ·))
  else if npClose b a then .ok (some ⊥)
  else .error .value

/-- `scipy.special.logsumexp`, by its documentation: `log(sum(exp(a)))`. -/
noncomputable def logsumexp (l : List EReal) : EReal := ENNReal.log (l.map EReal.exp).sum

/-- `a - b` of floats: `nan` for infinities of the same sign. -/
noncomputable def fsub (a b : EReal) : Option EReal :=
  if a = b ∧ (a = ⊥ ∨ a = ⊤) then none else some (a - b)

/-- math_util.py 25-27 `lognorm`. -/
noncomputable def lognorm (l : List EReal) : List (Option EReal) := l.map (fun a => fsub a (logsumexp l))

/-- math_util.py 47-48 `isinf_neg`. -/
noncomputable def isinfNeg (x : EReal) : Bool := decide (x = ⊥)

/-- math_util.py 37-39 `normalize`. -/
noncomputable def normalizeP (p : List ℝ≥0∞) : List ℝ≥0∞ := p.map (· / p.sum)

/-- math_util.py 29-35 `logflip`: the probabilities given to `numpy.random.choice` (an `nan` weight is
kept as `none`). -/
noncomputable def flipWeights (logp : List EReal) : Option (List ℝ≥0∞) := ((lognorm logp).mapM (fun x : Option EReal => x.map EReal.exp)).map normalizeP

end Sppl
