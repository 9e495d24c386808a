import Verif.Spe.Model
import Verif.Misc.LogSpace

/-!
# Model of `mutual_information` in `/repo/src/spe.py`
-/

namespace Sppl
open Classical

/-- spe.py 99-102: one summand, from the probabilities (`log 0` is `-inf`). -/
noncomputable def miTerm (p a b : ℝ) : EReal :=
  if p = 0 then 0
  else (p : EReal) * (ENNReal.log (.ofReal p) - (ENNReal.log (.ofReal a) + ENNReal.log (.ofReal b)))

/-- spe.py 87-103 `mutual_information`, with probabilities in place of their logarithms (C38).  The three
joint probabilities are asked for with a memo, so a leaf needs the hash of the event (`keyed`); otherwise the memo is not modelled here (C27). -/
noncomputable def Spe.mutualInfo (c : Ctx) (L : Lib) (n : ℕ) (s : Spe) (A B : Ev) : Res EReal := do
  let a1 ← s.prob c L n A
  let b1 ← s.prob c L n B
  let a0 ← pdiff 1 a1
  let b0 ← pdiff 1 b1
  let AB ← A.land c B
  let p11 ← keyed c n s AB (s.prob c L n AB)
  let nB ← B.not c
  let AnB ← A.land c nB
  let p10 ← keyed c n s AnB (s.prob c L n AnB)
  let nA ← A.not c
  let nAB ← nA.land c B
  let p01 ← keyed c n s nAB (s.prob c L n nAB)
  let p00 ← pdiff 1 (p11 + p10 + p01)
  .ok (miTerm p11 a1 b1 + miTerm p10 a1 b0 + miTerm p01 a0 b1 + miTerm p00 a0 b0)

end Sppl
