import Verif.Events.ChainSpec
import Mathlib.Analysis.SpecialFunctions.Log.Base

set_option linter.all false

/-!
# Expressions compared with finite sets of numbers (specification)
-/

namespace Sppl

/-- Expressions made of a variable by roots, exponentials and logarithms of base above one, absolute values and
`p + q*...`. -/
inductive Tr.Bends (k : String) : Tr → Prop
  | id : Tr.Bends k (.id k)
  | radical {t n} : Tr.Bends k t → n ≠ 0 → Tr.Bends k (.radical t n)
  | exp {t b} : Tr.Bends k t → 1 < b → Tr.Bends k (.exp t b)
  | log {t b} : Tr.Bends k t → 1 < b → Tr.Bends k (.log t b)
  | abs {t} : Tr.Bends k t → Tr.Bends k (.abs t)
  | poly {t p q} : Tr.Bends k t → q ≠ 0 → Tr.Bends k (.poly t [p, q])

/-- If `t` is to be equal to `y`, an exponential in `t` would have to be equal to zero (in one of the cases, if there are
absolute values). -/
inductive Tr.Zero : Tr → ℝ → Prop
  | zero {t b} : Tr.Zero (.exp t b) 0
  | exp {t b y} : 0 < y → Tr.Zero t (Real.logb b y) → Tr.Zero (.exp t b) y
  | radical {t n y} : 0 ≤ y → Tr.Zero t (y ^ n) → Tr.Zero (.radical t n) y
  | log {t b y} : Tr.Zero t (b ^ y) → Tr.Zero (.log t b) y
  | abs {t y} : 0 ≤ y → Tr.Zero t y → Tr.Zero (.abs t) y
  | abs_neg {t y} : 0 ≤ y → Tr.Zero t (-y) → Tr.Zero (.abs t) y
  | poly {t p q y} : Tr.Zero t ((y - p) / q) → Tr.Zero (.poly t [p, q]) y

/-- `t in V`, where `V` is a finite set of numbers that do not ask for an exponential to be zero. -/
def Ev.ValLit (k : String) (e : Ev) : Prop :=
  ∃ t V, e = .fin t (some V) ∧ t.Bends k ∧ V.Nonempty ∧ ∀ v ∈ V, ∃ y : ℝ, v = y ∧ ¬ t.Zero y

end Sppl
