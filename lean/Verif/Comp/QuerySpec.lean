import Verif.Comp.FitSpec

/-!
# The model that a program gives
-/

namespace Sppl
open Classical MeasureTheory

/-- `SPPL_Compiler(source).execute_module().model` is `s`: the source is compiled, the module runs in the namespace `ρ₀` (which becomes `ρ`), and its command is interpreted.
The source is of the kind that C46 covers. -/
structure ModelOf (D : List String) (H : PyHost) (o : Opts) (μ : Dist → Measure ℝ) (ρ₀ ρ : NS) (source : List Stmt) (s : Spe) : Prop where
  safe : Stmt.SafeL H o.c o.L μ ρ source start
  fit : Stmt.FitL H o.c μ ρ source start
  canonical : ρ.Canonical
  model : ∃ n p cmd, compile D n source = .ok p ∧ p.run H o.c ρ₀ = .ok cmd ∧ p.names H o.c ρ₀ = .ok ρ ∧ (∀ q ∈ p.constants, q.2.IsConst H o.c ρ) ∧
    cmd.interp o none = .ok (some s)

end Sppl
