import Verif.Dnf.TotalSpec
import Verif.Dnf.CurveSpec
import Verif.Events.ValSpec

set_option linter.all false

/-!
# Comparisons of expressions, about different variables
-/

namespace Sppl
open Classical

/-- A comparison about the variable `k`: of an expression (also with absolute values) with finitely many numbers, of an
increasing or decreasing expression with an interval or a number, or of the variable itself.  In the first two cases all
numbers must satisfy `Q k`. -/
inductive Ev.Known (Q : String → EReal → Prop) (k : String) : Ev → Prop
  | values {e} : (∀ x, Q k x) → e.ValLit k → Ev.Known Q k e
  | curve {e} : (∀ x, Q k x) → e.ChainLit k → e.Live → Ev.Known Q k e
  | plain {e} : e.basic? = some (.id k) → e.Simple Q → Ev.Known Q k e

/-- One such comparison, or a conjunction of such comparisons about different variables. -/
inductive Ev.KnownAnd (Q : String → EReal → Prop) : Ev → Prop
  | lit {k l} : l.Known Q k → Ev.KnownAnd Q l
  | and {m : List (String × Ev)} : m ≠ [] → (m.map Prod.fst).Nodup → (∀ p ∈ m, p.2.Known Q p.1) → Ev.KnownAnd Q (.and (m.map Prod.snd))

/-- Disjunctions of these. -/
inductive Ev.KnownDnf (Q : String → EReal → Prop) : Ev → Prop
  | conj {e} : e.KnownAnd Q → Ev.KnownDnf Q e
  | or {es} : es ≠ [] → (∀ e ∈ es, e.KnownAnd Q) → Ev.KnownDnf Q (.or es)

end Sppl
