import Verif.Dnf.TotalSpec
import Verif.Events.ChainSpec

/-!
# Events that compare increasing and decreasing expressions of variables (specification)
-/

namespace Sppl

/-- Some assignment satisfies the event, or it is `t << EmptySet`. -/
def Ev.Live (e : Ev) : Prop := (∃ ω : Asg, e.holds ω) ∨ ∃ t, e = .fin t none

/-- Boolean combinations of basic events, where every variable is used in one of two ways.  A variable of `T` is compared through
expressions `Tr.Chain` with intervals and single numbers, in comparisons that some number satisfies.  The other variables
are compared directly, with sets described by finite numbers that satisfy `Q`. -/
inductive Ev.Curved (Q : String → EReal → Prop) (T : String → Prop) : Ev → Prop
  | plain {e k} : e.basic? = some (.id k) → ¬ T k → e.Simple Q → Ev.Curved Q T e
  | curve {e k} : T k → (∀ x, Q k x) → e.ChainLit k → e.Live → Ev.Curved Q T e
  | or {es} : es ≠ [] → (∀ e ∈ es, Ev.Curved Q T e) → Ev.Curved Q T (.or es)
  | and {es} : es ≠ [] → (∀ e ∈ es, Ev.Curved Q T e) → Ev.Curved Q T (.and es)

end Sppl
