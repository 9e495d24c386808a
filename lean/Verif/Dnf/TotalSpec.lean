import Verif.Events.Spec

/-!
# Events that compare variables with finite numbers (specification)

These definitions describe a class of events on which the operations of `dnf.py` never raise.  They use the
data of events only.
-/

namespace Sppl

/-- Every number in the description of the set is finite and satisfies `Q`; ends of intervals may also be
infinite. -/
def Piece.Within (Q : EReal → Prop) : Piece EReal → Prop
  | .nom _ => True
  | .fin s => ∀ x ∈ s, x ≠ ⊥ ∧ x ≠ ⊤ ∧ Q x
  | .ivl i => (i.a ≠ ⊥ → Q i.a) ∧ (i.b ≠ ⊤ → Q i.b)

/-- See `Piece.Within`. -/
def SSet.Within (Q : EReal → Prop) : SSet EReal → Prop
  | .empty => True
  | .pc p => p.Within Q
  | .un u => ∀ p ∈ u.values, p.Within Q

/-- Boolean combinations of events `X in S` about plain variables, where the numbers that describe `S` are
finite and satisfy `Q X`. -/
inductive Ev.Simple (Q : String → EReal → Prop) : Ev → Prop
  | ivl {k i} : i.WF → (Piece.ivl i).Within (Q k) → Ev.Simple Q (.ivl (.id k) i)
  | fin {k s} : s.Nonempty → (Piece.fin s).Within (Q k) → Ev.Simple Q (.fin (.id k) (some s))
  | finEmpty {k} : Ev.Simple Q (.fin (.id k) none)
  | nom {k n} : n.WF → Ev.Simple Q (.nom (.id k) (some n))
  | nomEmpty {k} : Ev.Simple Q (.nom (.id k) none)
  | or {es} : es ≠ [] → (∀ e ∈ es, Ev.Simple Q e) → Ev.Simple Q (.or es)
  | and {es} : es ≠ [] → (∀ e ∈ es, Ev.Simple Q e) → Ev.Simple Q (.and es)

end Sppl
