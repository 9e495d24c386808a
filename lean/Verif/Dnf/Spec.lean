import Verif.Events.Spec

/-!
# Specification of normal forms

None of the operations of the model is used here; only its data types are.
-/

namespace Sppl
open Classical

/-- A basic event. -/
def Ev.IsLit : Ev → Prop
  | .ivl _ _ => True
  | .fin _ _ => True
  | .nom _ _ => True
  | _ => False

/-- A basic event or a conjunction of basic events. -/
def Ev.IsClause : Ev → Prop
  | .and es => es ≠ [] ∧ ∀ e ∈ es, e.IsLit
  | .or _ => False
  | _ => True

/-- A clause or a disjunction of clauses. -/
def Ev.IsDnf : Ev → Prop
  | .or es => es ≠ [] ∧ ∀ e ∈ es, e.IsClause
  | e => e.IsClause

/-- The clauses of a disjunction. -/
def Ev.clauses : Ev → List Ev
  | .or es => es
  | e => [e]

/-- A basic event about a plain variable. -/
def Ev.OnVar (s : String) (e : Ev) : Prop :=
  (∃ i, e = .ivl (.id s) i) ∨ (∃ v, e = .fin (.id s) v) ∨ ∃ v, e = .nom (.id s) v

mutual
/-- Every basic event is about a plain variable. -/
def Ev.VarsOnly : Ev → Prop
  | .or es => Ev.VarsOnlyL es
  | .and es => Ev.VarsOnlyL es
  | e => ∃ s, e.OnVar s
/-- See `Ev.VarsOnly`. -/
def Ev.VarsOnlyL : List Ev → Prop
  | [] => True
  | e :: es => e.VarsOnly ∧ Ev.VarsOnlyL es
end

mutual
/-- Every variable has a value of the kind it is compared with: a number in real events; in nominal
events, a string, and it is compared directly. -/
def Ev.Kinded (ω : Asg) : Ev → Prop
  | .ivl t _ => ∀ s ∈ t.symbols, ∃ x, ω s = some (.num x)
  | .fin t _ => ∀ s ∈ t.symbols, ∃ x, ω s = some (.num x)
  | .nom t _ => ∃ s x, t = .id s ∧ ω s = some (.str x)
  | .or es => Ev.KindedL ω es
  | .and es => Ev.KindedL ω es
/-- See `Ev.Kinded`. -/
def Ev.KindedL (ω : Asg) : List Ev → Prop
  | [] => True
  | e :: es => e.Kinded ω ∧ Ev.KindedL ω es
end

end Sppl
