import Verif.Serial.Model
import Verif.Spe.Spec

/-!
# Specification of serialization: which SPEs survive
-/

namespace Sppl
open Classical

/-- The number survives `eval(repr(x))`. -/
def Host.Keeps (H : Host) (x : EReal) : Prop := H.eval (H.repr x) = some x

/-- The text of the nominal set is a Python expression: the set of all strings, whose text is `FiniteNominal(, b=True)`, is
excluded. -/
def NomPrintable : Option Nom → Prop
  | none => True
  | some n => n.vals.Nonempty

mutual
/-- All numbers of the expression survive, and the texts of its nominal sets are expressions. -/
def Tr.Printable (H : Host) : Tr → Prop
  | .id _ => True
  | .radical t n => t.Printable H ∧ H.Keeps ((n : ℝ) : EReal)
  | .exp t b => t.Printable H ∧ H.Keeps (b : EReal)
  | .log t b => t.Printable H ∧ H.Keeps (b : EReal)
  | .abs t => t.Printable H
  | .recip t => t.Printable H
  | .poly t cs => t.Printable H ∧ ∀ x ∈ cs, H.Keeps ((x : ℝ) : EReal)
  | .pw ts es _ => Tr.PrintableL H ts ∧ Ev.PrintableL H es
/-- See `Tr.Printable`. -/
def Tr.PrintableL (H : Host) : List Tr → Prop
  | [] => True
  | t :: ts => t.Printable H ∧ Tr.PrintableL H ts
/-- See `Tr.Printable`. -/
def Ev.Printable (H : Host) : Ev → Prop
  | .ivl t i => t.Printable H ∧ H.Keeps i.a ∧ H.Keeps i.b
  | .fin t v => t.Printable H ∧ ∀ s, v = some s → ∀ x ∈ s, H.Keeps x
  | .nom t v => t.Printable H ∧ NomPrintable v
  | .or es => Ev.PrintableL H es
  | .and es => Ev.PrintableL H es
/-- See `Tr.Printable`. -/
def Ev.PrintableL (H : Host) : List Ev → Prop
  | [] => True
  | e :: es => e.Printable H ∧ Ev.PrintableL H es
end

/-- All parameters of the leaves survive; the table of a distribution made by `discrete` or `rv_discrete` does not, so that there is none. -/
inductive Spe.Printable (H : Host) : Spe → Prop
  | real {k X d supp cond env} : H.stats d.name = true → d.values = [] → H.Keeps supp.a → H.Keeps supp.b → (∀ p ∈ env, p.2.Printable H) →
      Spe.Printable H (.real k X d supp cond env)
  | atomic {X v env} : H.float v = v → (∀ p ∈ env, p.2.Printable H) → Spe.Printable H (.atomic X v env)
  | nominal {X dist} : Spe.Printable H (.nominal X dist)
  | sum {cs ws} : (∀ s ∈ cs, Spe.Printable H s) → Spe.Printable H (.sum cs ws)
  | prod {cs} : (∀ s ∈ cs, Spe.Printable H s) → Spe.Printable H (.prod cs)

/-- The SPE is a mixture. -/
def Spe.isSum : Spe → Prop
  | .sum _ _ => True
  | _ => False

/-- The SPE is a product. -/
def Spe.isProd : Spe → Prop
  | .prod _ => True
  | _ => False

/-- No mixture is directly below a mixture and no product directly below a product, as the constructors guarantee. -/
inductive Spe.Flat : Spe → Prop
  | real {k X d supp cond env} : Spe.Flat (.real k X d supp cond env)
  | atomic {X v env} : Spe.Flat (.atomic X v env)
  | nominal {X dist} : Spe.Flat (.nominal X dist)
  | sum {cs ws} : (∀ s ∈ cs, Spe.Flat s) → (∀ s ∈ cs, ¬ s.isSum) → Spe.Flat (.sum cs ws)
  | prod {cs} : (∀ s ∈ cs, Spe.Flat s) → (∀ s ∈ cs, ¬ s.isProd) → Spe.Flat (.prod cs)

end Sppl
