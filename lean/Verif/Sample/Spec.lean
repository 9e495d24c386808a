import Verif.Sample.Model
import Verif.Spe.Spec

/-!
# Specification of sampling: the shape of samples
-/

namespace Sppl
open Classical MeasureTheory

/-- The keys of the dictionary. -/
def HasKeys (d : Dct) (S : Finset String) : Prop := ∀ x, d x ≠ none ↔ x ∈ S

/-- The dictionary with the values of an assignment. -/
def toDct (ω : Asg) : Dct := fun x => (ω x).map PyV.val

/-- What is assumed of numpy for the shape of samples: `choice` draws elements of the array. -/
def Rand.InRange {τ : Type} (R : Rand τ) : Prop := ∀ p N t i, p ≠ [] → (R.choice p N t).1 i < p.length

/-- Expressions that have a value for all numbers, and whose `evaluate` method works. -/
def Tr.Everywhere : Tr → Prop
  | .id _ => True
  | .exp t b => t.Everywhere ∧ 0 < b
  | .abs t => t.Everywhere
  | .poly t _ => t.Everywhere
  | _ => False

/-- The derived variables of the SPE have values wherever the base variables are. -/
inductive Spe.Everywhere : Spe → Prop
  | real {k X d supp cond env} : (∀ p ∈ env, p.2.Everywhere) → Spe.Everywhere (.real k X d supp cond env)
  | atomic {X v env} : (∀ p ∈ env, p.2.Everywhere) → Spe.Everywhere (.atomic X v env)
  | nominal {X dist} : Spe.Everywhere (.nominal X dist)
  | sum {cs ws} : (∀ s ∈ cs, Spe.Everywhere s) → Spe.Everywhere (.sum cs ws)
  | prod {cs} : (∀ s ∈ cs, Spe.Everywhere s) → Spe.Everywhere (.prod cs)

end Sppl
