import Verif.Events.ChainSpec
import Verif.Spe.Spec

/-!
# SPEs with derived variables that are increasing or decreasing in the symbol of their leaf
-/

namespace Sppl

/-- An increasing or decreasing expression of some variable, of any depth. -/
def Tr.Curve (t : Tr) : Prop := ∃ k, t.Chain k

/-- All expressions of the environment are of this form. -/
def Env.Curves (env : Env) : Prop := ∀ p ∈ env, p.2.Curve

/-- One event with the property, or a conjunction of such events. -/
inductive Ev.AndOf (P : Ev → Prop) : Ev → Prop
  | lit {e} : P e → Ev.AndOf P e
  | and {es} : es ≠ [] → (∀ e ∈ es, P e) → Ev.AndOf P (.and es)

/-- A comparison of an increasing or decreasing expression of some variable. -/
def Ev.AnyLit (l : Ev) : Prop := ∃ k, l.ChainLit k

/-- Every leaf of the SPE has the property. -/
inductive Spe.Leaves (P : Spe → Prop) : Spe → Prop
  | leaf {s} : s.isLeaf = true → P s → Spe.Leaves P s
  | sum {cs ws} : (∀ s ∈ cs, Spe.Leaves P s) → Spe.Leaves P (.sum cs ws)
  | prod {cs} : (∀ s ∈ cs, Spe.Leaves P s) → Spe.Leaves P (.prod cs)

/-- Of the variables in `V`, the environment of a leaf defines only the symbol `X`, or it consists of increasing and
decreasing expressions, and the variables in `V` that it defines are in `T`. -/
def Env.Curvy (T : String → Prop) (V : Finset String) (X : String) (env : Env) : Prop :=
  (∀ k ∈ V, k ∈ env.map Prod.fst → k = X) ∨ (env.Curves ∧ ∀ k ∈ V, k ∈ env.map Prod.fst → T k)

/-- The leaves at which `prob` returns: see `Env.Curvy`. -/
def Spe.CurvyLeaf (T : String → Prop) (V : Finset String) : Spe → Prop
  | .real _ X _ _ _ env => env.Curvy T V X
  | .atomic X _ env => env.Curvy T V X
  | .nominal _ _ => True
  | _ => False

/-- The leaves at which `condition` returns: a derived variable of a discrete leaf must not be in `V`. -/
def Spe.CurvyContLeaf (T : String → Prop) (V : Finset String) : Spe → Prop
  | .real k X _ _ _ env => env.Curvy T V X ∧ (k = .disc → ∀ s ∈ V, s ∈ env.map Prod.fst → s = X)
  | .atomic X _ env => env.Curvy T V X
  | .nominal _ _ => True
  | _ => False

end Sppl
