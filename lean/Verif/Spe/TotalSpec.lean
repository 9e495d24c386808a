import Verif.Spe.Spec
import Verif.Dnf.TotalSpec

/-!
# The SPEs and events for which `prob` and `condition` never raise (specification)
-/

namespace Sppl

/-- Every path of sums from the root ends in a product: the root is not a leaf, nor a mixture of leaves.  (A leaf
computes with unions of sets, and the operators of `sets.py` raise on some of these.) -/
inductive Spe.Wide : Spe → Prop
  | sum {cs ws} : (∀ s ∈ cs, Spe.Wide s) → Spe.Wide (.sum cs ws)
  | prod {cs} : Spe.Wide (.prod cs)

/-- The variables in `V` are not derived variables: a leaf that defines one has it as its own symbol. -/
inductive Spe.BaseOn (V : Finset String) : Spe → Prop
  | real {k X d supp cond env} : (∀ s ∈ V, s ∈ env.map Prod.fst → s = X) → Spe.BaseOn V (.real k X d supp cond env)
  | atomic {X v env} : (∀ s ∈ V, s ∈ env.map Prod.fst → s = X) → Spe.BaseOn V (.atomic X v env)
  | nominal {X dist} : Spe.BaseOn V (.nominal X dist)
  | sum {cs ws} : (∀ s ∈ cs, Spe.BaseOn V s) → Spe.BaseOn V (.sum cs ws)
  | prod {cs} : (∀ s ∈ cs, Spe.BaseOn V s) → Spe.BaseOn V (.prod cs)

/-- The variable `k` is not the symbol of a discrete leaf. -/
inductive Spe.NotDisc (k : String) : Spe → Prop
  | real {k' X d supp cond env} : (k' = .disc → X ≠ k) → Spe.NotDisc k (.real k' X d supp cond env)
  | atomic {X v env} : Spe.NotDisc k (.atomic X v env)
  | nominal {X dist} : Spe.NotDisc k (.nominal X dist)
  | sum {cs ws} : (∀ s ∈ cs, Spe.NotDisc k s) → Spe.NotDisc k (.sum cs ws)
  | prod {cs} : (∀ s ∈ cs, Spe.NotDisc k s) → Spe.NotDisc k (.prod cs)

/-- The numbers that a variable is compared with: integers for the symbols of discrete leaves. -/
def Spe.Whole (s : Spe) (k : String) (x : EReal) : Prop := s.NotDisc k ∨ ∃ m : ℤ, x = ((m : ℝ) : EReal)

end Sppl
