import Verif.Spe.Cache
import Verif.Spe.Spec

/-!
# Specification of caching
-/

namespace Sppl
open Classical

/-- `t` is a node of `s`. -/
inductive Spe.Sub (t : Spe) : Spe → Prop
  | refl : Spe.Sub t t
  | sum {cs ws s} : s ∈ cs → Spe.Sub t s → Spe.Sub t (.sum cs ws)
  | prod {cs s} : s ∈ cs → Spe.Sub t s → Spe.Sub t (.prod cs)

/-- What is assumed about `hash` (spe.py 295-297, 589-591): the hash of a branch is a function of the hashes of its children (and of the
weights). -/
structure HashOK (hash : Spe → ℤ) : Prop where
  sum : ∀ {cs cs' ws}, cs.map hash = cs'.map hash → hash (.sum cs ws) = hash (.sum cs' ws)
  prod : ∀ {cs cs'}, cs.map hash = cs'.map hash → hash (.prod cs) = hash (.prod cs')

/-- Equal atomic leaves have the same derived variables (`AtomicLeaf.__eq__` does not compare them), and no leaf has a distribution given
by a table (`RealLeaf.__eq__` does not compare the tables). -/
structure Spe.Agree (E : String → ℝ → Env) (s : Spe) : Prop where
  atomic : ∀ X v env, Spe.Sub (.atomic X v env) s → env = E X v
  real : ∀ k X d supp cond env, Spe.Sub (.real k X d supp cond env) s → d.values = []

/-- The dictionaries that arise from calls on SPEs with the property `P`, one after the other. -/
inductive Cache.From (hash : Spe → ℤ) (P : Spe → Prop) : Cache → Prop
  | nil : Cache.From hash P []
  | step {m s r} : Cache.From hash P m → P s → Spe.cache hash s m = .ok r → Cache.From hash P r.2

end Sppl
