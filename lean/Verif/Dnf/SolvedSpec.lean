import Verif.Dnf.TotalSpec
import Verif.Events.Spec

set_option linter.all false

/-!
# Conjunctions of comparisons that `solve` solves

The comparisons may be about any expressions.
-/

namespace Sppl
open Classical

/-- A comparison about the variable `k` that `solve` solves, to a set (perhaps a union) described by finite numbers that
satisfy `Q k`. -/
def Ev.Solved (c : Ctx) (Q : String → EReal → Prop) (k : String) (l : Ev) : Prop :=
  l.Made c ∧ l.symbols = {k} ∧ (∃ t, l.basic? = some t) ∧ ∃ N S, l.solve c N = .ok S ∧ S.Within (Q k)

/-- One such comparison, or a conjunction of such comparisons about different variables. -/
inductive Ev.SolvedAnd (c : Ctx) (Q : String → EReal → Prop) : Ev → Prop
  | lit {k l} : l.Solved c Q k → Ev.SolvedAnd c Q l
  | and {m : List (String × Ev)} : m ≠ [] → (m.map Prod.fst).Nodup → (∀ p ∈ m, p.2.Solved c Q p.1) → Ev.SolvedAnd c Q (.and (m.map Prod.snd))

/-- Disjunctions of these. -/
inductive Ev.SolvedDnf (c : Ctx) (Q : String → EReal → Prop) : Ev → Prop
  | conj {e} : e.SolvedAnd c Q → Ev.SolvedDnf c Q e
  | or {es} : es ≠ [] → (∀ e ∈ es, e.SolvedAnd c Q) → Ev.SolvedDnf c Q (.or es)

end Sppl
