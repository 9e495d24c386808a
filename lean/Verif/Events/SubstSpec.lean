import Verif.Events.Spec
import Verif.Events.Ops

/-!
# Specification of environments of derived variables, and of the events that can be evaluated
-/

namespace Sppl
open Classical

/-- The variables of an environment. -/
def Env.keys (env : Env) : List String := env.map Prod.fst

/-- The full assignment computed from the base variables: every derived variable, in the order of
definition, gets the value of its expression. -/
noncomputable def Env.extend (env : Env) (ω : Asg) : Asg :=
  env.foldl (fun ω' p => fun s => if s = p.1 then p.2.eval ω' else ω' s) ω

mutual
/-- Every piecewise subexpression mentions in its conditions only the variables of its branches
(`get_piecewise_symbol`, transforms.py 761-772, guarantees it). -/
def Tr.SymOk : Tr → Prop
  | .id _ => True
  | .radical t _ => t.SymOk
  | .exp t _ => t.SymOk
  | .log t _ => t.SymOk
  | .abs t => t.SymOk
  | .recip t => t.SymOk
  | .poly t _ => t.SymOk
  | .pw ts es _ => Tr.SymOkL ts ∧ Ev.SymOkL es ∧ Ev.symbolsL es ⊆ Tr.symbolsL ts
/-- See `Tr.SymOk`. -/
def Tr.SymOkL : List Tr → Prop
  | [] => True
  | t :: ts => t.SymOk ∧ Tr.SymOkL ts
/-- See `Tr.SymOk`. -/
def Ev.SymOk : Ev → Prop
  | .ivl t _ => t.SymOk
  | .fin t _ => t.SymOk
  | .nom t _ => t.SymOk
  | .or es => Ev.SymOkL es
  | .and es => Ev.SymOkL es
/-- See `Tr.SymOk`. -/
def Ev.SymOkL : List Ev → Prop
  | [] => True
  | e :: es => e.SymOk ∧ Ev.SymOkL es
end

/-- The environments of leaves: the initial environment maps the base variable to itself (spe.py 707,
938), and every `transform` call adds a new variable defined from earlier ones (spe.py 718-724,
941-946). -/
inductive EnvBuilt (X : String) : Env → Prop
  | base : EnvBuilt X [(X, .id X)]
  | step {env : Env} {Y : String} {f : Tr} : EnvBuilt X env → Y ∉ env.keys → (∀ s ∈ f.symbols, s ∈ env.keys) →
      f.SymOk → EnvBuilt X (env ++ [(Y, f)])

/-- The expression is a logarithm. -/
def Tr.isLog : Tr → Bool
  | .log _ _ => true
  | _ => false

/-- No logarithm and no piecewise expression occurs. -/
def Tr.Plain : Tr → Prop
  | .id _ => True
  | .radical t _ => t.Plain
  | .exp t _ => t.Plain
  | .log _ _ => False
  | .abs t => t.Plain
  | .recip t => t.Plain
  | .poly t _ => t.Plain
  | .pw _ _ _ => False

mutual
/-- No logarithm and no piecewise expression occurs. -/
def Ev.Plain : Ev → Prop
  | .ivl t _ => t.Plain
  | .fin t _ => t.Plain
  | .nom t _ => t.Plain
  | .or es => Ev.PlainL es
  | .and es => Ev.PlainL es
/-- See `Ev.Plain`. -/
def Ev.PlainL : List Ev → Prop
  | [] => True
  | e :: es => e.Plain ∧ Ev.PlainL es
end

mutual
/-- No logarithm is directly compared, and numbers are not compared with complemented nominal sets. -/
def Ev.Evaluable (ω : Asg) : Ev → Prop
  | .ivl t _ => t.isLog = false
  | .fin t _ => t.isLog = false
  | .nom t v => t.isLog = false ∧ ∀ n, v = some n → n.b = some true → ∃ x, t.eval ω = some (.str x)
  | .or es => Ev.EvaluableL ω es
  | .and es => Ev.EvaluableL ω es
/-- See `Ev.Evaluable`. -/
def Ev.EvaluableL (ω : Asg) : List Ev → Prop
  | [] => True
  | e :: es => e.Evaluable ω ∧ Ev.EvaluableL ω es
end

theorem Ev.plainL_iff {es : List Ev} : Ev.PlainL es ↔ ∀ e ∈ es, e.Plain := by
  induction es with
  | nil => simp [Ev.PlainL]
  | cons e es ih => simp [Ev.PlainL, ih]

theorem Ev.evaluableL_iff {ω : Asg} {es : List Ev} : Ev.EvaluableL ω es ↔ ∀ e ∈ es, e.Evaluable ω := by
  induction es with
  | nil => simp [Ev.EvaluableL]
  | cons e es ih => simp [Ev.EvaluableL, ih]

end Sppl
