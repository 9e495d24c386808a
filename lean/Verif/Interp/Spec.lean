import Verif.Interp.Model
import Verif.Spe.MixSpec
import Verif.Spe.TransformSpec
import Verif.Sets.Props
import Verif.Spe.AskLemmas

/-!
# Specification of programs: what they do to a distribution over assignments

None of the functions of the interpreter is used here.
-/

namespace Sppl
open Classical MeasureTheory
open scoped ENNReal ProbabilityTheory

/-- The distribution of a sampled variable. -/
noncomputable def Source.law (μ : Dist → Measure ℝ) (X : String) : Source → Measure Asg
  | .one d => d.law μ X
  | .mix m => mixture m.weights (m.distributions.map (Distr.law μ X))

/-- The first assignment, with `X` from the second. -/
def addVar (X : String) (p : Asg × Asg) : Asg := fun s => if s = X then p.2 s else p.1 s

/-- The distribution with one more variable `X`, independent of the others, of distribution `ν`. -/
noncomputable def withIndep (X : String) (ν : Measure Asg) (m : Measure Asg) : Measure Asg := (m.prod ν).map (addVar X)

/-- Each set without those before it. -/
def firsts (seen : Set Asg) : List (Set Asg) → List (Set Asg)
  | [] => []
  | E :: Es => (E \ seen) :: firsts (seen ∪ E) Es

/-- The mixture, over the sets `E`, of what a branch makes of the distribution conditioned on `E`, with the probabilities of the sets. -/
noncomputable def branches (m : Measure Asg) (Es : List (Set Asg)) (fs : List (Measure Asg → Measure Asg)) : Measure Asg :=
  (List.zipWith (fun E f => m E • f (m[|E])) Es fs).sum

/-- The assignments that satisfy each condition of an `IfElse` (all, for the last one if it is `True`). -/
def condSets (conds : List Ev) (els : Bool) : List (Set Asg) :=
  conds.map (fun e => {ω | e.holds ω}) ++ (if els = true then [Set.univ] else [])

/-- The value of `t` is one of the values of a case of a `Switch`. -/
def SwVal.Holds (t : Tr) (ω : Asg) : SwVal → Prop
  | .set S => ∃ v, t.eval ω = some v ∧ v.lift ∈ S.den
  | .str x => t.eval ω = some (.str x)
  | .num x => t.eval ω = some (.num x)

/-- The assignments in each case of a `Switch`. -/
def caseSets (t : Tr) (vals : List SwVal) : List (Set Asg) := vals.map (fun v => {ω | v.Holds t ω})

mutual
/-- What a program does to a distribution over assignments.  (`Constrain` to values that have positive probability; for the others see `C30_constrain_partial`.) -/
noncomputable def Cmd.sem (μ : Dist → Measure ℝ) : Cmd → Measure Asg → Measure Asg
  | .skip, m => m
  | .sample X d, m => withIndep X (d.law μ X) m
  | .transform Y t, m => m.map (withVar Y t)
  | .condition e, m => m[|{ω | e.holds ω}]
  | .constrain a, m => m[|{ω | ∀ p ∈ a, ω p.1 = some p.2}]
  | .ifelse conds els cmds, m => branches m (firsts ∅ (condSets conds els)) (Cmd.semL μ cmds)
  | .forr n0 n1 f, m => (List.range (n1 - n0).toNat).foldl (fun m (k : ℕ) => Cmd.sem μ (f (n0 + (k : ℤ))) m) m
  | .switch t vals cmds, m => branches m (firsts ∅ (caseSets t vals)) (Cmd.semL μ cmds)
  | .seq cmds, m => (Cmd.semL μ cmds).foldl (fun m f => f m) m
/-- See `Cmd.sem`. -/
noncomputable def Cmd.semL (μ : Dist → Measure ℝ) : List Cmd → List (Measure Asg → Measure Asg)
  | [] => []
  | m :: ms => Cmd.sem μ m :: Cmd.semL μ ms
end

/-- The distribution before anything is sampled: no variable has a value. -/
noncomputable def start : Measure Asg := Measure.dirac (fun _ => none)

/-- The events that can be used in a program whose variables have the distribution `m`: built by a user, with strings compared with plain variables,
almost surely defined and of the kind (number or string) that they compare with. -/
structure Ev.Fits (c : Ctx) (m : Measure Asg) (e : Ev) : Prop where
  made : e.Made c
  nomId : e.All NomId
  some : e.All NomSome
  regular : ∀ᵐ ω ∂m, e.Regular ω
  typed : ∀ᵐ ω ∂m, e.Typed ω

/-- The cases of a `Switch` that can be used: all sets of numbers and `t` is almost surely a number, or all sets of strings and `t` is a variable that
almost surely is a string. -/
inductive CasesFit (c : Ctx) (m : Measure Asg) (t : Tr) (vals : List SwVal) : Prop
  | real : t.Made c → (∀ v ∈ vals, Built v.toSet ∧ ∀ x, Val.str x ∉ v.toSet.den) → (∀ᵐ ω ∂m, t.Regular ω) →
      (∀ᵐ ω ∂m, ∃ x, t.eval ω = some (.num x)) → CasesFit c m t vals
  | nominal {X} : t = .id X → (∀ v ∈ vals, Built v.toSet ∧ ∃ n, v.toSet = .pc (.nom n)) → (∀ᵐ ω ∂m, ∃ x, ω X = some (.str x)) → CasesFit c m t vals

/-- The distributions that can be sampled from. -/
inductive Source.WF (L : Lib) (μ : Dist → Measure ℝ) : Source → Prop
  | one {d} : d.WF L μ → Source.WF L μ (.one d)
  | mix {m : DMix} : (∀ d ∈ m.distributions, d.WF L μ) → (∀ w ∈ m.weights, 0 < w) → Source.WF L μ (.mix m)

mutual
/-- The programs that are covered: every event and expression is one that can be used with the distribution it meets.  `Constrain` drops derived variables and makes atomic
leaves; it is covered only at the end of a program (`C30_constrain_partial`). -/
def Cmd.Safe (c : Ctx) (L : Lib) (μ : Dist → Measure ℝ) : Cmd → Measure Asg → Prop
  | .skip, _ => True
  | .sample _ d, _ => d.WF L μ
  | .transform _ t, m => t.MadeG true c ∧ ∀ᵐ ω ∂m, t.Regular ω
  | .condition e, m => e.Fits c m
  | .constrain _, _ => False
  | .ifelse conds els cmds, m => (∀ e ∈ conds, e.Fits c m) ∧ Cmd.SafeB c L μ cmds (firsts ∅ (condSets conds els)) m
  | .forr n0 n1 f, m => ∀ k : ℕ, k < (n1 - n0).toNat → Cmd.Safe c L μ (f (n0 + (k : ℤ))) ((List.range k).foldl (fun m (k : ℕ) => Cmd.sem μ (f (n0 + (k : ℤ))) m) m)
  | .switch t vals cmds, m => CasesFit c m t vals ∧ Cmd.SafeB c L μ cmds (firsts ∅ (caseSets t vals)) m
  | .seq cmds, m => Cmd.SafeS c L μ cmds m
/-- One after the other. -/
def Cmd.SafeS (c : Ctx) (L : Lib) (μ : Dist → Measure ℝ) : List Cmd → Measure Asg → Prop
  | [], _ => True
  | p :: ps, m => Cmd.Safe c L μ p m ∧ Cmd.SafeS c L μ ps (p.sem μ m)
/-- Each with its condition, if it has positive probability. -/
def Cmd.SafeB (c : Ctx) (L : Lib) (μ : Dist → Measure ℝ) : List Cmd → List (Set Asg) → Measure Asg → Prop
  | p :: ps, E :: Es, m => (m E ≠ 0 → Cmd.Safe c L μ p (m[|E])) ∧ Cmd.SafeB c L μ ps Es m
  | _, _, _ => True
end

/-- The SPE represents the distribution `m`: it is well-formed, has no weights zero and no atomic leaves, and denotes `m`. -/
structure Rep (c : Ctx) (L : Lib) (μ : Dist → Measure ℝ) (m : Measure Asg) (s : Spe) : Prop where
  wf : s.WF c L μ
  ready : ∀ E, s.Ready E
  atoms : s.atomSyms = ∅
  den : s.den μ = m

/-- What is done with a mixture of branches keeps its meaning. -/
def SimpOK (c : Ctx) (L : Lib) (μ : Dist → Measure ℝ) (simp : Spe → Res Spe) : Prop :=
  ∀ m s s', Rep c L μ m s → simp s = .ok s' → Rep c L μ m s'

end Sppl
