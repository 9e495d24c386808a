import Verif.Spe.Model
import Verif.Spe.Meas
import Verif.Spe.NoNom
import Mathlib.Probability.ConditionalProbability
import Mathlib.MeasureTheory.Measure.Prod

/-!
# Specification of SPEs: the probability distribution they denote

A distribution over assignments of values to variables.  None of the operations of the model is used here; only
its data types (and the set of variables of an SPE) are.
-/

namespace Sppl
open Classical MeasureTheory
open scoped ENNReal ProbabilityTheory

/-- The assignment with one defined variable. -/
def baseAsg (X : String) (v : Val ℝ) : Asg := fun s => if s = X then some v else none

/-- What is assumed of scipy about a frozen distribution: there is a probability measure `μ d` on the reals, without
atoms (continuous) or on the integers (discrete), of which `cdf` and `pmf` are the distribution function and the
masses. -/
structure DistOK (L : Lib) (μ : Dist → Measure ℝ) (k : Kind) (d : Dist) : Prop where
  prob : IsProbabilityMeasure (μ d)
  cdf : ∀ x : EReal, L.cdf d x = (μ d).real {y | (y : EReal) ≤ x}
  cont : k = .cont → ∀ x, μ d {x} = 0
  disc : k = .disc → μ d {x | ∀ n : ℤ, x ≠ n} = 0
  pmf : k = .disc → ∀ x : EReal, L.pmf d x = (μ d).real {y | (y : EReal) = x}

/-- The numbers of an interval. -/
def Ivl.reals (i : Ivl EReal) : Set ℝ := {x | i.Mem (x : EReal)}

/-- The distribution of the base variable of a real leaf: the scipy distribution, restricted to the support if the
leaf is conditioned. -/
noncomputable def realMeas (μ : Dist → Measure ℝ) (d : Dist) (supp : Ivl EReal) (cond : Bool) : Measure ℝ :=
  if cond = true then (μ d)[|supp.reals] else μ d

/-- The variables in `S` from the first assignment, the others from the second. -/
def mergeAsg (S : Finset String) (p : Asg × Asg) : Asg := fun s => if s ∈ S then p.1 s else p.2 s

/-- The joint distribution of independent groups of variables. -/
noncomputable def indep : List (Finset String × Measure Asg) → Measure Asg
  | [] => Measure.dirac (fun _ => none)
  | (S, m) :: l => (m.prod (indep l)).map (mergeAsg S)

/-- The weighted mixture of distributions. -/
noncomputable def mixture (ws : List ℝ) (ms : List (Measure Asg)) : Measure Asg :=
  (List.zipWith (fun w m => ENNReal.ofReal w • m) ws ms).sum

mutual
/-- The distribution over assignments that an SPE denotes. -/
noncomputable def Spe.den (μ : Dist → Measure ℝ) : Spe → Measure Asg
  | .real _ X d supp cond env => (realMeas μ d supp cond).map (fun x => env.extend (baseAsg X (.num x)))
  | .atomic X v env => Measure.dirac (env.extend (baseAsg X (.num v)))
  | .nominal X dist => mixture (dist.map (fun p => (p.2 : ℝ))) (dist.map (fun p => Measure.dirac (baseAsg X (.str p.1))))
  | .sum cs ws => mixture ws (Spe.denL μ cs)
  | .prod cs => indep ((Spe.symbolsL cs).zip (Spe.denL μ cs))
/-- See `Spe.den`. -/
noncomputable def Spe.denL (μ : Dist → Measure ℝ) : List Spe → List (Measure Asg)
  | [] => []
  | s :: ss => s.den μ :: Spe.denL μ ss
end

/-- The environment of a leaf with base variable `X`: built by `transform` from expressions a user can make. -/
structure EnvOK (c : Ctx) (X : String) (env : Env) : Prop where
  built : EnvBuilt X env
  made : ∀ p ∈ env, p.2.MadeG true c

/-- The value `x` of the base variable does not hit a singularity of a derived variable. -/
def EnvRegular (X : String) (env : Env) (x : ℝ) : Prop :=
  ∀ p ∈ env, p.2.Regular (env.extend (baseAsg X (.num x)))

/-- There are no negative values: the support says so, or all values are positive (as for `geom`, the support of which is unbounded). -/
def NotNeg (μ : Dist → Measure ℝ) (d : Dist) (supp : Ivl EReal) : Prop := 0 ≤ supp.a ∨ μ d (Set.Iic 0) = 0

/-- Well-formed SPEs: the invariants that the constructors check, positive mass of the support of real leaves, and
almost surely defined logarithms in derived variables.  Two restrictions exclude faults of the code: the values of
discrete leaves are not negative (`int` truncates toward zero; zero neither, if the support does not say so), and derived
variables of atomic leaves do not compare with strings. -/
inductive Spe.WF (c : Ctx) (L : Lib) (μ : Dist → Measure ℝ) : Spe → Prop
  | real {k X d supp cond env} : DistOK L μ k d → EnvOK c X env → supp.WF →
      (k = .disc → (NotNeg μ d supp ∧ (supp.a = ⊥ ∨ ∃ n : ℤ, supp.a = ((n : ℝ) : EReal))) ∧ (supp.b = ⊤ ∨ ∃ n : ℤ, supp.b = ((n : ℝ) : EReal))) →
      (if cond = true then μ d supp.reals ≠ 0 else μ d supp.reals = 1) →
      (∀ᵐ x ∂(realMeas μ d supp cond), EnvRegular X env x) → Spe.WF c L μ (.real k X d supp cond env)
  | atomic {X v env} : EnvOK c X env → (∀ p ∈ env, p.2.NoNom) → EnvRegular X env v → Spe.WF c L μ (.atomic X v env)
  | nominal {X dist} : (dist.map Prod.fst).Nodup → (∀ p ∈ dist, 0 ≤ p.2) → (dist.map Prod.snd).sum = 1 →
      Spe.WF c L μ (.nominal X dist)
  | sum {cs ws S} : (∀ s ∈ cs, Spe.WF c L μ s) → cs ≠ [] → cs.length = ws.length → (∀ w ∈ ws, 0 ≤ w) → ws.sum = 1 →
      (∀ s ∈ cs, s.symbols = S) → Spe.WF c L μ (.sum cs ws)
  | prod {cs} : (∀ s ∈ cs, Spe.WF c L μ s) → cs ≠ [] → (Spe.symbolsL cs).Pairwise Disjoint → Spe.WF c L μ (.prod cs)

mutual
/-- The variables that atomic leaves define. -/
def Spe.atomSyms : Spe → Finset String
  | .real _ _ _ _ _ _ => ∅
  | .atomic _ _ env => (env.map Prod.fst).toFinset
  | .nominal _ _ => ∅
  | .sum cs _ => Spe.atomSymsL cs
  | .prod cs => Spe.atomSymsL cs
/-- See `Spe.atomSyms`. -/
def Spe.atomSymsL : List Spe → Finset String
  | [] => ∅
  | s :: ss => s.atomSyms ∪ Spe.atomSymsL ss
end

/-- The set of assignments where a factored event is true. -/
def Factor.set (F : Factor) : Set Asg := {ω | ∃ m ∈ F, ∀ p ∈ m, p.2.holds ω}

/-- The set of assignments where an event is true. -/
def Ev.set (e : Ev) : Set Asg := {ω | e.holds ω}

mutual
/-- No basic event compares a variable in `A` with strings. -/
def Ev.NomFree (A : Finset String) : Ev → Prop
  | .ivl _ _ => True
  | .fin _ _ => True
  | .nom t _ => Disjoint t.symbols A
  | .or es => Ev.NomFreeL A es
  | .and es => Ev.NomFreeL A es
/-- See `Ev.NomFree`. -/
def Ev.NomFreeL (A : Finset String) : List Ev → Prop
  | [] => True
  | e :: es => e.NomFree A ∧ Ev.NomFreeL A es
end

/-- The events an SPE is asked about: built by a user, and numeric about the variables of atomic leaves (a comparison
of such a variable with strings gets a wrong probability, see `Props`). -/
def Spe.CanAsk (c : Ctx) : Spe → Ev → Prop
  | .real _ _ _ _ _ _, e => e.MadeG true c
  | .atomic _ _ _, e => e.MadeG true c ∧ e.NoNom
  | .nominal _ _, e => e.Made c
  | .sum cs _, e => e.Made c ∧ e.NomFree (Spe.atomSymsL cs)
  | .prod cs, e => e.Made c ∧ e.NomFree (Spe.atomSymsL cs)

mutual
/-- The variables of the event have values, of the kind (numbers or strings) that the event compares them with. -/
def Ev.Suits (ω : Asg) : Ev → Prop
  | .ivl t _ => ∀ s ∈ t.symbols, ∃ x, ω s = some (.num x)
  | .fin t (some _) => ∀ s ∈ t.symbols, ∃ x, ω s = some (.num x)
  | .fin t none => ∀ s ∈ t.symbols, ω s ≠ none
  | .nom t _ => ∃ s x, t = .id s ∧ ω s = some (.str x)
  | .or es => Ev.SuitsL ω es
  | .and es => Ev.SuitsL ω es
/-- See `Ev.Suits`. -/
def Ev.SuitsL (ω : Asg) : List Ev → Prop
  | [] => True
  | e :: es => e.Suits ω ∧ Ev.SuitsL ω es
end

theorem Ev.suitsL_iff (ω : Asg) (es : List Ev) : Ev.SuitsL ω es ↔ ∀ e ∈ es, e.Suits ω := by
  induction es with
  | nil => simp [Ev.SuitsL]
  | cons e es ih => simp [Ev.SuitsL, ih]

/-- A value of the given kind: a number (`true`) or a string (`false`). -/
def HasKind : Bool → Option (Val ℝ) → Prop
  | true, v => ∃ x, v = some (.num x)
  | false, v => ∃ x, v = some (.str x)

/-- Every variable `x` of the SPE has one kind of values, `K x`: each leaf gives its variables (almost surely) values of that kind. -/
inductive Spe.Kinded (μ : Dist → Measure ℝ) (K : String → Bool) : Spe → Prop
  | real {k X d supp cond env} : (∀ᵐ x ∂(realMeas μ d supp cond), ∀ p ∈ env, HasKind (K p.1) (env.extend (baseAsg X (.num x)) p.1)) →
      Spe.Kinded μ K (.real k X d supp cond env)
  | atomic {X v env} : (∀ p ∈ env, HasKind (K p.1) (env.extend (baseAsg X (.num v)) p.1)) → Spe.Kinded μ K (.atomic X v env)
  | nominal {X dist} : K X = false → Spe.Kinded μ K (.nominal X dist)
  | sum {cs ws} : (∀ s ∈ cs, Spe.Kinded μ K s) → Spe.Kinded μ K (.sum cs ws)
  | prod {cs} : (∀ s ∈ cs, Spe.Kinded μ K s) → Spe.Kinded μ K (.prod cs)

/-- SPEs whose conditioning is exact: mixture weights are positive, the atomic leaves of a variable all have the same derived
variables (`AtomicLeaf.__eq__` does not compare them), and no distribution has a table of values (`RealLeaf.__eq__` does not compare them). -/
inductive Spe.Ready (E : String → Env) : Spe → Prop
  | real {k X d supp cond env} : d.values = [] → Spe.Ready E (.real k X d supp cond env)
  | atomic {X v} : Spe.Ready E (.atomic X v (E X))
  | nominal {X dist} : Spe.Ready E (.nominal X dist)
  | sum {cs ws} : (∀ s ∈ cs, Spe.Ready E s) → (∀ w ∈ ws, 0 < w) → Spe.Ready E (.sum cs ws)
  | prod {cs} : (∀ s ∈ cs, Spe.Ready E s) → Spe.Ready E (.prod cs)

end Sppl
