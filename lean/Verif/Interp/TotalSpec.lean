import Verif.Interp.Spec
import Verif.Spe.TotalSpec
import Verif.Interp.Bins
import Verif.Dnf.CurveSpec
import Verif.Spe.DerivSpec
import Verif.Dnf.Spec

/-!
# Specification of the programs that run without an exception

A judgement on programs in the style of typing rules.  What is known about the variables at a point of the program is a `Scope`; the rules follow the
commands.  None of the functions of the interpreter is used.
-/

namespace Sppl
open Classical MeasureTheory
open scoped ENNReal ProbabilityTheory

/-- The distribution is not discrete. -/
def Distr.NotDisc : Distr → Prop
  | .nominal _ => True
  | .real k _ _ => k ≠ .disc

/-- The distribution is one of numbers. -/
def Distr.Numeric : Distr → Prop
  | .nominal _ => False
  | .real _ _ _ => True

/-- The probabilities of a nominal distribution add up to one; a discrete distribution is between integers, or unbounded. -/
def Distr.Callable : Distr → Prop
  | .nominal dist => (dist.map Prod.snd).sum = 1
  | .real k _ supp => k = .disc → (supp.a = ⊥ ∨ ∃ n : ℤ, supp.a = ((n : ℝ) : EReal)) ∧ (supp.b = ⊤ ∨ ∃ n : ℤ, supp.b = ((n : ℝ) : EReal))

/-- All distributions of the source. -/
def Source.Every (P : Distr → Prop) : Source → Prop
  | .one d => P d
  | .mix m => ∀ d ∈ m.distributions, P d

/-- Moreover the weights of a mixture add up to one. -/
def Source.Callable : Source → Prop
  | .one d => d.Callable
  | .mix m => (∀ d ∈ m.distributions, d.Callable) ∧ m.distributions.length = m.weights.length ∧ m.weights.sum = 1

/-- What is known at a point of a program: the variables, those that were sampled (and not derived by a transform), those that were not sampled from discrete
distributions, those that are numbers, whether there are at least two independent or conditionally independent parts, and the numbers that were sampled from
distributions that are not discrete, or derived from these by increasing and decreasing expressions only. -/
structure Scope where
  vars : Finset String
  base : Finset String
  cont : Finset String
  nums : Finset String
  tall : Bool
  curv : Finset String

/-- At the start of a program. -/
def Scope.start : Scope := ⟨∅, ∅, ∅, ∅, false, ∅⟩

/-- `Δ` says less than `Γ`. -/
structure Scope.Less (Δ Γ : Scope) : Prop where
  vars : Δ.vars = Γ.vars
  base : Δ.base ⊆ Γ.base
  cont : Δ.cont ⊆ Γ.cont
  nums : Δ.nums ⊆ Γ.nums
  tall : Δ.tall = true → Γ.tall = true
  curv : Δ.curv = Γ.curv ∨ Δ.curv = ∅

/-- With a new sampled variable. -/
noncomputable def Scope.add (Γ : Scope) (X : String) (d : Source) : Scope where
  vars := insert X Γ.vars
  base := insert X Γ.base
  cont := if d.Every Distr.NotDisc then insert X Γ.cont else Γ.cont.erase X
  nums := if d.Every Distr.Numeric then insert X Γ.nums else Γ.nums.erase X
  tall := decide Γ.vars.Nonempty
  curv := if d.Every Distr.NotDisc ∧ d.Every Distr.Numeric then insert X Γ.curv else Γ.curv.erase X

/-- With a new derived variable. -/
noncomputable def Scope.derive (Γ : Scope) (Y : String) (t : Tr) : Scope := { Γ with
  vars := insert Y Γ.vars
  base := Γ.base.erase Y
  nums := insert Y Γ.nums
  curv := if t.symbols ⊆ Γ.curv then if t.Curve then insert Y Γ.curv else ∅ else Γ.curv.erase Y }

/-- The numbers that a variable can be compared with: integers, if it may be discrete. -/
def Scope.Whole (Γ : Scope) (k : String) (x : EReal) : Prop := k ∈ Γ.cont ∨ ∃ m : ℤ, x = ((m : ℝ) : EReal)

/-- A combination of comparisons of sampled variables with numbers and strings. -/
structure Scope.Plain (Γ : Scope) (e : Ev) : Prop where
  simple : e.Simple Γ.Whole
  base : e.symbols ⊆ Γ.base

/-- A comparison of one variable with one set. -/
def Ev.Single (e : Ev) : Prop := ∃ k, e.basic? = some (.id k)

/-- A conjunction of comparisons, also of derived variables and of expressions of them. -/
structure Scope.Bent (Γ : Scope) (e : Ev) : Prop where
  curved : e.Curved (fun k x => k ∈ Γ.curv ∨ Γ.Whole k x) (· ∈ Γ.curv)
  clause : e.IsClause
  vars : e.symbols ⊆ Γ.base ∪ Γ.curv
  shape : Γ.tall = true ∨ (e.AndOf Ev.AnyLit ∧ e.symbols ⊆ Γ.curv)

/-- The events that `prob` and `condition` can be asked about.  About derived variables only if polynomials of degree one are solved. -/
def Scope.Asks (c : Ctx) (Γ : Scope) (e : Ev) : Prop := (Γ.Plain e ∧ (Γ.tall = true ∨ e.Single)) ∨ (c.Linear ∧ Γ.Bent e)

/-- A comparison of the variable `k` with a number (`<`, `<=`, `>`, `>=`). -/
inductive Ev.Cut (k : String) : Ev → Prop
  | below {b : ℝ} {o} : Ev.Cut k (.ivl (.id k) ⟨⊥, (b : EReal), true, o⟩)
  | above {a : ℝ} {o} : Ev.Cut k (.ivl (.id k) ⟨(a : EReal), ⊤, o, true⟩)

/-- A comparison of one variable with a number (`<`, `<=`, `>`, `>=`), or with strings. -/
inductive Ev.Half : Ev → Prop
  | below {k b o} : Ev.Half (.ivl (.id k) ⟨⊥, b, true, o⟩)
  | above {k a o} : Ev.Half (.ivl (.id k) ⟨a, ⊤, o, true⟩)
  | str {k n} : Ev.Half (.nom (.id k) (some n))

/-- The tests of an `IfElse`: any tests on sampled variables if there are at least two parts; otherwise one comparison.  One comparison may be about a derived variable. -/
def Scope.Tests (c : Ctx) (Γ : Scope) (conds : List Ev) : Prop :=
  ((∀ e ∈ conds, Γ.Plain e) ∧ (Γ.tall = true ∨ ∃ e, conds = [e] ∧ e.Half)) ∨ (c.Linear ∧ ∃ k e, conds = [e] ∧ k ∈ Γ.curv ∧ e.Cut k)

/-- The values of a `Switch` on the variable `X`: distinct strings, distinct numbers, or the bins of an interval. -/
inductive Scope.Cases (Γ : Scope) (X : String) : List SwVal → Prop
  | strs {xs : List String} : xs.Nodup → Γ.Cases X (xs.map .str)
  | nums {xs : List ℝ} : xs.Nodup → (∀ x ∈ xs, Γ.Whole X (x : EReal)) → Γ.Cases X (xs.map .num)
  | bins {a b : ℝ} {n : ℕ} {l : List (SSet EReal)} : X ∈ Γ.cont → a < b → 1 ≤ n → binspace a b ((n : ℤ) + 1) = .ok l → Γ.Cases X (l.map .set)

/-- The program `p` runs from the scope `Γ`, in which the variables have the distribution `m`, to the scope `Δ`. -/
inductive Runs (c : Ctx) (μ : Dist → Measure ℝ) : Scope → Measure Asg → Cmd → Scope → Prop
  | skip {Γ m} : Runs c μ Γ m .skip Γ
  /-- A new variable is sampled. -/
  | sample {Γ m X d} : X ∉ Γ.vars → d.Callable → Runs c μ Γ m (.sample X d) (Γ.add X d)
  /-- A new variable is derived from a number. -/
  | transform {Γ m Y t X} : t.symbols = {X} → X ∈ Γ.vars → X ∈ Γ.nums → Y ∉ Γ.vars → Runs c μ Γ m (.transform Y t) (Γ.derive Y t)
  /-- The condition has positive probability. -/
  | condition {Γ m e} : Γ.Asks c e → m {ω | e.holds ω} ≠ 0 → Runs c μ Γ m (.condition e) Γ
  /-- There is a branch for (almost) every value of the variables; the branches of positive probability run and leave the same variables. -/
  | ifelse {Γ Δ m conds els cmds} : conds ≠ [] → Γ.Tests c conds → cmds.length = (condSets conds els).length →
      (∀ᵐ ω ∂m, ∃ E ∈ condSets conds els, ω ∈ E) → Δ.tall = true → (∀ q ∈ cmds.zip (firsts ∅ (condSets conds els)), m q.2 ≠ 0 → Runs c μ Γ (m[|q.2]) q.1 Δ) →
      Runs c μ Γ m (.ifelse conds els cmds) Δ
  | switch {Γ Δ m X vals cmds} : X ∈ Γ.base → Γ.Cases X vals → cmds.length = vals.length → (∀ᵐ ω ∂m, ∃ E ∈ caseSets (.id X) vals, ω ∈ E) → Γ.vars ≠ ∅ → Δ.tall = true →
      (∀ q ∈ cmds.zip (firsts ∅ (caseSets (.id X) vals)), m q.2 ≠ 0 → Runs c μ Γ (m[|q.2]) q.1 Δ) → Runs c μ Γ m (.switch (.id X) vals cmds) Δ
  | forr {m n0 n1 f} (Γ : ℕ → Scope) : (∀ k : ℕ, k < (n1 - n0).toNat → Runs c μ (Γ k) ((List.range k).foldl (fun m (k : ℕ) => (f (n0 + (k : ℤ))).sem μ m) m) (f (n0 + (k : ℤ))) (Γ (k + 1))) →
      Runs c μ (Γ 0) m (.forr n0 n1 f) (Γ (n1 - n0).toNat)
  | nil {Γ m} : Runs c μ Γ m (.seq []) Γ
  | cons {Γ Δ Θ m p ps} : Runs c μ Γ m p Δ → Runs c μ Δ (p.sem μ m) (.seq ps) Θ → Runs c μ Γ m (.seq (p :: ps)) Θ
  /-- Less may be said about the scope that is reached. -/
  | less {Γ Δ Θ m p} : Runs c μ Γ m p Δ → Θ.Less Δ → Runs c μ Γ m p Θ

end Sppl
