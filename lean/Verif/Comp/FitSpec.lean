import Verif.Comp.Spec
import Verif.Interp.Spec

/-!
# Specification of the compiler: the sources whose events and expressions can be used where they are
-/

namespace Sppl
open Classical MeasureTheory
open scoped ENNReal ProbabilityTheory

/-- The event that a test is in the compiled module can be used with the distribution `m`. -/
def PE.FitsTest (H : PyHost) (c : Ctx) (ρ : NS) (m : Measure Asg) (t : PE) : Prop := ∀ e, t.rewrite.eval H c ρ = .ok (.ev e) → e.Fits c m

/-- The tests of the `elif` branches. -/
def elifTests : List Stmt → List PE
  | [.ifs t _ o] => t :: elifTests o
  | _ => []

/-- The tests after the first one of a conditional expression. -/
def elseTests : PE → List PE
  | .ifexp t _ b => t :: elseTests b
  | _ => []

/-- Assignments: the tests fit, and expressions in the variables are almost surely defined.  (`IfElse` asks for all its tests with the distribution before it, so the tests of `elif` have to
fit that one.) -/
def AssignFit (H : PyHost) (c : Ctx) (ρ : NS) : PE → Measure Asg → Prop
  | .ifexp t a b, m => (∀ u ∈ t :: elseTests b, u.FitsTest H c ρ m) ∧ (m (t.sat H c ρ) ≠ 0 → AssignFit H c ρ a (m[|t.sat H c ρ])) ∧
      (m (t.sat H c ρ)ᶜ ≠ 0 → AssignFit H c ρ b (m[|(t.sat H c ρ)ᶜ]))
  | e, m => ∀ t, e.eval H c ρ = .ok (.tr t) → t.MadeG true c ∧ ∀ᵐ ω ∂m, t.Regular ω

mutual
/-- Statements whose events and expressions can be used with the distributions that they meet.  `constrain` is covered only at the end of a program (C58). -/
def Stmt.Fit (H : PyHost) (c : Ctx) (μ : Dist → Measure ℝ) (ρ : NS) : Stmt → Measure Asg → Prop
  | .assign _ e, m => AssignFit H c ρ e m
  | .ifs t b o, m => (∀ u ∈ t :: elifTests o, u.FitsTest H c ρ m) ∧ (m (t.sat H c ρ) ≠ 0 → Stmt.FitL H c μ ρ b (m[|t.sat H c ρ])) ∧
      (m (t.sat H c ρ)ᶜ ≠ 0 → Stmt.FitL H c μ ρ o (m[|(t.sat H c ρ)ᶜ]))
  | .forr x n0 n1 body, m => ∀ a b : ℤ, n0.eval H c ρ = .ok (.int a) → n1.eval H c ρ = .ok (.int b) → ∀ k : ℕ, k < (b - a).toNat →
      Stmt.FitL H c μ (ρ.bind x (.int (a + (k : ℤ)))) body
        ((List.range k).foldl (fun m (k : ℕ) => Stmt.semL H c μ (ρ.bind x (.int (a + (k : ℤ)))) body m) m)
  | .switch i x sym vals body, m => ∀ t vs, sym.eval H c ρ = .ok (.tr t) → vals.eval H c ρ = .ok (.coll vs) →
      (∀ ss, vs.mapM Obj.swVal = .ok ss → CasesFit c m t ss) ∧
      ∀ (k : ℕ) v, vs[k]? = some v → ∀ E, (firsts ∅ (vs.map (fun v => {ω | CaseHolds ω t v})))[k]? = some E → m E ≠ 0 → Stmt.FitL H c μ (ρ.case i x k v) body (m[|E])
  | .condition e, m => e.FitsTest H c ρ m
  | .constrain _, _ => False
  | .call _ _, _ => True
  | .other _, _ => False
  | .pass, _ => True
/-- See `Stmt.Fit`. -/
def Stmt.FitL (H : PyHost) (c : Ctx) (μ : Dist → Measure ℝ) (ρ : NS) : List Stmt → Measure Asg → Prop
  | [], _ => True
  | s :: ss, m => Stmt.Fit H c μ ρ s m ∧ Stmt.FitL H c μ ρ ss (Stmt.sem H c μ ρ s m)
end

end Sppl
