import Verif.Comp.FitSpec
import Verif.Interp.TotalSpec

/-!
# Specification of the compiler: the sources that run without an exception

The judgement `Runs` of C52, said of the statements of a source: the tests and the values are those of Python, the distributions those that the source describes.
-/

namespace Sppl
open Classical MeasureTheory
open scoped ENNReal ProbabilityTheory

/-- The event that a test is in the compiled module is a combination of comparisons that can be asked for in the scope. -/
def PE.PlainTest (H : PyHost) (c : Ctx) (ρ : NS) (Γ : Scope) (t : PE) : Prop := ∀ e, t.rewrite.eval H c ρ = .ok (.ev e) → Γ.Plain e

/-- A single test that is one comparison with a number, or with strings. -/
def PE.HalfTest (H : PyHost) (c : Ctx) (ρ : NS) (t : PE) : Prop := ∀ e, t.rewrite.eval H c ρ = .ok (.ev e) → e.Half

/-- A single test that compares a variable, possibly a derived one, with a number. -/
def PE.CutTest (H : PyHost) (c : Ctx) (ρ : NS) (Γ : Scope) (t : PE) : Prop := ∀ e, t.rewrite.eval H c ρ = .ok (.ev e) → ∃ k ∈ Γ.curv, e.Cut k

/-- The tests of an `if` and of its `elif`s: see `Scope.Tests`. -/
def GoesTests (H : PyHost) (c : Ctx) (ρ : NS) (Γ : Scope) (t : PE) (ts : List PE) : Prop :=
  ((∀ u ∈ t :: ts, u.PlainTest H c ρ Γ) ∧ (Γ.tall = true ∨ (ts = [] ∧ t.HalfTest H c ρ))) ∨ (c.Linear ∧ ts = [] ∧ t.CutTest H c ρ Γ)

/-- A new variable is sampled, or derived from a number; arrays and constants change nothing. -/
def LeafGoes (H : PyHost) (c : Ctx) (ρ : NS) (Γ Δ : Scope) (target : Target) : PE → Prop
  | .call "array" _ => Δ = Γ
  | e =>
    match target.var H c ρ, e.eval H c ρ with
    | some X, .ok (.dist d) => X ∉ Γ.vars ∧ d.Callable ∧ Δ.Less (Γ.add X d)
    | some Y, .ok (.tr t) => (∃ X, t.symbols = {X} ∧ X ∈ Γ.vars ∧ X ∈ Γ.nums) ∧ Y ∉ Γ.vars ∧ Δ.Less (Γ.derive Y t)
    | _, _ => Δ = Γ

/-- Assignments: the branches of positive probability introduce the same variables. -/
def AssignGoes (H : PyHost) (c : Ctx) (ρ : NS) (target : Target) : PE → Scope → Measure Asg → Scope → Prop
  | .ifexp t a b, Γ, m, Δ => GoesTests H c ρ Γ t (elseTests b) ∧ Δ.tall = true ∧
      (m (t.sat H c ρ) ≠ 0 → AssignGoes H c ρ target a Γ (m[|t.sat H c ρ]) Δ) ∧ (m (t.sat H c ρ)ᶜ ≠ 0 → AssignGoes H c ρ target b Γ (m[|(t.sat H c ρ)ᶜ]) Δ)
  | e, Γ, _, Δ => LeafGoes H c ρ Γ Δ target e

mutual
/-- The statement runs from the scope `Γ`, in which the variables have the distribution `m`, to the scope `Δ`.  `constrain` is not covered. -/
def Stmt.Goes (H : PyHost) (c : Ctx) (μ : Dist → Measure ℝ) (ρ : NS) : Stmt → Scope → Measure Asg → Scope → Prop
  | .assign target e, Γ, m, Δ => AssignGoes H c ρ target e Γ m Δ
  | .ifs t b o, Γ, m, Δ => GoesTests H c ρ Γ t (elifTests o) ∧ Δ.tall = true ∧
      (m (t.sat H c ρ) ≠ 0 → Stmt.GoesL H c μ ρ b Γ (m[|t.sat H c ρ]) Δ) ∧ (m (t.sat H c ρ)ᶜ ≠ 0 → Stmt.GoesL H c μ ρ o Γ (m[|(t.sat H c ρ)ᶜ]) Δ)
  | .forr x n0 n1 body, Γ, m, Δ => ∀ a b : ℤ, n0.eval H c ρ = .ok (.int a) → n1.eval H c ρ = .ok (.int b) → ∃ G : ℕ → Scope, G 0 = Γ ∧ Δ.Less (G (b - a).toNat) ∧
      ∀ k : ℕ, k < (b - a).toNat → Stmt.GoesL H c μ (ρ.bind x (.int (a + (k : ℤ)))) body (G k)
        ((List.range k).foldl (fun m (k : ℕ) => Stmt.semL H c μ (ρ.bind x (.int (a + (k : ℤ)))) body m) m) (G (k + 1))
  | .switch i x sym vals body, Γ, m, Δ => ∀ t vs, sym.eval H c ρ = .ok (.tr t) → vals.eval H c ρ = .ok (.coll vs) →
      (∃ X, t = .id X ∧ X ∈ Γ.base ∧ ∀ ss, vs.mapM Obj.swVal = .ok ss → Γ.Cases X ss) ∧ Γ.vars ≠ ∅ ∧ Δ.tall = true ∧ (∀ᵐ ω ∂m, ∃ v ∈ vs, CaseHolds ω t v) ∧
      ∀ (k : ℕ) v, vs[k]? = some v → ∀ E, (firsts ∅ (vs.map (fun v => {ω | CaseHolds ω t v})))[k]? = some E → m E ≠ 0 → Stmt.GoesL H c μ (ρ.case i x k v) body Γ (m[|E]) Δ
  | .condition e, Γ, m, Δ => (∀ v, e.rewrite.eval H c ρ = .ok (.ev v) → Γ.Asks c v) ∧ m (e.sat H c ρ) ≠ 0 ∧ Δ.Less Γ
  | .constrain _, _, _, _ => False
  | .call _ _, _, _, _ => False
  | .other _, _, _, _ => False
  | .pass, Γ, _, Δ => Δ = Γ
/-- One after the other. -/
def Stmt.GoesL (H : PyHost) (c : Ctx) (μ : Dist → Measure ℝ) (ρ : NS) : List Stmt → Scope → Measure Asg → Scope → Prop
  | [], Γ, _, Δ => Δ = Γ
  | s :: ss, Γ, m, Δ => ∃ Θ, Stmt.Goes H c μ ρ s Γ m Θ ∧ Stmt.GoesL H c μ ρ ss Θ (Stmt.sem H c μ ρ s m) Δ
end

end Sppl
