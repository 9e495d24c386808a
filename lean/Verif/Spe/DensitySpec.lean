import Verif.Spe.Density
import Verif.Spe.Spec

/-!
# Specification of densities
-/

namespace Sppl
open Classical MeasureTheory Topology

/-- The assignments that agree with the point. -/
def Point.set (a : Point) : Set Asg := {ω | ∀ p ∈ a, ω p.1 = some p.2}

/-- The value is within `ε` of the given number, or is the given string. -/
def near (ε : ℝ) : Val ℝ → Option (Val ℝ) → Prop
  | .num x, v => ∃ y, v = some (.num y) ∧ |y - x| ≤ ε
  | .str x, v => v = some (.str x)

/-- The box around the point: numbers within `ε`, the same strings. -/
def Point.box (a : Point) (ε : ℝ) : Set Asg := {ω | ∀ p ∈ a, near ε p.2 (ω p.1)}

/-- The variables of the point. -/
def Point.vars (a : Point) : Finset String := (a.map Prod.fst).toFinset

/-- The part of the point about the variables in `S`. -/
def Point.on (a : Point) (S : Finset String) : Point := a.filter (fun p => decide (p.1 ∈ S))

/-- A condition on some variables: each has a value in the given set. -/
abbrev Rect := List (String × Set (Option (Val ℝ)))

/-- The assignments where the condition holds. -/
def Rect.set (b : Rect) : Set Asg := {ω | ∀ p ∈ b, ω p.1 ∈ p.2}

/-- The sets are measurable. -/
def Rect.Meas (b : Rect) : Prop := ∀ p ∈ b, MeasurableSet p.2

/-- The part of the condition about the variables in `S`. -/
def Rect.on (b : Rect) (S : Finset String) : Rect := b.filter (fun p => decide (p.1 ∈ S))

/-- What is assumed about the density of a continuous distribution at `x`: it is the limit of the mass of a small interval around `x`, by its
length; if it is 0 then there is no mass near `x`; and `x` is not an end point of the support of a conditioned leaf. -/
structure PdfAt (L : Lib) (μ : Dist → Measure ℝ) (d : Dist) (supp : Ivl EReal) (cond : Bool) (x : ℝ) : Prop where
  lim : Filter.Tendsto (fun ε => (μ d).real {y | |y - x| ≤ ε} / (2 * ε)) (𝓝[>] (0 : ℝ)) (𝓝 (L.pdf d x))
  zero : L.pdf d x = 0 → ∀ᶠ ε in 𝓝[>] (0 : ℝ), (μ d).real {y | |y - x| ≤ ε} = 0
  inner : cond = true → (∀ᶠ y in 𝓝 x, y ∈ supp.reals) ∨ (∀ᶠ y in 𝓝 x, y ∉ supp.reals)

/-- Where the density of an SPE is the limit of probabilities of boxes: mixture weights are positive, and the continuous leaves are
regular at the values of the point. -/
inductive Spe.Smooth (L : Lib) (μ : Dist → Measure ℝ) (a : Point) : Spe → Prop
  | cont {X d supp cond env} : (∀ x, (X, .num x) ∈ a → PdfAt L μ d supp cond x) → Spe.Smooth L μ a (.real .cont X d supp cond env)
  | disc {X d supp cond env} : Spe.Smooth L μ a (.real .disc X d supp cond env)
  | atomic {X v env} : Spe.Smooth L μ a (.atomic X v env)
  | nominal {X dist} : Spe.Smooth L μ a (.nominal X dist)
  | sum {cs ws} : (∀ s ∈ cs, Spe.Smooth L μ a s) → (∀ w ∈ ws, 0 < w) → Spe.Smooth L μ a (.sum cs ws)
  | prod {cs} : (∀ s ∈ cs, Spe.Smooth L μ a s) → Spe.Smooth L μ a (.prod cs)

/-- No derived variables, and positive mixture weights. -/
inductive Spe.Plain : Spe → Prop
  | real {k X d supp cond} : Spe.Plain (.real k X d supp cond [(X, .id X)])
  | atomic {X v} : Spe.Plain (.atomic X v [(X, .id X)])
  | nominal {X dist} : Spe.Plain (.nominal X dist)
  | sum {cs ws} : (∀ s ∈ cs, Spe.Plain s) → (∀ w ∈ ws, 0 < w) → Spe.Plain (.sum cs ws)
  | prod {cs} : (∀ s ∈ cs, Spe.Plain s) → Spe.Plain (.prod cs)

end Sppl
