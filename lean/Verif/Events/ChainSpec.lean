import Verif.Events.Example

/-!
# Increasing and decreasing expressions of one variable (specification)
-/

namespace Sppl

/-- Expressions made of `X` by roots, exponentials and logarithms of base above one, and `p + q*...`. -/
inductive Tr.Chain (k : String) : Tr → Prop
  | id : Tr.Chain k (.id k)
  | radical {t n} : Tr.Chain k t → n ≠ 0 → Tr.Chain k (.radical t n)
  | exp {t b} : Tr.Chain k t → 1 < b → Tr.Chain k (.exp t b)
  | log {t b} : Tr.Chain k t → 1 < b → Tr.Chain k (.log t b)
  | poly {t p q} : Tr.Chain k t → q ≠ 0 → Tr.Chain k (.poly t [p, q])

/-- The empty set, intervals, and sets of one number (possibly infinite). -/
inductive SSet.Flat : SSet EReal → Prop
  | empty : SSet.Flat .empty
  | ivl {i} : i.WF → SSet.Flat (.pc (.ivl i))
  | one {y : EReal} : SSet.Flat (.pc (.fin {y}))

/-- Comparisons `t < x`, `a <= t <= b`, `t == x`, `t << EmptySet` of such an expression. -/
inductive Ev.ChainLit (k : String) : Ev → Prop
  | ivl {t i} : Tr.Chain k t → i.WF → Ev.ChainLit k (.ivl t i)
  | one {t} {y : EReal} : Tr.Chain k t → Ev.ChainLit k (.fin t (some {y}))
  | empty {t} : Tr.Chain k t → Ev.ChainLit k (.fin t none)

/-- A comparison, or a conjunction of comparisons. -/
inductive Ev.ChainAnd (k : String) : Ev → Prop
  | lit {e} : Ev.ChainLit k e → Ev.ChainAnd k e
  | and {es} : es ≠ [] → (∀ e ∈ es, Ev.ChainLit k e) → Ev.ChainAnd k (.and es)

/-- A disjunction of these. -/
inductive Ev.ChainDnf (k : String) : Ev → Prop
  | conj {e} : Ev.ChainAnd k e → Ev.ChainDnf k e
  | or {es} : es ≠ [] → (∀ e ∈ es, Ev.ChainAnd k e) → Ev.ChainDnf k (.or es)

/-- The set is all real numbers, with or without the infinities. -/
def AllReals (r : SSet EReal) : Prop :=
  r = SSet.reals ∨ ∃ u, r = .un u ∧ u.nominals = none ∧ (∀ s, u.atoms = some s → s ⊆ {⊥, ⊤}) ∧ u.intervals = [⟨⊥, ⊤, true, true⟩]

/-- What is assumed of sympy's solver for polynomials of degree one: it answers, with a half
line or a number, and the limits at the two infinities differ. -/
structure Ctx.Linear (c : Ctx) : Prop where
  range : ∀ p q : ℝ, q ≠ 0 → ∃ r, c.polyRange [p, q] = .ok r ∧ AllReals r
  pos : ∀ p q y : ℝ, ∀ st, 0 < q → c.polyIneq [p, q] y st = .ok (lowerIvl ((y - p) / q) st)
  neg : ∀ p q y : ℝ, ∀ st, q < 0 → c.polyIneq [p, q] y st = .ok (upperIvl ((y - p) / q) st)
  eq : ∀ p q y : ℝ, q ≠ 0 → c.polyEq [p, q] y = .ok (.pc (.fin {(((y - p) / q : ℝ) : EReal)}))
  lim : ∀ p q : ℝ, q ≠ 0 → c.limPos [p, q] ≠ c.limNeg [p, q]

/-- `ctx0` is such a solver. -/
theorem ctx0_linear : ctx0.Linear where
  range p q _ := ⟨_, rfl, .inl rfl⟩
  pos p q y st h := by simp [ctx0, h]
  neg p q y st h := by simp [ctx0, h, not_lt.2 h.le]
  eq p q y h := by simp [ctx0, h]
  lim p q h := by simp only [ctx0]; split <;> simp

end Sppl
