import Verif.Events.ChainSpec

/-!
# Expressions with an absolute value or a reciprocal (specification)
-/

namespace Sppl

/-- Expressions made of `abs(t)`, `t` an increasing or decreasing expression, by logarithms of base above one and
`p + q*...`. -/
inductive Tr.Peak (k : String) : Tr → Prop
  | abs {t} : Tr.Chain k t → Tr.Peak k (.abs t)
  | log {t b} : Tr.Peak k t → 1 < b → Tr.Peak k (.log t b)
  | poly {t p q} : Tr.Peak k t → q ≠ 0 → Tr.Peak k (.poly t [p, q])

/-- Expressions made of `1/t`, `t` an increasing or decreasing expression, by roots, exponentials and logarithms of base
above one, and `p + q*...`. -/
inductive Tr.Hyper (k : String) : Tr → Prop
  | recip {t} : Tr.Chain k t → Tr.Hyper k (.recip t)
  | radical {t n} : Tr.Hyper k t → n ≠ 0 → Tr.Hyper k (.radical t n)
  | exp {t b} : Tr.Hyper k t → 1 < b → Tr.Hyper k (.exp t b)
  | log {t b} : Tr.Hyper k t → 1 < b → Tr.Hyper k (.log t b)
  | poly {t p q} : Tr.Hyper k t → q ≠ 0 → Tr.Hyper k (.poly t [p, q])

/-- Comparisons `t < x`, `a <= t <= b` of such expressions, `t == x` if there is no absolute value, and the comparisons of
increasing and decreasing expressions. -/
inductive Ev.PeakLit (k : String) : Ev → Prop
  | chain {e} : Ev.ChainLit k e → Ev.PeakLit k e
  | ivl {t i} : Tr.Peak k t → i.WF → Ev.PeakLit k (.ivl t i)
  | hyper {t i} : Tr.Hyper k t → i.WF → Ev.PeakLit k (.ivl t i)
  | one {t} {y : EReal} : Tr.Hyper k t → Ev.PeakLit k (.fin t (some {y}))

/-- A comparison, a conjunction of comparisons without absolute values and reciprocals, or a disjunction of these. -/
inductive Ev.PeakDnf (k : String) : Ev → Prop
  | lit {e} : Ev.PeakLit k e → Ev.PeakDnf k e
  | conj {e} : Ev.ChainAnd k e → Ev.PeakDnf k e
  | or {es} : es ≠ [] → (∀ e ∈ es, Ev.PeakLit k e ∨ Ev.ChainAnd k e) → Ev.PeakDnf k (.or es)

end Sppl
