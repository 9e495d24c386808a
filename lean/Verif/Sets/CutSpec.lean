import Verif.Sets.Spec

/-!
# Sets whose intervals end consistently

Comparisons `X < a` and `X >= a` cut the line on one side of `a`; `X <= a` and `X > a` cut it on the other side.  When every number is cut on at most one
side, no intersection or complement of intervals is a single point.
-/

namespace Sppl
variable {E : Type} [LinearOrder E] [BoundedOrder E]

/-- The numbers at which intervals may end: `some true` if the number belongs to the part on its left, `some false` if it belongs to the part on its right. -/
abbrev Cuts (E : Type) := E → Option Bool

/-- The finite ends of an interval are cuts. -/
def Ivl.Cut (κ : Cuts E) (i : Ivl E) : Prop := (i.a ≠ ⊥ → κ i.a = some i.lo) ∧ (i.b ≠ ⊤ → κ i.b = some (!i.ro))

/-- See `Ivl.Cut`.  Strings are not restricted, finite sets of numbers are excluded. -/
def Piece.Cut (κ : Cuts E) : Piece E → Prop
  | .nom _ => True
  | .fin _ => False
  | .ivl i => i.Cut κ

/-- See `Ivl.Cut`. -/
def SSet.Cut (κ : Cuts E) : SSet E → Prop
  | .empty => True
  | .pc p => p.Cut κ
  | .un u => ∀ p ∈ u.values, p.Cut κ

end Sppl
