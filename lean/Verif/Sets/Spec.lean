import Verif.Sets.Model
import Mathlib.Data.Set.Basic

/-!
# Specification of sets: what the members of a set are

This file does not use the operations of the model, only its data types.
-/

namespace Sppl
variable {E : Type} [LinearOrder E] [BoundedOrder E]

/-- Mathematical membership of a number in an interval with the given endpoint flags. -/
def Ivl.Mem (i : Ivl E) (x : E) : Prop :=
  (if i.lo = true then i.a < x else i.a ≤ x) ∧ (if i.ro = true then x < i.b else x ≤ i.b)

/-- The members of a basic set: nominal sets hold strings, the others numbers. -/
def Piece.den : Piece E → Set (Val E)
  | .nom n => {v | ∃ s, v = .str s ∧ if n.b = some true then s ∉ n.vals else s ∈ n.vals}
  | .fin s => {v | ∃ x, v = .num x ∧ x ∈ s}
  | .ivl i => {v | ∃ x, v = .num x ∧ i.Mem x}

/-- The members of a set. -/
def SSet.den : SSet E → Set (Val E)
  | .empty => ∅
  | .pc p => p.den
  | .un u => {v | ∃ p ∈ u.values, v ∈ p.den}

/-- Strings and finite numbers (the values random variables take). -/
def Val.Proper : Val E → Prop
  | .str _ => True
  | .num x => x ≠ ⊥ ∧ x ≠ ⊤

/-- Invariant of `Interval` objects: non-degenerate, open at infinite ends. -/
def Ivl.WF (i : Ivl E) : Prop := i.a < i.b ∧ (i.a = ⊥ → i.lo = true) ∧ (i.b = ⊤ → i.ro = true)

/-- Invariant of `FiniteNominal` objects. -/
def Nom.WF (n : Nom) : Prop := n.vals.Nonempty ∨ n.b = some true

/-- Invariant of basic sets: what their constructors assert. -/
def Piece.WF : Piece E → Prop
  | .nom n => n.WF
  | .fin s => s.Nonempty
  | .ivl i => i.WF

/-- Invariant of `Union` objects: the redundant attributes agree, the pieces are well formed, and
there are at least two. -/
structure Un.WF (u : Un E) : Prop where
  mem_values : ∀ p, p ∈ u.values ↔
    (∃ n, u.nominals = some n ∧ p = .nom n) ∨ (∃ s, u.atoms = some s ∧ p = .fin s) ∨
    (∃ i ∈ u.intervals, p = .ivl i)
  nodup : u.values.Nodup
  nodup_intervals : u.intervals.Nodup
  two_le : 2 ≤ u.values.length
  pieces : ∀ p ∈ u.values, p.WF
  mem_args : ∀ p, p ∈ u.args ↔ p ∈ u.values

/-- Well-formed sets: exactly what the constructors of `sets.py` accept. -/
def SSet.WF : SSet E → Prop
  | .empty => True
  | .pc p => p.WF
  | .un u => u.WF

end Sppl

namespace Sppl
variable {E : Type} [LinearOrder E] [BoundedOrder E]

/-- Distinct pieces of a set have no common member. -/
def SSet.Disj : SSet E → Prop
  | .un u => ∀ p ∈ u.values, ∀ q ∈ u.values, p ≠ q → ∀ v, ¬ (v ∈ p.den ∧ v ∈ q.den)
  | _ => True

end Sppl
