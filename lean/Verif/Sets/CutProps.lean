import Verif.Sets.Props
import Verif.Sets.CutLemmas

/-!
# Property C05: sets on which the operators never raise

The counterexamples of `Verif/Sets/Props.lean` all have a finite set of numbers, or two intervals that meet in a single point.  Sets of strings and intervals
that end consistently (`SSet.Cut`, `Verif/Sets/CutSpec.lean`) have neither, and this is kept by the three operators.
-/

namespace Sppl
variable {E : Type} [LinearOrder E] [BoundedOrder E] [DenselyOrdered E] [Nontrivial E]

/-- C05: `&`, `|` and `~` never raise on sets of strings and intervals in which every number is cut on one side only, for any iteration orders, and the
results are such sets again. -/
theorem C05_total_cuts (σ : Orders E) {κ : Cuts E} {s t : SSet E} (hs : Built s) (ht : Built t) (cs : s.Cut κ) (ct : t.Cut κ) :
    (∃ r, SSet.and σ s t = .ok r ∧ r.Cut κ) ∧ (∃ r, SSet.or σ s t = .ok r ∧ r.Cut κ) ∧ ∃ r, SSet.invert σ s = .ok r ∧ r.Cut κ := by
  have h1 : s.Tidy κ := ⟨(C04_built_disjoint hs).1, (C04_built_disjoint hs).2, cs⟩
  have h2 : t.Tidy κ := ⟨(C04_built_disjoint ht).1, (C04_built_disjoint ht).2, ct⟩
  exact ⟨(SSet.and_tidy σ h1 h2).imp fun _ h => ⟨h.1, h.2.cut⟩, (SSet.or_tidy σ h1 h2).imp fun _ h => ⟨h.1, h.2.cut⟩,
    (SSet.invert_tidy σ h1).imp fun _ h => ⟨h.1, h.2.cut⟩⟩

/-- Expressions over sets with the three operators. -/
inductive SetExpr (E : Type)
  | lit (s : SSet E)
  | and (a b : SetExpr E)
  | or (a b : SetExpr E)
  | not (a : SetExpr E)

/-- The value of an expression, with the iteration orders `σ`. -/
def SetExpr.eval (σ : Orders E) : SetExpr E → Res (SSet E)
  | .lit s => .ok s
  | .and a b => do
    let x ← a.eval σ
    let y ← b.eval σ
    SSet.and σ x y
  | .or a b => do
    let x ← a.eval σ
    let y ← b.eval σ
    SSet.or σ x y
  | .not a => do
    let x ← a.eval σ
    SSet.invert σ x

/-- The sets written in an expression. -/
def SetExpr.lits : SetExpr E → List (SSet E)
  | .lit s => [s]
  | .and a b => a.lits ++ b.lits
  | .or a b => a.lits ++ b.lits
  | .not a => a.lits

/-- C05: an expression of any size over sets of strings and intervals never raises if all intervals written in it that end at the same number cut it on the
same side. -/
theorem C05_expr_total (σ : Orders E) {κ : Cuts E} (x : SetExpr E) (h : ∀ s ∈ x.lits, Built s ∧ s.Cut κ) : ∃ r, x.eval σ = .ok r ∧ Built r ∧ r.Cut κ := by
  induction x with
  | lit s => exact ⟨s, rfl, h s (by simp [SetExpr.lits])⟩
  | and a b iha ihb =>
    obtain ⟨p, h1, h2, h3⟩ := iha (fun s hs => h s (by simp [SetExpr.lits, hs]))
    obtain ⟨q, h4, h5, h6⟩ := ihb (fun s hs => h s (by simp [SetExpr.lits, hs]))
    obtain ⟨⟨r, h7, h8⟩, -, -⟩ := C05_total_cuts σ h2 h5 h3 h6
    exact ⟨r, by simp only [SetExpr.eval, h1, h4, bind, Except.bind, h7], .and h2 h5 h7, h8⟩
  | or a b iha ihb =>
    obtain ⟨p, h1, h2, h3⟩ := iha (fun s hs => h s (by simp [SetExpr.lits, hs]))
    obtain ⟨q, h4, h5, h6⟩ := ihb (fun s hs => h s (by simp [SetExpr.lits, hs]))
    obtain ⟨-, ⟨r, h7, h8⟩, -⟩ := C05_total_cuts σ h2 h5 h3 h6
    exact ⟨r, by simp only [SetExpr.eval, h1, h4, bind, Except.bind, h7], .or h2 h5 h7, h8⟩
  | not a ih =>
    obtain ⟨p, h1, h2, h3⟩ := ih (fun s hs => h s (by simpa [SetExpr.lits] using hs))
    obtain ⟨-, -, r, h7, h8⟩ := C05_total_cuts σ h2 h2 h3 h3
    exact ⟨r, by simp only [SetExpr.eval, h1, bind, Except.bind, h7], .invert h2 h7, h8⟩

end Sppl

namespace Sppl

/-- C05 non-vacuity: strings and intervals cut to the left of 0, 2 and to the right of 1. -/
example : ∃ κ : Cuts QE, ∀ s ∈ (SetExpr.and (.not (.or (.lit (.pc (iv (qe 0) (qe 1) false false))) (.lit (.pc (iv (qe 1) (qe 2) true true)))))
    (.or (.lit (.pc (nm {"a"}))) (.lit (.pc (iv (qe 2) ⊤ false true))))).lits, Built s ∧ s.Cut κ := by
  refine ⟨fun x => if x = qe 1 then some true else some false, ?_⟩
  have b0 : qe 0 ≠ qe 1 := by decide +kernel
  have b2 : qe 2 ≠ qe 1 := by decide +kernel
  simp only [SetExpr.lits, List.mem_append, List.mem_singleton, or_assoc]
  rintro s (rfl | rfl | rfl | rfl)
  · exact ⟨built_iv (by decide +kernel), by simp [b0], by simp⟩
  · exact ⟨built_iv (by decide +kernel), by simp, by simp [b2]⟩
  · exact ⟨built_nm (by decide), trivial⟩
  · exact ⟨built_iv (by decide +kernel), by simp [b2], by simp⟩

end Sppl
