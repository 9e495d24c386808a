import Verif.Events.ValLemmas
import Verif.Events.PeakProps

set_option linter.all false

/-!
# C61: comparisons of expressions with finite sets of numbers are solved
-/

namespace Sppl
open Classical

/-- **C61 (finite sets).** A comparison `t in {y1, ..., yn}` of an expression made by roots, exponentials, logarithms, absolute
values and `p + q*...`, of any depth, is solved without exceptions, from some depth of the stack on, if no `yi` asks for an exponential
to be zero.  The solution is empty or a finite set of numbers, and contains exactly the solutions.  Missing from the full claim: the other events;
with zeros the code raises (`C61_exp_set_raises`). -/
theorem C61_values_partial {c : Ctx} (hc : c.Correct) (hl : c.Linear) {k : String} {e : Ev} (he : e.ValLit k) :
    ∃ N S, (∀ n, N ≤ n → e.solve c n = .ok S) ∧ (S = .empty ∨ ∃ W : Finset EReal, S = .pc (.fin W) ∧ ∀ w ∈ W, ∃ x : ℝ, w = x) ∧
      ∀ (ω : Asg) (v : Val ℝ), ω k = some v → e.Regular ω → (v.lift ∈ S.den ↔ e.holds ω) := by
  obtain ⟨N, S, h1, h⟩ := he.solve hc hl
  refine ⟨N, S, fun n hn => Ev.solve_le hn e _ h, ?_, fun ω v hv hr => (Ev.solve_exact (r0 := false) hc he.made h).2.2 ω k v he.symbols hv (by simp) hr⟩
  rcases h1 with h1 | ⟨W, -, h2, h3⟩
  · exact .inl h1
  · exact .inr ⟨W, h3, fun w hw => by obtain ⟨x, hx, -⟩ := h2 w hw; exact ⟨x, hx⟩⟩

/-- Without exponentials there is no condition on the numbers: `abs(2*abs(X) - 3) << {1, 2, -1}`; and `exp(X) << {1, 4}`, base two. -/
example : ctx0.Correct ∧ ctx0.Linear ∧ (Ev.fin (.abs (.poly (.abs (.id "X")) [-3, 2])) (some {((1 : ℝ) : EReal), ((2 : ℝ) : EReal), ((-1 : ℝ) : EReal)})).ValLit "X" ∧
    (Ev.fin (.exp (.id "X") 2) (some {((1 : ℝ) : EReal), ((4 : ℝ) : EReal)})).ValLit "X" := by
  refine ⟨ctx0_correct, ctx0_linear, ⟨_, _, rfl, .abs (.poly (.abs .id) (by norm_num)), by simp, ?_⟩, ⟨_, _, rfl, .exp .id (by norm_num), by simp, ?_⟩⟩
  · intro v hv
    have key : ∀ y, ¬ Tr.Zero (.abs (.poly (.abs (.id "X")) [-3, 2])) y := by
      have h0 : ∀ y, ¬ Tr.Zero (.id "X") y := by intro y h; cases h
      have h1 : ∀ y, ¬ Tr.Zero (.abs (.id "X")) y := by
        intro y h; cases h with
        | abs _ h => exact h0 _ h
        | abs_neg _ h => exact h0 _ h
      have h2 : ∀ y, ¬ Tr.Zero (.poly (.abs (.id "X")) [-3, 2]) y := by
        intro y h; cases h with
        | poly h => exact h1 _ h
      intro y h; cases h with
      | abs _ h => exact h2 _ h
      | abs_neg _ h => exact h2 _ h
    simp only [Finset.mem_insert, Finset.mem_singleton] at hv
    rcases hv with rfl | rfl | rfl
    · exact ⟨_, rfl, key _⟩
    · exact ⟨_, rfl, key _⟩
    · exact ⟨_, rfl, key _⟩
  · have key : ∀ y : ℝ, y ≠ 0 → ¬ Tr.Zero (.exp (.id "X") 2) y := by
      intro y hy h
      cases h with
      | zero => exact hy rfl
      | exp _ h => cases h
    intro v hv
    simp only [Finset.mem_insert, Finset.mem_singleton] at hv
    rcases hv with rfl | rfl
    · exact ⟨_, rfl, key _ (by norm_num)⟩
    · exact ⟨_, rfl, key _ (by norm_num)⟩

end Sppl
