import Verif.Spe.MixOpenLemmas
import Verif.Spe.OpenCondProps

set_option linter.all false

/-!
# C18: `prob` on mixtures of one variable

The totality theorems for trees (`C18_curve_total`, `C18_solved_total`) ask for a product below every sum.  Here the tree is a
mixture, of any depth, of leaves of a single variable with open supports and of atoms, such as a mixture of a normal
distribution and an atom.
-/

namespace Sppl
open Classical MeasureTheory
open scoped ENNReal ProbabilityTheory

variable {c : Ctx} (hc : c.Correct) (hl : c.Linear) {L : Lib} {μ : Dist → Measure ℝ} {X : String} {s : Spe} {e : Ev}

include hc hl

theorem openMix_answers {Q : String → EReal → Prop} (hs : s.WF c L μ) (ho : s.OpenMix X) (hlf : s.isLeaf = false) (hmade : e.Made c) (H : NormReturns c Q e)
    (hX : e.symbols = {X}) (hn : e.NomFree {X}) (hsym : e.symbols ⊆ s.symbols) (hr : ∀ᵐ ω ∂(s.den μ), e.Regular ω) :
    ∃ N, ∀ n, N ≤ n → s.prob c L n e = .ok ((s.den μ).real {ω | e.holds ω}) := by
  obtain ⟨N, hN⟩ := prob_openMix (L := L) hc hl hs ho hlf hmade H hX hn
  refine ⟨N, fun n hn' => ?_⟩
  obtain ⟨p, hp⟩ := hN n hn'
  have hn0 : e.NomFree s.atomSyms := nomFree_one hX hn _
  have ha : s.CanAsk c e := by
    cases ho with
    | leaf => simp [Spe.isLeaf, Spe.leafEnv] at hlf
    | atom => simp [Spe.isLeaf, Spe.leafEnv] at hlf
    | sum h => exact ⟨hmade, hn0⟩
  rw [hp, C18_prob_partial hc hs ha hsym hr hp]

/-- **C18 (`prob` on mixtures of one variable).** On boolean combinations of comparisons of increasing and decreasing
expressions of the variable, `prob` returns the probability of the event, from some depth of the stack on. -/
theorem C18_mixture_total {T : String → Prop} (hs : s.WF c L μ) (ho : s.OpenMix X) (hlf : s.isLeaf = false) (he : e.Curved (fun _ _ => True) T)
    (hX : e.symbols = {X}) (hn : e.NomFree {X}) (hsym : e.symbols ⊆ s.symbols) (hr : ∀ᵐ ω ∂(s.den μ), e.Regular ω) :
    ∃ N, ∀ n, N ≤ n → s.prob c L n e = .ok ((s.den μ).real {ω | e.holds ω}) :=
  openMix_answers hc hl hs ho hlf he.made (he.normReturns hc hl) hX hn hsym hr

/-- **C18 (`prob` on mixtures of one variable, solved comparisons).** The same for disjunctions of comparisons that `solve`
solves, to sets with any number of parts. -/
theorem C18_mixture_solved (hs : s.WF c L μ) (ho : s.OpenMix X) (hlf : s.isLeaf = false) (he : e.SolvedDnf c (fun _ _ => True))
    (hX : e.symbols = {X}) (hn : e.NomFree {X}) (hsym : e.symbols ⊆ s.symbols) (hr : ∀ᵐ ω ∂(s.den μ), e.Regular ω) :
    ∃ N, ∀ n, N ≤ n → s.prob c L n e = .ok ((s.den μ).real {ω | e.holds ω}) :=
  openMix_answers hc hl hs ho hlf he.made (dnfNormalize_solved hc he) hX hn hsym hr

omit hc hl

/-! ## Non-vacuity -/

/-- A leaf with the support `(-oo, oo)` and an atom at zero, mixed. -/
noncomputable def mixR4 : Spe := .sum [leafR4, .atomic "X" 0 [("X", .id "X")]] [1/2, 1/2]

theorem mixR4_wf (c : Ctx) : mixR4.WF c (libOf fun _ => unif4) (fun _ => unif4) := by
  refine .sum (S := {"X"}) ?_ (by simp) rfl (by intro w hw; simp at hw; rw [hw]; norm_num) (by norm_num) ?_
  · intro s hs; simp at hs; rcases hs with rfl | rfl
    · exact leafR4_wf c
    · exact .atomic (envOK_single c "X") (by intro p hp; simp at hp; subst hp; constructor) (by intro p hp; simp at hp; subst hp; trivial)
  · intro s hs; simp at hs; rcases hs with rfl | rfl <;> simp [leafR4, Spe.symbols]

theorem mixR4_open : mixR4.OpenMix "X" := .sum (by intro s hs; simp at hs; rcases hs with rfl | rfl; exacts [.leaf rfl rfl, .atom])

/-- `(X == 0) | (X >= 1)` meets the hypotheses of the first theorem, `abs(X) >= 1` those of the second. -/
example : ctx0.Correct ∧ ctx0.Linear ∧ mixR4.WF ctx0 (libOf fun _ => unif4) (fun _ => unif4) ∧ mixR4.OpenMix "X" ∧ mixR4.isLeaf = false ∧
    (zeroOrGe.Curved (fun _ _ => True) (fun _ => False) ∧ zeroOrGe.symbols = {"X"} ∧ zeroOrGe.NomFree {"X"} ∧ zeroOrGe.symbols ⊆ mixR4.symbols ∧
      ∀ᵐ ω ∂(mixR4.den (fun _ => unif4)), zeroOrGe.Regular ω) ∧
    (absGe.SolvedDnf ctx0 (fun _ _ => True) ∧ absGe.symbols = {"X"} ∧ absGe.NomFree {"X"} ∧ absGe.symbols ⊆ mixR4.symbols ∧
      ∀ᵐ ω ∂(mixR4.den (fun _ => unif4)), absGe.Regular ω) := by
  have s1 : zeroOrGe.symbols = {"X"} := by simp [zeroOrGe, Ev.symbols, Ev.symbolsL, Tr.symbols]
  have s2 : absGe.symbols = {"X"} := by simp [absGe, Ev.symbols, Tr.symbols]
  have s3 : mixR4.symbols = {"X"} := by simp [mixR4, leafR4, Spe.symbols, Spe.symbolsL]
  refine ⟨ctx0_correct, ctx0_linear, mixR4_wf _, mixR4_open, rfl, ⟨?_, s1, ?_, by rw [s1, s3], Filter.Eventually.of_forall ?_⟩,
    ⟨.conj (.lit (absGe_solved _ (by simp))), s2, ?_, by rw [s2, s3], Filter.Eventually.of_forall ?_⟩⟩
  · refine .or (by simp) (fun e he => ?_)
    simp at he
    rcases he with rfl | rfl
    · exact .plain (k := "X") rfl (by simp) (.fin (by simp) (by intro x hx; simp at hx; subst hx; simp))
    · exact .plain (k := "X") rfl (by simp) (.ivl geI_wf ⟨fun _ => trivial, fun _ => trivial⟩)
  · simp [zeroOrGe, Ev.NomFree, Ev.NomFreeL]
  · intro ω; simp [zeroOrGe, Ev.Regular, Ev.RegularL, Tr.Regular]
  · simp [absGe, Ev.NomFree]
  · intro ω; simp [absGe, Ev.Regular, Tr.Regular]

end Sppl
