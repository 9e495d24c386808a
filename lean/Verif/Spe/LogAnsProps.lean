import Verif.Spe.LogSpeProps
import Verif.Spe.SolvedProps

set_option linter.all false

/-!
# C53: the answers of `logprob` and `condition` with numpy's tolerances, for all classes of C18 and C21

The model of `prob` computes with real numbers, `logprob` with logarithms.  Whenever the former answers, so does the latter,
with numpy's tolerances in `logdiffexp`.
-/

namespace Sppl
open Classical MeasureTheory
open scoped ENNReal ProbabilityTheory

variable {c : Ctx} {L : Lib} {μ : Dist → Measure ℝ} {hash : Spe → ℤ} {s s' : Spe} {e : Ev} {n : ℕ} {p : ℝ}

/-- **C53 (`logprob` answers when `prob` does).** For every SPE and event of C18: with `C18_total`, `C18_curve_total`,
`C18_conj_total`, `C18_open_total` and `C18_solved_total` this says that `logprob` returns the logarithm of the probability of the
event, `-inf` if that is zero, and never `nan`. -/
theorem C53_logprob_answers (hc : c.Correct) (hs : s.WF c L μ) (he : s.CanAsk c e) (hsym : e.symbols ⊆ s.symbols) (hr : ∀ᵐ ω ∂(s.den μ), e.Regular ω)
    (h : s.prob c L n e = .ok p) : s.logprob npClose c L n e = .ok (some (ENNReal.log (s.den μ {ω | e.holds ω}))) := by
  have k := logprob_ref (c := c) (n := n) npClose_ok (Spe.WF.logFit s hs) e
  have := hs.prob
  rw [h] at k
  obtain ⟨b, hb, -, rfl⟩ := k
  rw [hb, C18_prob_partial hc hs he hsym hr h, wlog_measure]

/-- **C53 (`condition` in log space answers when `condition` does).** For every SPE and event of C21. -/
theorem C53_condition_answers (hc : c.Correct) {E : String → Env} (H : CanCond c L μ E s e) (h : s.condition c L hash n e = .ok s') :
    ∃ t, s.conditionLog npClose c L hash n e = .ok t ∧ t.den μ = (s.den μ)[|{ω | e.holds ω}] := by
  have k := conditionLog_ref (c := c) (hash := hash) (n := n) npClose_ok (Spe.WF.logFit s H.wf) e
  rw [h] at k
  obtain ⟨t, ht, rfl, -⟩ := k
  exact ⟨t, ht, C21_condition_partial hc H h⟩

/-- **C53 (conjunctions of solvable comparisons).** `logprob` returns the logarithm of the probability. -/
theorem C53_solved_total (hc : c.Correct) (hs : s.WF c L μ) (hw : s.Wide) (he : e.SolvedDnf c (fun _ _ => True)) (hb : s.BaseOn e.symbols) (hsym : e.symbols ⊆ s.symbols)
    (hn : e.NomFree s.atomSyms) (hr : ∀ᵐ ω ∂(s.den μ), e.Regular ω) :
    ∃ N, ∀ n, N ≤ n → s.logprob npClose c L n e = .ok (some (ENNReal.log (s.den μ {ω | e.holds ω}))) := by
  obtain ⟨N, hN⟩ := C18_solved_total hc hs hw he hb hsym hn hr
  have ha : s.CanAsk c e := by cases hw <;> exact ⟨he.made, hn⟩
  exact ⟨N, fun n hn' => C53_logprob_answers hc hs ha hsym hr (hN n hn')⟩

/-- Non-vacuity: an event with an absolute value, on the uniform variable and the coin. -/
example : ctx0.Correct ∧ unifCoin.WF ctx0 (libOf muU) muU ∧ unifCoin.CanAsk ctx0 solvedEv ∧ solvedEv.symbols ⊆ unifCoin.symbols ∧ (∀ᵐ ω ∂(unifCoin.den muU), solvedEv.Regular ω) ∧
    ∃ n p, unifCoin.prob ctx0 (libOf muU) n solvedEv = .ok p := by
  have hsym : solvedEv.symbols ⊆ unifCoin.symbols := by
    simp [solvedEv, absGe, unifCoin, strEv, Ev.symbols, Ev.symbolsL, Tr.symbols, Spe.symbols, Spe.symbolsL, leafX, coin]
  have hn : solvedEv.NomFree unifCoin.atomSyms := by
    simp [solvedEv, absGe, unifCoin, strEv, Ev.NomFree, Ev.NomFreeL, Spe.atomSyms, Spe.atomSymsL, leafX, coin]
  have hr : ∀ᵐ ω ∂(unifCoin.den muU), solvedEv.Regular ω := Filter.Eventually.of_forall (by
    intro ω; simp [solvedEv, absGe, strEv, Ev.Regular, Ev.RegularL, Tr.Regular])
  have he := solvedEv_solved (fun _ _ => True) (by simp)
  refine ⟨ctx0_correct, unifCoin_wf, ⟨he.made, hn⟩, hsym, hr, ?_⟩
  obtain ⟨N, hN⟩ := C18_solved_total ctx0_correct unifCoin_wf .prod he (.prod (by
    intro s hs
    simp only [List.mem_cons, List.not_mem_nil, or_false] at hs
    rcases hs with rfl | rfl
    · refine .real ?_; intro s _ hs; simpa using hs
    · exact .nominal)) hsym hn hr
  exact ⟨N, _, hN N (le_refl _)⟩

end Sppl
