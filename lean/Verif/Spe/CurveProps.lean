import Verif.Spe.CurveLemmas
import Verif.Spe.TotalProps

set_option linter.all false

/-!
# C18, C21, C22: `prob` and `condition` return on comparisons of expressions

For the SPEs of `TotalProps` (products and mixtures of products) and the events `Ev.Curved`: Boolean combinations of comparisons
of increasing and decreasing expressions of variables (`sqrt`, `exp`, `log`, `p + q*...`, composed to any depth), and of direct
comparisons of the other variables.
-/

namespace Sppl
open Classical MeasureTheory
open scoped ENNReal ProbabilityTheory

variable {c : Ctx} (hc : c.Correct) (hl : c.Linear) {L : Lib} {μ : Dist → Measure ℝ} {hash : Spe → ℤ} {s : Spe} {e : Ev} {T : String → Prop}

include hc hl

/-- **C14 (`dnf_normalize` returns on comparisons of expressions).** From some depth of the stack on, the result does not
depend on it, and compares variables directly with sets described by finite numbers. -/
theorem C14_curve_total {Q : String → EReal → Prop} (he : e.Curved Q T) :
    ∃ N o, (∀ n, N ≤ n → dnfNormalize c n e = .ok o) ∧ ∀ r, o = some r → r.Simple Q := by
  obtain ⟨ev, ea⟩ := he.all
  obtain ⟨N, o, h1, h2⟩ := dnfNormalize_mix hc hl ev ea
  exact ⟨N, o, h1, fun r hr => (Ev.simple_iff r).2 ⟨(h2 r hr).2.1, (h2 r hr).2.2.1⟩⟩

/-- **C18 (`prob` returns on comparisons of expressions).** For a product or a mixture of products of any size and depth,
`prob` returns the probability of the event, from some depth of the stack on. -/
theorem C18_curve_total (hs : s.WF c L μ) (hw : s.Wide) (he : e.Curved (fun _ _ => True) T) (hb : s.BaseOn e.symbols) (hsym : e.symbols ⊆ s.symbols)
    (hn : e.NomFree s.atomSyms) (hr : ∀ᵐ ω ∂(s.den μ), e.Regular ω) :
    ∃ N, ∀ n, N ≤ n → s.prob c L n e = .ok ((s.den μ).real {ω | e.holds ω}) := by
  obtain ⟨N, hN⟩ := prob_curve (L := L) hc hl hw.not_leaf he hsym hn (fun n F _ hF => probMem_wide_total hc hw hs hb F (fun m hm => (hF m hm).1))
  refine ⟨N, fun n hn' => ?_⟩
  obtain ⟨p, hp⟩ := hN n hn'
  have ha : s.CanAsk c e := by cases hw <;> exact ⟨he.made, hn⟩
  rw [hp, C18_prob_partial hc hs ha hsym hr hp]

/-- **C21, C22 (`condition` returns on comparisons of expressions).** If the symbols of discrete leaves are only compared
directly and with integers, and the event has positive probability, `condition` returns the conditional distribution,
from some depth of the stack on. -/
theorem C21_curve_total {E : String → Env} (hs : s.WF c L μ) (hE : s.Ready E) (hw : s.Wide) (he : e.Curved s.Whole T) (hb : s.BaseOn e.symbols) (hsym : e.symbols ⊆ s.symbols)
    (hn : e.NomFree s.atomSyms) (hr : ∀ᵐ ω ∂(s.den μ), e.Regular ω) (hk : ∀ᵐ ω ∂(s.den μ), e.Suits ω) (hm : 0 < s.den μ {ω | e.holds ω}) :
    ∃ N, ∀ n, N ≤ n → ∃ s', s.condition c L hash n e = .ok s' ∧ s'.den μ = (s.den μ)[|{ω | e.holds ω}] := by
  obtain ⟨N, hN⟩ := condition_curve (L := L) (hash := hash) hc hl hs hE hw.not_leaf he hr hsym hn hk hm.ne'
    (fun n F _ hF => probMem_wide_total hc hw hs hb F (fun m hm => (hF m hm).1))
    (fun n F hne hF hd h0 => condMem_wide_total hc hw hs hE hb F hne (fun m hm => (hF m hm).1) (fun m hm => (hF m hm).2) hd h0)
  refine ⟨N, fun n hn' => ?_⟩
  obtain ⟨s', h⟩ := hN n hn'
  have ha : s.CanAsk c e := by cases hw <;> exact ⟨he.made, hn⟩
  exact ⟨s', h, C21_condition_partial hc ⟨hs, hE, ⟨ha, hsym, hr⟩, Or.inr hk⟩ h⟩

/-- **C22 (`condition` returns exactly on events of positive probability).** -/
theorem C22_curve_iff {E : String → Env} (hs : s.WF c L μ) (hE : s.Ready E) (hw : s.Wide) (he : e.Curved s.Whole T) (hb : s.BaseOn e.symbols) (hsym : e.symbols ⊆ s.symbols)
    (hn : e.NomFree s.atomSyms) (hr : ∀ᵐ ω ∂(s.den μ), e.Regular ω) (hk : ∀ᵐ ω ∂(s.den μ), e.Suits ω) :
    ∃ N, ∀ n, N ≤ n → ((∃ s', s.condition c L hash n e = .ok s') ↔ 0 < s.den μ {ω | e.holds ω}) := by
  by_cases hm : 0 < s.den μ {ω | e.holds ω}
  · obtain ⟨N, hN⟩ := C21_curve_total hc hl hs hE hw he hb hsym hn hr hk hm
    exact ⟨N, fun n hn' => ⟨fun _ => hm, fun _ => by obtain ⟨s', h, -⟩ := hN n hn'; exact ⟨s', h⟩⟩⟩
  · refine ⟨0, fun n _ => ⟨?_, fun h => absurd h hm⟩⟩
    rintro ⟨s', h⟩
    have ha : s.CanAsk c e := by cases hw <;> exact ⟨he.made, hn⟩
    exact C22_positive_partial hc ⟨hs, hE, ⟨ha, hsym, hr⟩, Or.inr hk⟩ h

omit hc hl

/-! ## Non-vacuity -/

/-- `(exp(2*X) < 4) | (Y == 'a')`, with `exp` of base two. -/
noncomputable def curveEv : Ev := .or [.ivl (.exp (.poly (.id "X") [0, 2]) 2) ⟨⊥, ((4 : ℝ) : EReal), true, true⟩, strEv "Y" "a"]

theorem curveEv_curved (Q : String → EReal → Prop) (hQ : ∀ x, Q "X" x) : curveEv.Curved Q (· = "X") := by
  refine .or (by simp) ?_
  intro e he
  simp only [List.mem_cons, List.not_mem_nil, or_false] at he
  rcases he with rfl | rfl
  · refine .curve rfl hQ (.ivl (.exp (.poly .id (by norm_num)) (by norm_num)) ⟨EReal.bot_lt_coe _, by simp, by simp⟩) (.inl ⟨fun _ => some (.num 0), ?_⟩)
    rw [Ev.holds_ivl]
    refine ⟨1, by simp [Tr.eval, onNum, expVal, polyVal], ?_⟩
    simp only [Ivl.Mem, if_true]
    exact ⟨EReal.bot_lt_coe _, by exact_mod_cast (by norm_num : (1 : ℝ) < 4)⟩
  · exact .plain (k := "Y") rfl (by decide) (.nom (by simp [Nom.WF]))

/-- The hypotheses are met by the uniform variable and the coin. -/
example : ctx0.Correct ∧ ctx0.Linear ∧ unifCoin.WF ctx0 (libOf muU) muU ∧ unifCoin.Wide ∧ curveEv.Curved (fun _ _ => True) (· = "X") ∧
    curveEv.Curved unifCoin.Whole (· = "X") ∧ unifCoin.BaseOn curveEv.symbols ∧ curveEv.symbols ⊆ unifCoin.symbols ∧ curveEv.NomFree unifCoin.atomSyms ∧
    (∀ᵐ ω ∂(unifCoin.den muU), curveEv.Regular ω) ∧ (∀ᵐ ω ∂(unifCoin.den muU), curveEv.Suits ω) ∧ 0 < unifCoin.den muU {ω | curveEv.holds ω} ∧
    unifCoin.Ready (fun _ => []) := by
  have hsym : curveEv.symbols ⊆ unifCoin.symbols := by
    simp [curveEv, unifCoin, strEv, Ev.symbols, Ev.symbolsL, Tr.symbols, Spe.symbols, Spe.symbolsL, leafX, coin]
  refine ⟨ctx0_correct, ctx0_linear, unifCoin_wf, .prod, curveEv_curved _ (by simp), curveEv_curved _ (fun x => Or.inl ?_), .prod ?_, hsym, ?_, Filter.Eventually.of_forall ?_, ?_,
    unifCoin_a (fun ω h => (Ev.holds_or ω _).2 ⟨strEv "Y" "a", by simp, h⟩), ?_⟩
  · refine .prod ?_
    intro s hs
    simp only [List.mem_cons, List.not_mem_nil, or_false] at hs
    rcases hs with rfl | rfl
    · exact .real (by simp)
    · exact .nominal
  · intro s hs
    simp only [List.mem_cons, List.not_mem_nil, or_false] at hs
    rcases hs with rfl | rfl
    · refine .real ?_; intro s _ hs; simpa using hs
    · exact .nominal
  · simp [curveEv, unifCoin, strEv, Ev.NomFree, Ev.NomFreeL, Spe.atomSyms, Spe.atomSymsL, leafX, coin]
  · intro ω; simp [curveEv, strEv, Ev.Regular, Ev.RegularL, Tr.Regular]
  · refine suits_of_kinded (K := fun k => decide (k = "X")) unifCoin_wf ?_ hsym ?_
    · refine .prod ?_
      intro s hs
      simp only [List.mem_cons, List.not_mem_nil, or_false] at hs
      rcases hs with rfl | rfl
      · refine .real (Filter.Eventually.of_forall ?_)
        intro x p hp
        simp only [List.mem_cons, List.not_mem_nil, or_false] at hp
        subst hp
        simp only [decide_true]
        exact ⟨x, by simp [Env.extend, Tr.eval, baseAsg]⟩
      · exact .nominal (by decide)
    · intro ω h
      obtain ⟨x, hx⟩ := h "X" (by simp [curveEv, Ev.symbols, Ev.symbolsL, Tr.symbols])
      obtain ⟨y, hy⟩ := h "Y" (by simp [curveEv, strEv, Ev.symbols, Ev.symbolsL, Tr.symbols])
      refine ⟨?_, ?_, trivial⟩
      · intro s hs
        simp only [Tr.symbols, Finset.mem_singleton] at hs
        subst hs; exact ⟨x, hx⟩
      · exact ⟨"Y", y, rfl, hy⟩
  · refine .prod ?_
    intro s hs
    simp only [List.mem_cons, List.not_mem_nil, or_false] at hs
    rcases hs with rfl | rfl
    · exact .real rfl
    · exact .nominal

end Sppl
