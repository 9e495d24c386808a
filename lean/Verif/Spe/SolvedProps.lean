import Verif.Dnf.SolvedLemmas
import Verif.Spe.CurveProps
import Verif.Spe.OpenProps

set_option linter.all false

/-!
# C14, C18, C21, C22: conjunctions of comparisons whose solutions have several parts

The events are disjunctions of conjunctions of comparisons of expressions of different variables.  The only condition on a
comparison is that `solve` solves it, to a set described by finite numbers: this holds for absolute values and reciprocals,
and for polynomials wherever their equations are solved.
-/

namespace Sppl
open Classical MeasureTheory
open scoped ENNReal ProbabilityTheory

variable {c : Ctx} (hc : c.Correct) {L : Lib} {μ : Dist → Measure ℝ} {hash : Spe → ℤ} {s : Spe} {e : Ev}

include hc

/-- **C14 (`dnf_normalize` returns on conjunctions of solvable comparisons).** From some depth of the stack on, the result
does not depend on it, and compares variables directly with sets described by finite numbers. -/
theorem C14_solved_total {Q : String → EReal → Prop} (he : e.SolvedDnf c Q) :
    ∃ N o, (∀ n, N ≤ n → dnfNormalize c n e = .ok o) ∧ ∀ r, o = some r → r.Simple Q := by
  obtain ⟨N, o, h1, h2⟩ := dnfNormalize_solved hc he
  exact ⟨N, o, h1, fun r hr => (Ev.simple_iff r).2 ⟨(h2 r hr).2.1, (h2 r hr).2.2.1⟩⟩

/-- **C18 (`prob` returns on conjunctions of solvable comparisons).** For a product or a mixture of products of any size and
depth, `prob` returns the probability of the event, from some depth of the stack on. -/
theorem C18_solved_total (hs : s.WF c L μ) (hw : s.Wide) (he : e.SolvedDnf c (fun _ _ => True)) (hb : s.BaseOn e.symbols) (hsym : e.symbols ⊆ s.symbols)
    (hn : e.NomFree s.atomSyms) (hr : ∀ᵐ ω ∂(s.den μ), e.Regular ω) :
    ∃ N, ∀ n, N ≤ n → s.prob c L n e = .ok ((s.den μ).real {ω | e.holds ω}) := by
  obtain ⟨N, hN⟩ := prob_norm (L := L) hc hw.not_leaf he.made (dnfNormalize_solved hc he) hsym hn (fun n F _ hF => probMem_wide_total hc hw hs hb F (fun m hm => (hF m hm).1))
  refine ⟨N, fun n hn' => ?_⟩
  obtain ⟨p, hp⟩ := hN n hn'
  have ha : s.CanAsk c e := by cases hw <;> exact ⟨he.made, hn⟩
  rw [hp, C18_prob_partial hc hs ha hsym hr hp]

/-- **C21, C22 (`condition` returns on conjunctions of solvable comparisons).** If the event has positive probability,
`condition` returns the conditional distribution, from some depth of the stack on. -/
theorem C21_solved_total {E : String → Env} (hs : s.WF c L μ) (hE : s.Ready E) (hw : s.Wide) (he : e.SolvedDnf c s.Whole) (hb : s.BaseOn e.symbols) (hsym : e.symbols ⊆ s.symbols)
    (hn : e.NomFree s.atomSyms) (hr : ∀ᵐ ω ∂(s.den μ), e.Regular ω) (hk : ∀ᵐ ω ∂(s.den μ), e.Suits ω) (hm : 0 < s.den μ {ω | e.holds ω}) :
    ∃ N, ∀ n, N ≤ n → ∃ s', s.condition c L hash n e = .ok s' ∧ s'.den μ = (s.den μ)[|{ω | e.holds ω}] := by
  obtain ⟨N, hN⟩ := condition_norm (L := L) (hash := hash) hc hs hE hw.not_leaf he.made (dnfNormalize_solved hc he) hr hsym hn hk hm.ne'
    (fun n F _ hF => probMem_wide_total hc hw hs hb F (fun m hm => (hF m hm).1))
    (fun n F hne hF hd h0 => condMem_wide_total hc hw hs hE hb F hne (fun m hm => (hF m hm).1) (fun m hm => (hF m hm).2) hd h0)
  refine ⟨N, fun n hn' => ?_⟩
  obtain ⟨s', h⟩ := hN n hn'
  have ha : s.CanAsk c e := by cases hw <;> exact ⟨he.made, hn⟩
  exact ⟨s', h, C21_condition_partial hc ⟨hs, hE, ⟨ha, hsym, hr⟩, Or.inr hk⟩ h⟩

/-- **C22 (`condition` returns exactly on events of positive probability).** -/
theorem C22_solved_iff {E : String → Env} (hs : s.WF c L μ) (hE : s.Ready E) (hw : s.Wide) (he : e.SolvedDnf c s.Whole) (hb : s.BaseOn e.symbols) (hsym : e.symbols ⊆ s.symbols)
    (hn : e.NomFree s.atomSyms) (hr : ∀ᵐ ω ∂(s.den μ), e.Regular ω) (hk : ∀ᵐ ω ∂(s.den μ), e.Suits ω) :
    ∃ N, ∀ n, N ≤ n → ((∃ s', s.condition c L hash n e = .ok s') ↔ 0 < s.den μ {ω | e.holds ω}) := by
  by_cases hm : 0 < s.den μ {ω | e.holds ω}
  · obtain ⟨N, hN⟩ := C21_solved_total hc hs hE hw he hb hsym hn hr hk hm
    exact ⟨N, fun n hn' => ⟨fun _ => hm, fun _ => by obtain ⟨s', h, -⟩ := hN n hn'; exact ⟨s', h⟩⟩⟩
  · refine ⟨0, fun n _ => ⟨?_, fun h => absurd h hm⟩⟩
    rintro ⟨s', h⟩
    have ha : s.CanAsk c e := by cases hw <;> exact ⟨he.made, hn⟩
    exact C22_positive_partial hc ⟨hs, hE, ⟨ha, hsym, hr⟩, Or.inr hk⟩ h

omit hc

/-! ## Non-vacuity -/

/-- `(abs(X) >= 1) & (Y == 'b') | (Y == 'a')`. -/
noncomputable def solvedEv : Ev := .or [.and [absGe, strEv "Y" "b"], strEv "Y" "a"]

theorem strEv_solved (Q : String → EReal → Prop) (Y y : String) : (strEv Y y).Solved ctx0 Q Y :=
  ⟨(vars_made (A := {Y}) (.nom (by simp [Nom.WF])) (.lit rfl ⟨Y, by simp, rfl⟩)).1, rfl, ⟨_, rfl⟩, 0, _, solve_var rfl, trivial⟩

theorem absGe_solved (Q : String → EReal → Prop) (hQ : ∀ x, Q "X" x) : absGe.Solved ctx0 Q "X" := by
  refine ⟨(Ev.PeakLit.ivl (.abs .id) geI_wf).made, rfl, ⟨_, rfl⟩, 4, _, absGe_solve 0, ?_⟩
  intro p hp
  simp only [absUn, List.mem_cons, List.not_mem_nil, or_false] at hp
  rcases hp with rfl | rfl <;> exact ⟨fun _ => hQ _, fun _ => hQ _⟩

theorem solvedEv_solved (Q : String → EReal → Prop) (hQ : ∀ x, Q "X" x) : solvedEv.SolvedDnf ctx0 Q := by
  refine .or (by simp) ?_
  intro e he
  simp only [List.mem_cons, List.not_mem_nil, or_false] at he
  rcases he with rfl | rfl
  · refine .and (m := [("X", absGe), ("Y", strEv "Y" "b")]) (by simp) (by simp) ?_
    intro p hp
    simp only [List.mem_cons, List.not_mem_nil, or_false] at hp
    rcases hp with rfl | rfl
    · exact absGe_solved Q hQ
    · exact strEv_solved Q _ _
  · exact .lit (strEv_solved Q _ _)

/-- The hypotheses are met by the uniform variable and the coin. -/
example : ctx0.Correct ∧ unifCoin.WF ctx0 (libOf muU) muU ∧ unifCoin.Wide ∧ solvedEv.SolvedDnf ctx0 (fun _ _ => True) ∧
    solvedEv.SolvedDnf ctx0 unifCoin.Whole ∧ unifCoin.BaseOn solvedEv.symbols ∧ solvedEv.symbols ⊆ unifCoin.symbols ∧ solvedEv.NomFree unifCoin.atomSyms ∧
    (∀ᵐ ω ∂(unifCoin.den muU), solvedEv.Regular ω) ∧ (∀ᵐ ω ∂(unifCoin.den muU), solvedEv.Suits ω) ∧ 0 < unifCoin.den muU {ω | solvedEv.holds ω} ∧
    unifCoin.Ready (fun _ => []) := by
  have hsym : solvedEv.symbols ⊆ unifCoin.symbols := by
    simp [solvedEv, absGe, unifCoin, strEv, Ev.symbols, Ev.symbolsL, Tr.symbols, Spe.symbols, Spe.symbolsL, leafX, coin]
  refine ⟨ctx0_correct, unifCoin_wf, .prod, solvedEv_solved _ (by simp), solvedEv_solved _ (fun x => Or.inl ?_), .prod ?_, hsym, ?_, Filter.Eventually.of_forall ?_, ?_,
    unifCoin_a (fun ω h => (Ev.holds_or ω _).2 ⟨strEv "Y" "a", by simp, h⟩), ?_⟩
  · refine .prod ?_
    intro s hs
    simp only [List.mem_cons, List.not_mem_nil, or_false] at hs
    rcases hs with rfl | rfl
    · exact .real (by simp)
    · exact .nominal
  · intro s hs
    simp only [List.mem_cons, List.not_mem_nil, or_false] at hs
    rcases hs with rfl | rfl
    · refine .real ?_; intro s _ hs; simpa using hs
    · exact .nominal
  · simp [solvedEv, absGe, unifCoin, strEv, Ev.NomFree, Ev.NomFreeL, Spe.atomSyms, Spe.atomSymsL, leafX, coin]
  · intro ω; simp [solvedEv, absGe, strEv, Ev.Regular, Ev.RegularL, Tr.Regular]
  · refine suits_of_kinded (K := fun k => decide (k = "X")) unifCoin_wf ?_ hsym ?_
    · refine .prod ?_
      intro s hs
      simp only [List.mem_cons, List.not_mem_nil, or_false] at hs
      rcases hs with rfl | rfl
      · refine .real (Filter.Eventually.of_forall ?_)
        intro x p hp
        simp only [List.mem_cons, List.not_mem_nil, or_false] at hp
        subst hp
        simp only [decide_true]
        exact ⟨x, by simp [Env.extend, Tr.eval, baseAsg]⟩
      · exact .nominal (by decide)
    · intro ω h
      obtain ⟨x, hx⟩ := h "X" (by simp [solvedEv, absGe, Ev.symbols, Ev.symbolsL, Tr.symbols])
      obtain ⟨y, hy⟩ := h "Y" (by simp [solvedEv, strEv, Ev.symbols, Ev.symbolsL, Tr.symbols])
      refine ⟨⟨?_, ?_, trivial⟩, ?_, trivial⟩
      · intro s hs
        simp only [Tr.symbols, Finset.mem_singleton] at hs
        subst hs; exact ⟨x, hx⟩
      · exact ⟨"Y", y, rfl, hy⟩
      · exact ⟨"Y", y, rfl, hy⟩
  · refine .prod ?_
    intro s hs
    simp only [List.mem_cons, List.not_mem_nil, or_false] at hs
    rcases hs with rfl | rfl
    · exact .real rfl
    · exact .nominal

end Sppl
