import Verif.Dnf.KnownSpec
import Verif.Events.ValLemmas
import Verif.Spe.SolvedProps

set_option linter.all false

/-!
# C14, C18, C21, C22: comparisons of expressions with finite sets, and of several variables

The classes of `KnownSpec` meet the hypotheses of `SolvedProps`.
-/

namespace Sppl
open Classical MeasureTheory
open scoped ENNReal ProbabilityTheory

variable {c : Ctx} {L : Lib} {μ : Dist → Measure ℝ} {hash : Spe → ℤ} {s : Spe} {e : Ev} {Q : String → EReal → Prop}

/-- The comparisons are solved, to sets described by finite numbers. -/
theorem C61_known_solved (hc : c.Correct) (hl : c.Linear) {k : String} (h : e.Known Q k) : e.Solved c Q k := by
  cases h with
  | values hQ h =>
    obtain ⟨N, S, h1, h2⟩ := h.solve hc hl
    refine ⟨h.made, h.symbols, ?_, N, S, h2, ?_⟩
    · obtain ⟨t, V, rfl, -⟩ := h; exact ⟨t, rfl⟩
    · rcases h1 with rfl | ⟨W, -, h3, rfl⟩
      · trivial
      · intro w hw
        obtain ⟨x, rfl, -⟩ := h3 w hw
        exact ⟨EReal.coe_ne_bot x, EReal.coe_ne_top x, hQ _⟩
  | curve hQ h h' =>
    obtain ⟨N, S, ⟨h1, h2⟩, h3⟩ := CurveLit.solve hc hl ⟨h, h'⟩
    obtain ⟨t, -, hb, -⟩ := h.flat
    refine ⟨h.made, h.symbols, ⟨t, hb⟩, N, S, h3, ?_⟩
    cases h1 with
    | empty => trivial
    | ivl => exact ⟨fun _ => hQ _, fun _ => hQ _⟩
    | @one y =>
      intro w hw
      rw [Finset.mem_singleton.1 hw]
      have := h2 (.num y) (by simp)
      exact ⟨by rintro rfl; simp [Val.Proper] at this, by rintro rfl; simp [Val.Proper] at this, hQ _⟩
  | plain hb h =>
    obtain ⟨hv, ha⟩ := h.all
    obtain ⟨-, k', hk, hw⟩ := (Ev.all_lit hb).1 ha
    have : k' = k := by rw [hb] at hk; cases hk; rfl
    subst this
    exact ⟨h.made.1, by rw [symbols_of_basic hb]; rfl, ⟨_, hb⟩, 0, _, solve_var hb, hw⟩

theorem Ev.KnownAnd.solved (hc : c.Correct) (hl : c.Linear) (h : e.KnownAnd Q) : e.SolvedAnd c Q := by
  cases h with
  | lit h => exact .lit (C61_known_solved hc hl h)
  | and h1 h2 h3 => exact .and h1 h2 (fun p hp => C61_known_solved hc hl (h3 p hp))

theorem Ev.KnownDnf.solved (hc : c.Correct) (hl : c.Linear) (h : e.KnownDnf Q) : e.SolvedDnf c Q := by
  cases h with
  | conj h => exact .conj (h.solved hc hl)
  | or h1 h2 => exact .or h1 (fun e he => (h2 e he).solved hc hl)

/-- **C18 (`prob` returns on conjunctions of comparisons of expressions of different variables, finite sets included).** -/
theorem C18_known_total (hc : c.Correct) (hl : c.Linear) (hs : s.WF c L μ) (hw : s.Wide) (he : e.KnownDnf (fun _ _ => True)) (hb : s.BaseOn e.symbols)
    (hsym : e.symbols ⊆ s.symbols) (hn : e.NomFree s.atomSyms) (hr : ∀ᵐ ω ∂(s.den μ), e.Regular ω) :
    ∃ N, ∀ n, N ≤ n → s.prob c L n e = .ok ((s.den μ).real {ω | e.holds ω}) :=
  C18_solved_total hc hs hw (he.solved hc hl) hb hsym hn hr

/-- **C21 (`condition` returns on these events).** -/
theorem C21_known_total (hc : c.Correct) (hl : c.Linear) {E : String → Env} (hs : s.WF c L μ) (hE : s.Ready E) (hw : s.Wide) (he : e.KnownDnf s.Whole) (hb : s.BaseOn e.symbols)
    (hsym : e.symbols ⊆ s.symbols) (hn : e.NomFree s.atomSyms) (hr : ∀ᵐ ω ∂(s.den μ), e.Regular ω) (hk : ∀ᵐ ω ∂(s.den μ), e.Suits ω) (hm : 0 < s.den μ {ω | e.holds ω}) :
    ∃ N, ∀ n, N ≤ n → ∃ s', s.condition c L hash n e = .ok s' ∧ s'.den μ = (s.den μ)[|{ω | e.holds ω}] :=
  C21_solved_total hc hs hE hw (he.solved hc hl) hb hsym hn hr hk hm

/-- Non-vacuity: `(abs(X) << {1/2, 1/3}) & (Y == 'b') | (Y == 'a')` on the uniform variable and the coin. -/
noncomputable def knownEv : Ev := .or [.and [.fin (.abs (.id "X")) (some {((1 / 2 : ℝ) : EReal), ((1 / 3 : ℝ) : EReal)}), strEv "Y" "b"], strEv "Y" "a"]

theorem knownEv_known (Q : String → EReal → Prop) (hQ : ∀ x, Q "X" x) : knownEv.KnownDnf Q := by
  have hs : ∀ y, (strEv "Y" y).Known Q "Y" := fun y => .plain rfl (.nom (by simp [Nom.WF]))
  refine .or (by simp) ?_
  intro e he
  simp only [List.mem_cons, List.not_mem_nil, or_false] at he
  rcases he with rfl | rfl
  · refine .and (m := [("X", .fin (.abs (.id "X")) (some {((1 / 2 : ℝ) : EReal), ((1 / 3 : ℝ) : EReal)})), ("Y", strEv "Y" "b")]) (by simp) (by simp) ?_
    intro p hp
    simp only [List.mem_cons, List.not_mem_nil, or_false] at hp
    rcases hp with rfl | rfl
    · refine .values hQ ⟨_, _, rfl, .abs .id, by simp, ?_⟩
      have key : ∀ y, ¬ Tr.Zero (.abs (.id "X")) y := by
        intro y h; cases h with
        | abs _ h => cases h
        | abs_neg _ h => cases h
      intro v hv
      simp only [Finset.mem_insert, Finset.mem_singleton] at hv
      rcases hv with rfl | rfl
      · exact ⟨_, rfl, key _⟩
      · exact ⟨_, rfl, key _⟩
    · exact hs _
  · exact .lit (hs _)

/-- The hypotheses are met. -/
example : ctx0.Correct ∧ ctx0.Linear ∧ unifCoin.WF ctx0 (libOf muU) muU ∧ unifCoin.Wide ∧ knownEv.KnownDnf (fun _ _ => True) ∧ knownEv.KnownDnf unifCoin.Whole ∧
    unifCoin.BaseOn knownEv.symbols ∧ knownEv.symbols ⊆ unifCoin.symbols ∧ knownEv.NomFree unifCoin.atomSyms ∧
    (∀ᵐ ω ∂(unifCoin.den muU), knownEv.Regular ω) ∧ (∀ᵐ ω ∂(unifCoin.den muU), knownEv.Suits ω) ∧ 0 < unifCoin.den muU {ω | knownEv.holds ω} ∧ unifCoin.Ready (fun _ => []) := by
  have hsym : knownEv.symbols ⊆ unifCoin.symbols := by
    simp [knownEv, unifCoin, strEv, Ev.symbols, Ev.symbolsL, Tr.symbols, Spe.symbols, Spe.symbolsL, leafX, coin]
  refine ⟨ctx0_correct, ctx0_linear, unifCoin_wf, .prod, knownEv_known _ (by simp), knownEv_known _ (fun x => Or.inl ?_), .prod ?_, hsym, ?_, Filter.Eventually.of_forall ?_, ?_,
    unifCoin_a (fun ω h => (Ev.holds_or ω _).2 ⟨strEv "Y" "a", by simp, h⟩), ?_⟩
  · refine .prod ?_
    intro s hs
    simp only [List.mem_cons, List.not_mem_nil, or_false] at hs
    rcases hs with rfl | rfl
    · exact .real (by simp)
    · exact .nominal
  · intro s hs
    simp only [List.mem_cons, List.not_mem_nil, or_false] at hs
    rcases hs with rfl | rfl
    · refine .real ?_; intro s _ hs; simpa using hs
    · exact .nominal
  · simp [knownEv, unifCoin, strEv, Ev.NomFree, Ev.NomFreeL, Spe.atomSyms, Spe.atomSymsL, leafX, coin]
  · intro ω; simp [knownEv, strEv, Ev.Regular, Ev.RegularL, Tr.Regular]
  · refine suits_of_kinded (K := fun k => decide (k = "X")) unifCoin_wf ?_ hsym ?_
    · refine .prod ?_
      intro s hs
      simp only [List.mem_cons, List.not_mem_nil, or_false] at hs
      rcases hs with rfl | rfl
      · refine .real (Filter.Eventually.of_forall ?_)
        intro x p hp
        simp only [List.mem_cons, List.not_mem_nil, or_false] at hp
        subst hp
        simp only [decide_true]
        exact ⟨x, by simp [Env.extend, Tr.eval, baseAsg]⟩
      · exact .nominal (by decide)
    · intro ω h
      obtain ⟨x, hx⟩ := h "X" (by simp [knownEv, Ev.symbols, Ev.symbolsL, Tr.symbols])
      obtain ⟨y, hy⟩ := h "Y" (by simp [knownEv, strEv, Ev.symbols, Ev.symbolsL, Tr.symbols])
      refine ⟨⟨?_, ?_, trivial⟩, ?_, trivial⟩
      · intro s hs
        simp only [Tr.symbols, Finset.mem_singleton] at hs
        subst hs; exact ⟨x, hx⟩
      · exact ⟨"Y", y, rfl, hy⟩
      · exact ⟨"Y", y, rfl, hy⟩
  · refine .prod ?_
    intro s hs
    simp only [List.mem_cons, List.not_mem_nil, or_false] at hs
    rcases hs with rfl | rfl
    · exact .real rfl
    · exact .nominal

end Sppl
