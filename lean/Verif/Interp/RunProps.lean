import Verif.Interp.TotLemmas
import Verif.Interp.Example
import Verif.Spe.TotalProps

set_option linter.all false

/-!
# Property C52: well-scoped programs run
-/

namespace Sppl
open Classical MeasureTheory
open scoped ENNReal ProbabilityTheory

section
variable {o : Opts} (hc : o.c.Correct) {μ : Dist → Measure ℝ}
include hc

/-- The two ways in which mixtures are simplified. -/
theorem runs_state (hsimp : o.simp = .ok ∨ o.simp = simplifySum o.hash) {p : Cmd} {Δ : Scope} (hp : p.Safe o.c o.L μ start) (h : Runs o.c μ .start start p Δ) :
    ∃ N s, (∀ n, N ≤ n → p.interp { o with n := n } none = .ok s) ∧ StateO o.c o.L μ Δ (p.sem μ start) s := by
  have key : ∀ simp, SimpOK o.c o.L μ simp → SimpRuns o.c o.L μ simp →
      ∃ N s, (∀ n, N ≤ n → p.interp { o with n := n, simp := simp } none = .ok s) ∧ StateO o.c o.L μ Δ (p.sem μ start) s := by
    intro simp h1 h2
    obtain ⟨N, s', k1, k2, -⟩ := runs_total (o := { o with simp := simp }) hc h1 h2 h hp none ⟨rfl, rfl⟩
    exact ⟨N, s', k1, k2⟩
  rcases hsimp with h0 | h0
  · have := key .ok (simpOK_none _ _ _) simpRuns_none
    rw [← h0] at this
    exact this
  · obtain ⟨N, s, k1, k2⟩ := key (guarded o.hash) (simpOK_guarded _ _ _ _) (simpRuns_guarded _)
    refine ⟨N, s, fun n hn => ?_, k2⟩
    have := interp_mono (o := { o with n := n, simp := guarded o.hash }) (simp' := simplifySum o.hash) (fun s s' h => by
      simp only [guarded] at h
      split at h
      · exact h
      · cases h) _ _ _ (k1 n hn)
    rw [← h0] at this
    exact this

/-- **C52.** A program that runs by the rules of `Runs` is interpreted without an exception, with `SPPL_NO_SIMPLIFY` or without it, if the recursion limit is
large enough.  The result does not depend on the limit, has the variables of the scope, and denotes the distribution that the program describes. -/
theorem C52_returns_partial (hsimp : o.simp = .ok ∨ o.simp = simplifySum o.hash) {p : Cmd} {Δ : Scope} (hp : p.Safe o.c o.L μ start) (h : Runs o.c μ .start start p Δ) (hv : Δ.vars ≠ ∅) :
    ∃ N s, (∀ n, N ≤ n → p.interp { o with n := n } none = .ok (some s)) ∧ s.symbols = Δ.vars ∧ s.den μ = p.sem μ start ∧ s.WF o.c o.L μ := by
  obtain ⟨N, s', k1, k2⟩ := runs_state hc hsimp hp h
  cases s' with
  | none => exact (hv k2.2).elim
  | some s => exact ⟨N, s, k1, State.vars k2, (State.rep k2).den, (State.rep k2).wf⟩

/-- **C52 (queries).** After the program, `prob` answers questions about the variables in scope with the probability that the program gives to the event, and
`condition` returns the conditional distribution if that probability is positive. -/
theorem C52_answers_partial (hsimp : o.simp = .ok ∨ o.simp = simplifySum o.hash) {p : Cmd} {Δ : Scope} (hp : p.Safe o.c o.L μ start) (h : Runs o.c μ .start start p Δ) {e : Ev} (he : Δ.Plain e)
    (hf : e.Fits o.c (p.sem μ start)) (ht : Δ.tall = true ∨ e.Single) :
    ∃ N s, (∀ n, N ≤ n → p.interp { o with n := n } none = .ok (some s)) ∧ (∀ n, s.prob o.c o.L n e = .ok ((p.sem μ start).real {ω | e.holds ω})) ∧
      (p.sem μ start {ω | e.holds ω} ≠ 0 → ∃ N s', (∀ n, N ≤ n → s.condition o.c o.L o.hash n e = .ok s') ∧ s'.den μ = (p.sem μ start)[|{ω | e.holds ω}]) := by
  obtain ⟨N, s', k1, k2⟩ := runs_state hc hsimp hp h
  cases s' with
  | none => rw [k2.1] at hf; exact (not_start hf.usable).elim
  | some s =>
    refine ⟨N, s, k1, fun n => State.prob hc k2 he hf.usable ht n, fun h0 => ?_⟩
    obtain ⟨N, s', a1, a2⟩ := State.condition (hash := o.hash) hc k2 (.inl ⟨he, ht⟩) hf.usable h0
    exact ⟨N, s', a1, a2.rep.den⟩

/-- **C52 (queries about derived variables).** Likewise for conjunctions of comparisons of variables that were derived by increasing and decreasing expressions, if
polynomials of degree one are solved; then also `prob` needs a large enough recursion limit. -/
theorem C52_derived_partial (hsimp : o.simp = .ok ∨ o.simp = simplifySum o.hash) {p : Cmd} {Δ : Scope} (hp : p.Safe o.c o.L μ start) (h : Runs o.c μ .start start p Δ) {e : Ev} (hl : o.c.Linear) (he : Δ.Bent e)
    (hf : e.Fits o.c (p.sem μ start)) :
    ∃ N s, (∀ n, N ≤ n → p.interp { o with n := n } none = .ok (some s)) ∧ (∀ n, N ≤ n → s.prob o.c o.L n e = .ok ((p.sem μ start).real {ω | e.holds ω})) ∧
      (p.sem μ start {ω | e.holds ω} ≠ 0 → ∃ N s', (∀ n, N ≤ n → s.condition o.c o.L o.hash n e = .ok s') ∧ s'.den μ = (p.sem μ start)[|{ω | e.holds ω}]) := by
  obtain ⟨N, s', k1, k2⟩ := runs_state hc hsimp hp h
  cases s' with
  | none => rw [k2.1] at hf; exact (not_start hf.usable).elim
  | some s =>
    obtain ⟨N', hN'⟩ := State.asks hc k2 (.inr ⟨hl, he⟩) hf.usable
    refine ⟨max N N', s, fun n hn => k1 n (by omega), fun n hn => hN' n (by omega), fun h0 => ?_⟩
    obtain ⟨N, s', a1, a2⟩ := State.condition (hash := o.hash) hc k2 (.inr ⟨hl, he⟩) hf.usable h0
    exact ⟨N, s', a1, a2.rep.den⟩
end

/-! ## Non-vacuity -/

/-- `X >> uniform(0, 1)`; `Y >> coin`; `condition((X < 1/2) | (Y == 'a'))`; `if Y == 'a': Z >> coin`, `else: Z >> {'z': 1}`. -/
noncomputable def prog1 : Cmd := .seq [.sample "X" (.one (.real .cont d0 unitIvl)), .sample "Y" (.one coinD), .condition unifCoinEv,
  .ifelse [strEv "Y" "a"] true [.sample "Z" (.one coinD), .sample "Z" (.one (.nominal [("z", 1)]))]]

theorem unifD_wf : (Distr.real .cont d0 unitIvl).WF (libOf muU) muU := .real rfl (distOK_unif _) unitIvl_wf (by intro h; cases h) (by rw [unitIvl_reals]; simp [muU, unif])
theorem coinD_wf : coinD.WF (libOf muU) muU := .nominal (by simp) (by simp)

/-- The distribution after the two samples. -/
theorem prog1_two : withIndep "Y" ((Source.one coinD).law muU "Y") (withIndep "X" ((Source.one (.real .cont d0 unitIvl)).law muU "X") start) = unifCoin.den muU := by
  have d1 : (Source.one coinD).call (libOf muU) "Y" = .ok (coin "Y") := by norm_num [Source.call, coinD, Distr.call, mkNominal, mkNom, bind, Except.bind, coin]
  have d2 : (Source.one (.real .cont d0 unitIvl)).call (libOf muU) "X" = .ok (leafX "X") := by simp [Source.call, Distr.call, mkReal, leafX]; rfl
  have p1 : mkProd [leafX "X", coin "Y"] = .ok unifCoin := by
    simp [mkProd, Spe.prodChildren, leafX, coin, areDisjoint, Spe.symbolsL, Spe.symbols, unifCoin]
  have h1 : RepO ctx0 (libOf muU) muU _ (some (leafX "X")) := sample_ok (o := opts0) (X := "X") (μ := muU) (.one unifD_wf) start none (some (leafX "X")) rfl (by
    simp only [Cmd.interp, show opts0.L = libOf muU from rfl, d2, bind, Except.bind])
  have h2 : RepO ctx0 (libOf muU) muU _ (some unifCoin) := sample_ok (o := opts0) (X := "Y") (μ := muU) (.one coinD_wf) _ (some (leafX "X")) (some unifCoin) h1 (by
    simp only [Cmd.interp, show opts0.L = libOf muU from rfl, d1, p1, bind, Except.bind])
  exact (Rep.den h2).symm

theorem unifCoin_kinds : ∀ᵐ ω ∂(unifCoin.den muU), (∃ x, ω "X" = some (.num x)) ∧ ∃ y, ω "Y" = some (.str y) := by
  have := unifCoin_wf.kind (K := fun k => decide (k = "X")) (μ := muU) (by
    refine .prod ?_
    intro s hs
    simp only [List.mem_cons, List.not_mem_nil, or_false] at hs
    rcases hs with rfl | rfl
    · refine .real (Filter.Eventually.of_forall ?_)
      intro x p hp
      simp only [List.mem_cons, List.not_mem_nil, or_false] at hp
      subst hp
      simp only [decide_true]
      exact ⟨x, by simp [Env.extend, Tr.eval, baseAsg]⟩
    · exact .nominal (by decide))
  filter_upwards [this] with ω hω
  exact ⟨hω "X" (by simp [unifCoin, Spe.symbols, Spe.symbolsL, leafX]), hω "Y" (by simp [unifCoin, Spe.symbols, Spe.symbolsL, coin])⟩

theorem prog1_safe : prog1.Safe ctx0 (libOf muU) muU start := by
  unfold prog1
  simp only [Cmd.Safe, Cmd.SafeS, Cmd.sem, Cmd.SafeB, condSets, firsts, List.map_cons, List.map_nil, List.cons_append, List.nil_append, if_true, and_true]
  rw [prog1_two]
  refine ⟨.one unifD_wf, .one coinD_wf, ?_, ?_, fun _ => .one coinD_wf, fun _ => .one (.nominal (by simp) (by simp))⟩
  · refine ⟨(unifCoinEv_simple (fun _ _ => True) trivial).made.1, by simp [unifCoinEv, strEv, NomId, Tr.isId], by simp [unifCoinEv, strEv, NomSome],
      Filter.Eventually.of_forall (Ev.Simple.made (c := ctx0) (unifCoinEv_simple (fun _ _ => True) trivial)).2, ?_⟩
    filter_upwards [unifCoin_kinds] with ω hω
    obtain ⟨⟨x, hx⟩, y, hy⟩ := hω
    exact ⟨⟨x, hx⟩, ⟨y, hy⟩, trivial⟩
  · intro e he
    simp only [List.mem_cons, List.not_mem_nil, or_false] at he
    subst he
    refine ⟨strEv_made _ _ _, by simp [strEv, Ev.All, NomId, Tr.isId], by simp [strEv, Ev.All, NomSome], by filter_upwards with ω; simp [strEv, Ev.Regular, Tr.Regular], ?_⟩
    refine (ProbabilityTheory.cond_absolutelyContinuous).ae_le ?_
    filter_upwards [unifCoin_kinds] with ω hω
    simpa [strEv, Ev.Typed, Tr.eval] using hω.2

theorem prog1_runs : ∃ Δ : Scope, Δ.vars = {"X", "Y", "Z"} ∧ Runs ctx0 muU .start start prog1 Δ := by
  have hp := unifCoin_wf.prob (μ := muU)
  refine ⟨⟨{"X", "Y", "Z"}, {"X", "Y", "Z"}, {"X", "Y", "Z"}, ∅, true, ∅⟩, rfl, ?_⟩
  have hG : Scope.Less ⟨{"X", "Y"}, {"X", "Y"}, {"X", "Y"}, ∅, true, ∅⟩ ((Scope.start.add "X" (.one (.real .cont d0 unitIvl))).add "Y" (.one coinD)) := by
    constructor <;> simp [Scope.add, Scope.start, Source.Every, Distr.NotDisc, coinD, Finset.pair_comm]
  have hX : Scope.Whole ⟨{"X", "Y"}, {"X", "Y"}, {"X", "Y"}, ∅, true, ∅⟩ "X" ((1 / 2 : ℝ) : EReal) := .inl (by simp)
  refine .cons (.sample (by simp [Scope.start]) (by simp [Source.Callable, Distr.Callable])) (.cons (.less (.sample (by simp [Scope.start, Scope.add]) ?_) hG) ?_)
  · norm_num [Source.Callable, coinD, Distr.Callable]
  simp only [Cmd.sem]
  rw [prog1_two]
  refine .cons (.condition (.inl ⟨⟨unifCoinEv_simple _ hX, ?_⟩, .inl rfl⟩) unifCoin_mass.ne') (.cons (.ifelse (by simp) (.inl ⟨?_, .inl rfl⟩) (by simp [condSets]) ?_ rfl ?_) .nil)
  · simp [unifCoinEv, strEv, Ev.symbols, Ev.symbolsL, Tr.symbols]
  · intro e he
    simp only [List.mem_cons, List.not_mem_nil, or_false] at he
    subst he
    exact ⟨.nom (by simp [Nom.WF]), by simp [strEv, Ev.symbols, Tr.symbols]⟩
  · exact Filter.Eventually.of_forall (fun ω => ⟨Set.univ, by simp [condSets], trivial⟩)
  · intro q hq _
    simp only [condSets, firsts, List.map_cons, List.map_nil, List.cons_append, List.nil_append, if_true, List.zip_cons_cons, List.zip_nil_right, List.mem_cons, List.not_mem_nil, or_false] at hq
    rcases hq with rfl | rfl
    · refine .less (.sample (by simp) ?_) ?_
      · norm_num [Source.Callable, coinD, Distr.Callable]
      · constructor <;> simp [Scope.add, Source.Every, Distr.NotDisc, coinD] <;> decide
    · refine .less (.sample (by simp) ?_) ?_
      · norm_num [Source.Callable, Distr.Callable]
      · constructor <;> simp [Scope.add, Source.Every, Distr.NotDisc] <;> decide

/-- C52: `prog1` meets the hypotheses. -/
example : ∃ N s, (∀ n, N ≤ n → prog1.interp { opts0 with n := n } none = .ok (some s)) ∧ s.symbols = {"X", "Y", "Z"} ∧ s.den muU = prog1.sem muU start := by
  obtain ⟨Δ, h1, h2⟩ := prog1_runs
  obtain ⟨N, s, k1, k2, k3, -⟩ := C52_returns_partial (o := opts0) ctx0_correct (.inl rfl) prog1_safe h2 (by rw [h1]; simp)
  exact ⟨N, s, k1, k2.trans h1, k3⟩

end Sppl
