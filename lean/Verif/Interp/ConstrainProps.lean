import Verif.Interp.Props
import Verif.Interp.Example
import Verif.Spe.DensityProps

/-!
# C58: programs that end in `Constrain`
-/

namespace Sppl
open Classical MeasureTheory Topology
open scoped ENNReal ProbabilityTheory

section
variable {o : Opts} (hc : o.c.Correct) {μ : Dist → Measure ℝ}
include hc

/-- **C58.** A program `p` followed by `Constrain(a)`: in the SPE that is returned the variables of `a` have their values, and

* if `a` has positive probability after `p`, then the SPE has the distribution of `p` given `a`;
* otherwise, where the densities are regular (`Spe.Smooth`, see `C32_density_partial`), it has the limit of the distributions of `p` given small boxes around `a`.

Missing from the full claim: variables derived from those in `a` are dropped (`C33_derived_dropped_wrong`), and nothing is said of commands after `Constrain`. -/
theorem C58_constrain_partial (hsimp : SimpOK o.c o.L μ o.simp) (hL : ∀ d x, 0 ≤ o.L.pdf d x) {p : Cmd} {a : Point} {s' : Spe} (hp : p.Safe o.c o.L μ start)
    (h : (Cmd.seq [p, .constrain a]).interp o none = .ok (some s')) :
    ∃ s, p.interp o none = .ok (some s) ∧ s.constrain o.L a = .ok s' ∧ ((∀ q ∈ a, q.1 ∈ s.symbols) →
      s'.WF o.c o.L μ ∧ s'.symbols ⊆ s.symbols ∧ (∀ q ∈ a, (s'.den μ).real {ω | ω q.1 = some q.2} = 1) ∧
      ∀ d w, s.pdfMem o.L a = .ok (d, w) →
        ((p.sem μ start) {ω | ∀ q ∈ a, ω q.1 = some q.2} ≠ 0 → ∀ A : Set Asg, MeasurableSet A → DepOn s'.symbols A →
          (s'.den μ).real A = ((p.sem μ start)[|{ω | ∀ q ∈ a, ω q.1 = some q.2}]).real A) ∧
        (s.Smooth o.L μ a → w ≠ 0 → ∀ b : Rect, b.Meas → (∀ q ∈ b, q.1 ∈ s'.symbols ∧ ∀ r ∈ a, r.1 ≠ q.1) →
          Filter.Tendsto (fun ε => ((p.sem μ start)[|{ω | ∀ q ∈ a, near ε q.2 (ω q.1)}]).real {ω | ∀ q ∈ b, ω q.1 ∈ q.2}) (𝓝[>] (0 : ℝ))
            (𝓝 ((s'.den μ).real {ω | ∀ q ∈ b, ω q.1 ∈ q.2})))) := by
  rw [Cmd.interp] at h
  simp only [Cmd.interpL, List.foldlM_cons, List.foldlM_nil, bind, Except.bind, pure, Except.pure] at h
  cases hr : p.interp o none with
  | error e => rw [hr] at h; cases h
  | ok r =>
    rw [hr] at h
    simp only at h
    cases r with
    | none => rw [Cmd.interp] at h; simp only [needSpe] at h; cases h
    | some s =>
      rw [Cmd.interp] at h
      simp only [needSpe, bind, Except.bind] at h
      cases hk : s.constrain o.L a with
      | error e => rw [hk] at h; cases h
      | ok t =>
        rw [hk] at h
        cases h
        obtain ⟨hd, hw⟩ := C30_program_partial hc hsimp hp hr
        refine ⟨s, rfl, hk, fun ha => ?_⟩
        obtain ⟨k1, k2, -, k4⟩ := C33_fixed hL hw ha hk
        refine ⟨k1, k2, k4, fun d w hpd => ⟨fun hne A hA hD => ?_, fun hsm hw0 b hb hv => ?_⟩⟩
        · rw [← hd] at hne ⊢
          have hne' : (s.den μ).real {ω | ∀ q ∈ a, ω q.1 = some q.2} ≠ 0 := by
            have := hw.prob
            rw [measureReal_def]
            exact (ENNReal.toReal_pos hne (measure_ne_top _ _)).ne'
          by_cases h0 : d = 0
          · subst h0
            exact C33_conditional hL hw ha hpd (by rw [C32_exact hw hpd]; exact hne') hk hA hD
          · exact absurd (C32_null hw hpd h0) hne'
        · rw [← hd]
          exact C33_limit_partial hL hw ha hsm hpd hw0 hk hb hv

/-- **C58.** It returns, with all variables, if there are no derived variables and no mixture weights zero after `p`, and the density at `a` is positive. -/
theorem C58_total_partial (hsimp : SimpOK o.c o.L μ o.simp) (hL : ∀ d x, 0 ≤ o.L.pdf d x) {p : Cmd} {a : Point} {s : Spe} {w : ℝ} (hp : p.Safe o.c o.L μ start)
    (h : p.interp o none = .ok (some s)) (hs : s.Plain) (ha : ∀ q ∈ a, q.1 ∈ s.symbols) (hw : s.pdf o.L a = .ok w) (hw0 : w ≠ 0) :
    ∃ s', (Cmd.seq [p, .constrain a]).interp o none = .ok (some s') ∧ s'.symbols = s.symbols := by
  obtain ⟨-, k2⟩ := C30_program_partial hc hsimp hp h
  obtain ⟨s', h1, h2⟩ := C33_total_partial hL k2 hs ha hw hw0
  refine ⟨s', ?_, h2⟩
  have e : (Cmd.constrain a).interp o (some s) = .ok (some s') := by
    rw [Cmd.interp]; simp only [needSpe, h1, bind, Except.bind]
  rw [Cmd.interp]
  simp only [Cmd.interpL, List.foldlM_cons, List.foldlM_nil, h, e, bind, Except.bind, pure, Except.pure]
end

/-! ## A program that meets the hypotheses -/

/-- `X >> uniform(1/2, 1)`; `Y >> coin`. -/
noncomputable def progD : Cmd := .seq [.sample "X" (.one (.real .cont d0 suppC)), .sample "Y" (.one coinD)]

/-- The settings of the example. -/
noncomputable def optsD : Opts := ⟨ctx0, libD, fun _ => 0, 5, .ok⟩

theorem progD_run : progD.interp optsD none = .ok (some pair) := by
  have d1 : (Source.one (.real .cont d0 suppC)).call optsD.L "X" = .ok (leafC "X") := by simp [Source.call, Distr.call, mkReal, leafC]; rfl
  have d2 : (Source.one coinD).call optsD.L "Y" = .ok (coin "Y") := by
    norm_num [Source.call, Distr.call, coinD, mkNominal, coin, mkNom, bind, Except.bind]
  have p1 : mkProd [leafC "X", coin "Y"] = .ok pair := by
    simp [mkProd, Spe.prodChildren, leafC, coin, areDisjoint, Spe.symbolsL, Spe.symbols, pair]
  have a1 : (Cmd.sample "X" (.one (.real .cont d0 suppC))).interp optsD none = .ok (some (leafC "X")) := by
    rw [Cmd.interp]; simp only [d1, bind, Except.bind]
  have a2 : (Cmd.sample "Y" (.one coinD)).interp optsD (some (leafC "X")) = .ok (some pair) := by
    rw [Cmd.interp]; simp only [d2, p1, bind, Except.bind]
  unfold progD
  rw [Cmd.interp]
  simp only [Cmd.interpL, List.foldlM_cons, List.foldlM_nil, a1, a2, bind, Except.bind, pure, Except.pure]

theorem progD_safe : progD.Safe ctx0 libD muD start := by
  simp only [progD, Cmd.Safe, Cmd.SafeS, and_true]
  refine ⟨.one (.real rfl distOK_d0 suppC_wf (by simp) ?_), .one (.nominal (by simp) ?_)⟩
  · rw [muD_d0, suppC_reals, Measure.restrict_apply measurableSet_Icc]; simp; norm_num
  · intro p hp; simp at hp; rcases hp with rfl | rfl <;> norm_num

/-- `X >> uniform(1/2, 1)`; `Y >> coin`; `Constrain({X: 1, Y: 'a'})`. -/
example : ∃ s', (Cmd.seq [progD, .constrain pairAt]).interp optsD none = .ok (some s') ∧ progD.Safe optsD.c optsD.L muD start ∧
    pair.Smooth optsD.L muD pairAt ∧ pair.pdfMem optsD.L pairAt = .ok (1, 1/2) := by
  obtain ⟨s', h, -⟩ := C58_total_partial (o := optsD) (μ := muD) ctx0_correct (simpOK_none _ _ _) libD_nonneg (a := pairAt) progD_safe progD_run pair_plain
    (by intro q hq; simp [pairAt] at hq; rcases hq with rfl | rfl <;> simp [pair, Spe.symbols, Spe.symbolsL, leafC, coin])
    (show pair.pdf libD pairAt = .ok (1/2) by simp only [Spe.pdf, pair_pdf, bind, Except.bind]) (by norm_num)
  exact ⟨s', h, progD_safe, pair_smooth, pair_pdf⟩

end Sppl
