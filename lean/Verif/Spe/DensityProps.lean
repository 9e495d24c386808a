import Verif.Spe.DensityExample

set_option linter.all false

/-!
# Properties of `logpdf` and `constrain`
-/

namespace Sppl
open Classical MeasureTheory Topology
open scoped ENNReal ProbabilityTheory

section
variable {c : Ctx} {L : Lib} {μ : Dist → Measure ℝ} {s s' : Spe} {a : Point} {d : ℕ} {w : ℝ}

/-! ## C32: densities -/

/-- C32, dimension 0: the density of a (full or partial) assignment is its probability. -/
theorem C32_exact (hs : s.WF c L μ) (h : s.pdfMem L a = .ok (0, w)) : w = (s.den μ).real {ω | ∀ p ∈ a, ω p.1 = some p.2} :=
  ((pdf_exact s hs a (0, w) h).1 rfl).symm

/-- C32, positive dimension: the assignment has probability 0. -/
theorem C32_null (hs : s.WF c L μ) (h : s.pdfMem L a = .ok (d, w)) (hd : d ≠ 0) : (s.den μ).real {ω | ∀ p ∈ a, ω p.1 = some p.2} = 0 :=
  (pdf_exact s hs a (d, w) h).2 hd

/-- C32: a positive density is the limit of the probability of boxes around the assignment, by their volume.  Missing from the full claim:
mixture weights are positive, and the densities that scipy reports are those of the distributions near the assigned values, which are not
end points of the support of a conditioned leaf (`Spe.Smooth`).  With mixture weights zero the density may be wrong (see below). -/
theorem C32_density_partial (hs : s.WF c L μ) (ha : s.Smooth L μ a) (h : s.pdfMem L a = .ok (d, w)) (hw : w ≠ 0) :
    Filter.Tendsto (fun ε => (s.den μ).real {ω | ∀ p ∈ a, near ε p.2 (ω p.1)} / (2 * ε) ^ d) (𝓝[>] (0 : ℝ)) (𝓝 w) :=
  (pdf_lim s hs a (d, w) ha h).lim hw

/-- C32: where the density is zero, the probability of small boxes is zero. -/
theorem C32_zero_partial (hs : s.WF c L μ) (ha : s.Smooth L μ a) (h : s.pdfMem L a = .ok (d, 0)) :
    ∀ᶠ ε in 𝓝[>] (0 : ℝ), (s.den μ).real {ω | ∀ p ∈ a, near ε p.2 (ω p.1)} = 0 :=
  (pdf_lim s hs a (d, 0) ha h).zero rfl

/-- C32: the dimension that goes with a positive density is the only one for which the limit is finite and positive. -/
theorem C32_dimension_partial (hs : s.WF c L μ) (ha : s.Smooth L μ a) (h : s.pdfMem L a = .ok (d, w)) (hw : w ≠ 0) {d' : ℕ} {w' : ℝ} (hw' : w' ≠ 0)
    (h' : Filter.Tendsto (fun ε => (s.den μ).real {ω | ∀ p ∈ a, near ε p.2 (ω p.1)} / (2 * ε) ^ d') (𝓝[>] (0 : ℝ)) (𝓝 w')) : d = d' ∧ w = w' := by
  have h1 := C32_density_partial hs ha h hw
  have key : ∀ {F : ℝ → ℝ} {m k : ℕ} {u v : ℝ}, u ≠ 0 → Filter.Tendsto (fun ε => F ε / (2 * ε) ^ m) (𝓝[>] (0 : ℝ)) (𝓝 v) →
      Filter.Tendsto (fun ε => F ε / (2 * ε) ^ k) (𝓝[>] (0 : ℝ)) (𝓝 u) → ¬ k < m := by
    intro F m k u v hu h1 h2 hlt
    have h3 := h1.mul (tendsto_two_pow (k := m - k) (by omega))
    rw [mul_zero] at h3
    refine hu (tendsto_nhds_unique (h2.congr' ?_) h3)
    filter_upwards [self_mem_nhdsWithin] with ε (hε : 0 < ε)
    have h2 : (2 * ε) ^ (m - k) ≠ 0 := by positivity
    have h4 : (2 * ε) ^ k ≠ 0 := by positivity
    rw [show (2 * ε) ^ m = (2 * ε) ^ k * (2 * ε) ^ (m - k) by rw [← pow_add]; congr 1; omega]
    field_simp
  have e : d = d' := le_antisymm (not_lt.1 (key hw' h1 h')) (not_lt.1 (key hw h' h1))
  subst e
  exact ⟨rfl, tendsto_nhds_unique h1 h'⟩

/-- C32: `logpdf` returns the second component. -/
theorem C32_logpdf (hs : s.WF c L μ) (h : s.pdf L a = .ok w) :
    ∃ d, s.pdfMem L a = .ok (d, w) ∧ (d = 0 → w = (s.den μ).real {ω | ∀ p ∈ a, ω p.1 = some p.2}) ∧
      (s.Smooth L μ a → w ≠ 0 → Filter.Tendsto (fun ε => (s.den μ).real {ω | ∀ p ∈ a, near ε p.2 (ω p.1)} / (2 * ε) ^ d) (𝓝[>] (0 : ℝ)) (𝓝 w)) := by
  unfold Spe.pdf at h
  simp only [bind, Except.bind] at h
  split at h; · cases h
  rename_i q hq
  cases h
  refine ⟨q.1, hq, fun h0 => ?_, fun ha hw => C32_density_partial hs ha hq hw⟩
  exact C32_exact hs (by rw [hq, ← h0])

/-- The first assumption in `PdfAt` holds where the distribution has a continuous density. -/
theorem C32_continuous {m : Measure ℝ} {f : ℝ → ℝ} (hm : m = volume.withDensity (fun y => ENNReal.ofReal (f y))) [IsFiniteMeasure m]
    (hf : ∀ y, 0 ≤ f y) {x : ℝ} (hc : ContinuousAt f x) :
    Filter.Tendsto (fun ε => m.real {y | |y - x| ≤ ε} / (2 * ε)) (𝓝[>] (0 : ℝ)) (𝓝 (f x)) := density_lim hm hf hc

/-! ## C33: `constrain` -/

/-- C33: in what `constrain` returns the assigned variables have their values with certainty; it is well-formed, and has no new variables.
Missing from the full claim: without derived variables it has all variables, see `C33_total_partial` and the counterexamples below. -/
theorem C33_fixed (hL : ∀ d x, 0 ≤ L.pdf d x) (hs : s.WF c L μ) (ha : ∀ p ∈ a, p.1 ∈ s.symbols) (h : s.constrain L a = .ok s') :
    s'.WF c L μ ∧ s'.symbols ⊆ s.symbols ∧ (∀ p ∈ a, p.1 ∈ s'.symbols) ∧ ∀ p ∈ a, (s'.den μ).real {ω | ω p.1 = some p.2} = 1 := by
  have k := constrain_facts hL s hs a s' ha h
  refine ⟨k.wf, k.sub, k.vars, fun p hp => ?_⟩
  have := k.wf.prob
  refine le_antisymm measureReal_le_one ?_
  rw [← k.sure]
  exact measureReal_mono (fun ω h => h p hp)

/-- C33: given an assignment of continuous dimension 0, `constrain` returns the conditional distribution of its variables. -/
theorem C33_conditional (hL : ∀ d x, 0 ≤ L.pdf d x) (hs : s.WF c L μ) (ha : ∀ p ∈ a, p.1 ∈ s.symbols) (hp : s.pdfMem L a = .ok (0, w)) (hw : w ≠ 0)
    (h : s.constrain L a = .ok s') {A : Set Asg} (hA : MeasurableSet A) (hD : DepOn s'.symbols A) :
    (s'.den μ).real A = ((s.den μ)[|{ω | ∀ p ∈ a, ω p.1 = some p.2}]).real A := by
  have k := constrain_facts hL s hs a s' ha h
  have := hs.prob
  have := k.wf.prob
  have hm : MeasurableSet a.set := by rw [← Point.rect_set]; exact Rect.measurable a.rect_meas
  have hpos : (s.den μ).real a.set = w := (pdf_exact s hs a (0, w) hp).1 rfl
  have hne : s.den μ a.set ≠ 0 := by
    intro h0; rw [measureReal_def, h0] at hpos; exact hw (by simpa using hpos.symm)
  have : IsProbabilityMeasure ((s.den μ)[|a.set]) := ProbabilityTheory.cond_isProbabilityMeasure hne
  refine eq_of_rects (Q := (s.den μ)[|a.set]) ?_ hA hD
  intro b hb hv
  have e := constrain_exact hL s hs a (0, w) s' ha hp rfl h b hb hv
  rw [Rect.set_append, Point.rect_set] at e
  rw [measureReal_def (μ := (s.den μ)[|a.set]), ProbabilityTheory.cond_apply hm, ENNReal.toReal_mul, ENNReal.toReal_inv]
  rw [← measureReal_def, ← measureReal_def, hpos, e]
  field_simp

/-- C33: given any assignment, what `constrain` returns is the limit of the conditional distributions given small boxes around it, on
the other variables.  The assumptions are those of `C32_density_partial`. -/
theorem C33_limit_partial (hL : ∀ d x, 0 ≤ L.pdf d x) (hs : s.WF c L μ) (ha : ∀ p ∈ a, p.1 ∈ s.symbols) (hsm : s.Smooth L μ a)
    (hp : s.pdfMem L a = .ok (d, w)) (hw : w ≠ 0) (h : s.constrain L a = .ok s') {b : Rect} (hb : b.Meas)
    (hv : ∀ p ∈ b, p.1 ∈ s'.symbols ∧ ∀ q ∈ a, q.1 ≠ p.1) :
    Filter.Tendsto (fun ε => ((s.den μ)[|{ω | ∀ p ∈ a, near ε p.2 (ω p.1)}]).real {ω | ∀ p ∈ b, ω p.1 ∈ p.2}) (𝓝[>] (0 : ℝ))
      (𝓝 ((s'.den μ).real {ω | ∀ p ∈ b, ω p.1 ∈ p.2})) := by
  have := hs.prob
  have h1 := (constrain_lim hL s hs a (d, w) s' ha hsm hp h b hb hv).lim hw
  have h2 := (pdf_lim s hs a (d, w) hsm hp).lim hw
  have h3 := h1.div h2 hw
  simp only at h3
  rw [mul_div_cancel_left₀ _ hw] at h3
  refine h3.congr' ?_
  filter_upwards [self_mem_nhdsWithin] with ε (hε : 0 < ε)
  have hm : MeasurableSet (a.box ε) := by rw [← Point.boxRect_set]; exact Rect.measurable (a.boxRect_meas ε)
  show _ = ((s.den μ)[|a.box ε]).real b.set
  rw [measureReal_def (μ := (s.den μ)[|a.box ε]), ProbabilityTheory.cond_apply hm, ENNReal.toReal_mul, ENNReal.toReal_inv, ← measureReal_def, ← measureReal_def]
  simp only [Pi.div_apply, Rect.set_append, Point.boxRect_set]
  have h4 : (2 * ε) ^ d ≠ 0 := by positivity
  rw [div_div_div_cancel_right₀ h4, div_eq_inv_mul]

/-- C33: if there are no derived variables and no mixture weights zero, then `constrain` returns whenever the density is positive, and keeps the
variables. -/
theorem C33_total_partial (hL : ∀ d x, 0 ≤ L.pdf d x) (hs : s.WF c L μ) (hp : s.Plain) (ha : ∀ p ∈ a, p.1 ∈ s.symbols) (h : s.pdf L a = .ok w) (hw : w ≠ 0) :
    ∃ s', s.constrain L a = .ok s' ∧ s'.symbols = s.symbols := by
  unfold Spe.pdf at h
  simp only [bind, Except.bind] at h
  split at h; · cases h
  rename_i q hq
  cases h
  exact constrain_total hL s hs hp a q ha hq hw
end

/-! ## The hypotheses are met -/

/-- A mixture of a point mass and a uniform distribution: the density at the point mass has dimension 0. -/
example : (spike "X").WF ctx0 libD muD ∧ (spike "X").pdfMem libD [("X", .num 1)] = .ok (0, 1/2) := ⟨spike_wf _ _, spike_pdf _⟩

example : ((spike "X").den muD).real {ω | ∀ p ∈ [("X", Val.num (1 : ℝ))], ω p.1 = some p.2} = 1/2 :=
  (C32_exact (spike_wf ctx0 _) (spike_pdf _)).symm

/-- A uniform variable and a coin: dimension 1. -/
example : pair.WF ctx0 libD muD ∧ pair.Smooth libD muD pairAt ∧ pair.pdfMem libD pairAt = .ok (1, 1/2) := ⟨pair_wf _, pair_smooth, pair_pdf⟩

/-- `constrain` of a partial assignment of dimension 0 returns an SPE over both variables. -/
example : ∃ s', spikes.constrain libD [("X", .num 1)] = .ok s' ∧ s'.symbols = {"X", "Y"} := by
  obtain ⟨s', h, h'⟩ := C33_total_partial (a := [("X", .num 1)]) (w := 1/2) libD_nonneg (spikes_wf ctx0) (by
    refine .prod ?_
    intro s hs; simp at hs; rcases hs with rfl | rfl
    · exact spike_plain _
    · exact .nominal) (by simp [spikes, Spe.symbols, Spe.symbolsL, spike, leafD, leafC, coin]) (by
      simp only [Spe.pdf, spikes_pdf, bind, Except.bind]) (by norm_num)
  exact ⟨s', h, by rw [h']; simp [spikes, Spe.symbols, Spe.symbolsL, spike, leafD, leafC, coin]⟩

/-- `constrain` of a partial assignment of dimension 1. -/
example : pair.Smooth libD muD [("X", .num 1)] ∧ pair.pdfMem libD [("X", .num 1)] = .ok (1, 1) ∧
    ∃ s', pair.constrain libD [("X", .num 1)] = .ok s' ∧ "Y" ∈ s'.symbols := by
  have hs : Spe.symbolsL [leafC "X", coin "Y"] = [{"X"}, {"Y"}] := by simp [Spe.symbolsL, Spe.symbols, leafC, coin]
  have hX : lookupChild [{"X"}, {"Y"}] "X" = .ok 0 := by decide
  have h1 : pair.pdfMem libD [("X", .num 1)] = .ok (1, 1) := by
    rw [pair, Spe.pdfMem, Spe.pdfMemL_eq, hs]
    simp [splitPoint, hX, bind, Except.bind, pure, Except.pure, List.mapM_cons, leafC_pdf, prodPdf]
  refine ⟨?_, h1, ?_⟩
  · have := pair_smooth.on {"X"}
    simpa [Point.on, pairAt] using this
  · obtain ⟨s', h, h'⟩ := C33_total_partial (a := [("X", .num 1)]) (w := 1) libD_nonneg (pair_wf ctx0) pair_plain
      (by simp [pair, Spe.symbols, Spe.symbolsL, leafC, coin]) (by simp only [Spe.pdf, h1, bind, Except.bind]) (by norm_num)
    exact ⟨s', h, by rw [h']; simp [pair, Spe.symbols, Spe.symbolsL, leafC, coin]⟩

/-! ## Counterexamples -/

/-- A uniform variable and its square. -/
noncomputable def leafSq : Spe := .real .cont "X" d0 suppC false [("X", .id "X"), ("Y", .poly (.id "X") [0, 0, 1])]

theorem leafSq_wf : leafSq.WF ctx0 libD muD := by
  refine .real distOK_d0 ⟨?_, ?_⟩ suppC_wf (by intro h; cases h) ?_ ?_
  · exact EnvBuilt.step (env := [("X", .id "X")]) .base (by decide) (by simp [Tr.symbols, Env.keys]) (by simp [Tr.SymOk])
  · intro p hp; simp at hp; rcases hp with rfl | rfl
    · exact .id _
    · exact .poly (.id _) (by simp)
  · simp only [Bool.false_eq_true, if_false, suppC_reals]
    rw [muD_d0]; simp; norm_num
  · refine Filter.Eventually.of_forall (fun x p hp => ?_)
    simp at hp; rcases hp with rfl | rfl <;> simp [Tr.Regular]

theorem leafSq_pdf : leafSq.pdfMem libD [("X", .num 1)] = .ok (1, 1) := by
  simp [leafSq, Spe.pdfMem, leafPdfMem, leafValue, Spe.leafEnv, leafPdf, RLeaf.pdf, leafDim, libD_pdf, bind, Except.bind]

theorem leafSq_constrain : leafSq.constrainMem libD [("X", .num 1)] = .ok (.atomic "X" 1 [("X", .id "X")]) := by
  simp [leafSq, Spe.constrainMem, leafConstrainMem, leafConstrain, leafValue, Spe.leafEnv, leafPdf, RLeaf.pdf, libD_pdf, bind, Except.bind]

/-- A component with weight zero hides the others: `logpdf` is `-inf`, although the distribution is uniform near 1.  (`SumSPE` accepts
weights `-inf`.) -/
theorem C32_zero_weight_wrong :
    (Spe.sum [leafD "X", leafC "X"] [0, 1]).WF ctx0 libD muD ∧ (Spe.sum [leafD "X", leafC "X"] [0, 1]).pdf libD [("X", .num 1)] = .ok 0 ∧
      (leafC "X").pdf libD [("X", .num 1)] = .ok 1 ∧ (Spe.sum [leafD "X", leafC "X"] [0, 1]).den muD = (leafC "X").den muD := by
  refine ⟨?_, ?_, ?_, ?_⟩
  · refine .sum (S := {"X"}) ?_ (by simp) rfl ?_ (by norm_num) ?_
    · intro s hs; simp at hs; rcases hs with rfl | rfl; exact leafD_wf _ _; exact leafC_wf _ _
    · intro w hw; simp at hw; rcases hw with rfl | rfl <;> norm_num
    · intro s hs; simp at hs; rcases hs with rfl | rfl <;> simp [leafC, leafD, Spe.symbols]
  · rw [Spe.pdf, Spe.pdfMem, Spe.pdfMemL_eq]
    simp [callAll, leafD_pdf, leafC_pdf, bind, Except.bind, pure, Except.pure, List.mapM_cons, mixPdf, List.min?]
  · simp [Spe.pdf, leafC_pdf, bind, Except.bind]
  · rw [Spe.den, Spe.denL_eq]
    simp [mixture_cons, mixture_nil]

/-- `constrain` drops the derived variables of a leaf: `Y = X ** 2` is gone. -/
theorem C33_derived_dropped_wrong : leafSq.WF ctx0 libD muD ∧ leafSq.symbols = {"X", "Y"} ∧
    ∃ s', leafSq.constrain libD [("X", .num 1)] = .ok s' ∧ s'.symbols = {"X"} :=
  ⟨leafSq_wf, by decide, _, leafSq_constrain, by decide⟩

/-- A mixture of two SPEs over `X` and `Y`, where `Y` is derived in the first. -/
noncomputable def mixSq : Spe := .sum [leafSq, .prod [leafC "X", leafC "Y"]] [1/2, 1/2]

/-- As a consequence `constrain` raises `ValueError` for a mixture, although the density is positive. -/
theorem C33_mixture_raises : mixSq.WF ctx0 libD muD ∧ mixSq.pdf libD [("X", .num 1)] = .ok 1 ∧ mixSq.constrain libD [("X", .num 1)] = .error .value := by
  have hs : Spe.symbolsL [leafC "X", leafC "Y"] = [{"X"}, {"Y"}] := by simp [Spe.symbolsL, Spe.symbols, leafC]
  have hX : lookupChild [{"X"}, {"Y"}] "X" = .ok 0 := by decide
  have h1 : (Spe.prod [leafC "X", leafC "Y"]).pdfMem libD [("X", .num 1)] = .ok (1, 1) := by
    rw [Spe.pdfMem, Spe.pdfMemL_eq, hs]
    simp [splitPoint, hX, bind, Except.bind, pure, Except.pure, List.mapM_cons, leafC_pdf, prodPdf]
  have h2 : (Spe.prod [leafC "X", leafC "Y"]).constrainMem libD [("X", .num 1)] = .ok (.prod [.atomic "X" 1 [("X", .id "X")], leafC "Y"]) := by
    have e0 : (leafC "X").symbols = {"X"} := by simp [leafC, Spe.symbols]
    have e1 : (leafC "Y").symbols = {"Y"} := by simp [leafC, Spe.symbols]
    have : (Spe.prod [leafC "X", leafC "Y"]).constrainMem libD [("X", .num 1)] = mkProd [.atomic "X" 1 [("X", .id "X")], leafC "Y"] := by
      rw [Spe.constrainMem, Spe.constrainMemL_eq]
      simp [e0, e1, leafC_constrain, bind, Except.bind, pure, Except.pure, List.mapM_cons]
    rw [this]
    have h : areDisjoint (Spe.symbolsL [.atomic "X" 1 [("X", .id "X")], leafC "Y"]) = true := by rw [areDisjoint_iff]; simp [Spe.symbolsL, Spe.symbols, leafC]
    have e2 : (leafC "Y").prodChildren = [leafC "Y"] := rfl
    have e3 : (Spe.atomic "X" 1 [("X", .id "X")]).prodChildren = [.atomic "X" 1 [("X", .id "X")]] := rfl
    simp [mkProd, e2, e3, h]
  refine ⟨?_, ?_, ?_⟩
  · refine .sum (S := {"X", "Y"}) ?_ (by simp) rfl ?_ (by norm_num) ?_
    · intro s hs; simp at hs; rcases hs with rfl | rfl
      · exact leafSq_wf
      · refine .prod ?_ (by simp) ?_
        · intro s hs; simp at hs; rcases hs with rfl | rfl <;> exact leafC_wf _ _
        · simp [Spe.symbolsL, Spe.symbols, leafC]
    · intro w hw; simp at hw; subst hw; norm_num
    · intro s hs; simp at hs; rcases hs with rfl | rfl <;> simp [leafC, leafSq, Spe.symbols, Spe.symbolsL]
  · rw [mixSq, Spe.pdf, Spe.pdfMem, Spe.pdfMemL_eq]
    simp [callAll, leafSq_pdf, h1, bind, Except.bind, pure, Except.pure, List.mapM_cons, mixPdf, List.min?]
    norm_num
  · rw [mixSq, Spe.constrain, Spe.constrainMem, Spe.pdfMemL_eq, Spe.constrainMemL_eq]
    have : ¬ areIdentical (Spe.symbolsL [.atomic "X" 1 [("X", .id "X")], .prod [.atomic "X" 1 [("X", .id "X")], leafC "Y"]]) = true := by
      rw [areIdentical_iff]; simp [Spe.symbolsL, Spe.symbols, leafC]; decide
    simp [callAll, leafSq_pdf, h1, leafSq_constrain, h2, bind, Except.bind, pure, Except.pure, List.mapM_cons, constrainSum, List.min?, mkSum, pnorm]
    rw [if_pos (by norm_num), if_neg (by simp [Spe.sumChildren])]; exact if_neg this

/-- `ProductSPE.constrain` ignores unknown variables, for which `logpdf` raises `KeyError`. -/
theorem C33_unknown_ignored_wrong : coins.constrain libD [("T", .num 1)] = .ok coins ∧ coins.pdf libD [("T", .num 1)] = .error .key := by
  constructor
  · have : Spe.constrainMem libD coins [("T", .num 1)] = mkProd [coin "Y", coin "Z"] := by
      rw [coins, Spe.constrainMem, Spe.constrainMemL_eq]
      simp [coin, Spe.symbols, bind, Except.bind, pure, Except.pure, List.mapM_cons]
    rw [Spe.constrain, this]
    have h : areDisjoint (Spe.symbolsL [coin "Y", coin "Z"]) = true := by rw [areDisjoint_iff]; simp [Spe.symbolsL, Spe.symbols, coin]
    have e1 (Y : String) : (coin Y).prodChildren = [coin Y] := rfl
    simp [mkProd, e1, h, coins]
  · have hs : Spe.symbolsL [coin "Y", coin "Z"] = [{"Y"}, {"Z"}] := rfl
    have hT : lookupChild [{"Y"}, {"Z"}] "T" = .error .key := by decide
    rw [Spe.pdf, coins, Spe.pdfMem, hs]
    simp [splitPoint, hT, bind, Except.bind, List.mapM_cons]

/-- Atomic leaves, which `constrain` makes, have no `logpdf` and no `constrain`. -/
theorem C33_atomic_raises (X : String) (x : ℝ) (env : Env) (v : Val ℝ) (L : Lib) :
    (Spe.atomic X x env).pdf L [(X, v)] = .error .notImplemented ∧ (Spe.atomic X x env).constrain L [(X, v)] = .error .notImplemented := by
  constructor <;> cases v <;>
    simp [Spe.pdf, Spe.constrain, Spe.pdfMem, Spe.constrainMem, leafPdfMem, leafConstrainMem, leafConstrain, leafValue, Spe.leafEnv, leafPdf, bind, Except.bind]

/-- The density of an outcome of a nominal leaf with probability zero raises `ValueError`. -/
theorem C32_nominal_zero_raises : (Spe.nominal "Y" [("a", 1), ("b", 0)]).WF ctx0 libD muD ∧
    (Spe.nominal "Y" [("a", 1), ("b", 0)]).pdf libD [("Y", .str "b")] = .error .value := by
  constructor
  · refine .nominal (by simp) ?_ (by norm_num)
    intro p hp; simp at hp; rcases hp with rfl | rfl <;> norm_num
  · have : List.lookup "b" [("a", (1 : ℚ)), ("b", 0)] = some 0 := by decide
    simp only [Spe.pdf, Spe.pdfMem, leafPdfMem, leafValue, Spe.leafEnv, leafPdf, this, bind, Except.bind, if_true]

end Sppl
