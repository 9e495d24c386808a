import Verif.Spe.LogDens
import Verif.Spe.TotalProps
import Verif.Spe.DensityProps

set_option linter.all false

/-!
# C53: the logarithms that sppl computes with

`logprob`, `logpdf`, `condition` and `constrain` of `spe.py` compute with logarithms of probabilities, in the model of
`Verif.Spe.LogModel` extended real numbers, or `nan`.  They return the logarithms of the probabilities and densities of properties C18 and C32, and the SPEs
of properties C21 and C33, although the log space has the special cases `-inf + inf`, `logdiffexp` of close numbers, and `nan`.
-/

namespace Sppl
open Classical MeasureTheory Topology
open scoped ENNReal ProbabilityTheory

theorem npClose_ok : CloseOK npClose := ⟨fun a => by simp [npClose]⟩

theorem exactClose_ok : CloseOK exactClose := ⟨fun a => by simp [exactClose]⟩

variable {c : Ctx} {L : Lib} {μ : Dist → Measure ℝ} {hash : Spe → ℤ} {n : ℕ} {s s' : Spe} {e : Ev} {a : Point} {f : Flt}

/-- A well-formed SPE has no negative probabilities, and conditioned leaves have mass. -/
theorem Spe.WF.logFit : ∀ (s : Spe), s.WF c L μ → LogFit L s
  | .real k X d supp cond env, h => by
    cases h with
    | real hd he hw hi hm hr =>
      have := hd.prob
      refine .real (fun x => by rw [hd.cdf]; exact measureReal_nonneg) (fun hk x => by rw [hd.pmf hk]; exact measureReal_nonneg) (fun hc z hz => ?_)
      have hl : RLeafOK L μ ⟨k, d, supp, cond⟩ := ⟨hd, hw, fun hk => ⟨(hi hk).1.2, (hi hk).2⟩, hm⟩
      rw [hl.Z_ok hz]
      subst hc
      simp only [if_true] at hm
      intro h0
      rw [measureReal_def, ENNReal.toReal_eq_zero_iff] at h0
      exact h0.elim hm (measure_ne_top _ _)
  | .atomic _ _ _, _ => .atomic
  | .nominal _ _, h => by
    cases h with
    | nominal _ h _ => exact .nominal (fun p hp => by exact_mod_cast h p hp)
  | .sum cs ws, h => by
    cases h with
    | sum h1 _ _ h2 _ _ => exact .sum (fun s hs => Spe.WF.logFit s (h1 s hs)) h2
  | .prod cs, h => by
    cases h with
    | prod h1 _ _ => exact .prod (fun s hs => Spe.WF.logFit s (h1 s hs))

theorem wlog_measure {ν : Measure Asg} [IsFiniteMeasure ν] (A : Set Asg) : wlog (ν.real A) = ENNReal.log (ν A) := by
  rw [wlog, ofReal_measureReal]

section
variable (hc : c.Correct)
include hc

/-- **C53 (`logprob`).** For a mixture of products (see C18) and an event whose variables it has, `logprob` returns the logarithm of the
probability of the event, `-inf` if that is zero, and never `nan`, with numpy's tolerances in `logdiffexp`. -/
theorem C53_logprob_total (hs : s.WF c L μ) (hw : s.Wide) (he : e.Simple (fun _ _ => True)) (hb : s.BaseOn e.symbols) (hsym : e.symbols ⊆ s.symbols)
    (hn : e.NomFree s.atomSyms) (n : ℕ) : s.logprob npClose c L n e = .ok (some (ENNReal.log (s.den μ {ω | e.holds ω}))) := by
  have h := logprob_ref (c := c) (n := n) npClose_ok (Spe.WF.logFit s hs) e
  rw [C18_total hc hs hw he hb hsym hn n] at h
  obtain ⟨f, hf, -, rfl⟩ := h
  have := hs.prob
  rw [hf, wlog_measure]

/-- **C53 (`prob`).** Under the same conditions `prob`, the exponential of `logprob`, returns the probability. -/
theorem C53_prob_total (hs : s.WF c L μ) (hw : s.Wide) (he : e.Simple (fun _ _ => True)) (hb : s.BaseOn e.symbols) (hsym : e.symbols ⊆ s.symbols)
    (hn : e.NomFree s.atomSyms) (n : ℕ) : s.probLog npClose c L n e = .ok (some ((s.den μ).real {ω | e.holds ω})) := by
  unfold Spe.probLog
  have := hs.prob
  rw [C53_logprob_total hc hs hw he hb hsym hn n]
  have h : ENNReal.log (s.den μ {ω | e.holds ω}) ≠ ⊤ := by rw [← wlog_measure]; exact wlog_ne_top _
  simp only [bind, Except.bind, mexp, if_neg h]
  rw [wexp, ENNReal.exp_log, measureReal_def]

/-- **C53 (`logprob`).** What `logprob` returns for any SPE is the logarithm of the probability of the event.  Missing from the full claim:
here `allclose` has no tolerance (see `C53_logprob_total` for a class of SPEs with tolerance), and the restrictions of C18. -/
theorem C53_logprob_partial (hs : s.WF c L μ) (he : s.CanAsk c e) (hsym : e.symbols ⊆ s.symbols) (hr : ∀ᵐ ω ∂(s.den μ), e.Regular ω)
    (h : s.logprob exactClose c L n e = .ok f) : f = some (ENNReal.log (s.den μ {ω | e.holds ω})) := by
  have k := logprob_ref (c := c) (n := n) exactClose_ok (Spe.WF.logFit s hs) e
  have := hs.prob
  cases hp : s.prob c L n e with
  | error x =>
    rw [hp] at k
    have := k rfl
    rw [h] at this; cases this
  | ok p =>
    rw [hp] at k
    obtain ⟨b, hb, -, rfl⟩ := k
    rw [h] at hb; cases hb
    rw [C18_prob_partial hc hs he hsym hr hp, wlog_measure]

/-- **C53 (`condition`).** Under the conditions of C21 and C22 `condition` in log space, with numpy's tolerances, returns an SPE that
denotes the conditional distribution given the event. -/
theorem C53_condition_total {E : String → Env} (hs : s.WF c L μ) (hE : s.Ready E) (hw : s.Wide) (he : e.Simple s.Whole) (hb : s.BaseOn e.symbols)
    (hsym : e.symbols ⊆ s.symbols) (hn : e.NomFree s.atomSyms) (hk : ∀ᵐ ω ∂(s.den μ), e.Suits ω) (hm : 0 < s.den μ {ω | e.holds ω}) :
    ∃ N, ∀ n, N ≤ n → ∃ s', s.conditionLog npClose c L hash n e = .ok s' ∧ s'.den μ = (s.den μ)[|{ω | e.holds ω}] := by
  obtain ⟨N, hN⟩ := C21_total (hash := hash) hc hs hE hw he hb hsym hn hk hm
  refine ⟨N, fun n hn' => ?_⟩
  obtain ⟨s', h, hd⟩ := hN n hn'
  have k := conditionLog_ref (c := c) (hash := hash) (n := n) npClose_ok (Spe.WF.logFit s hs) e
  rw [h] at k
  obtain ⟨t, ht, rfl, -⟩ := k
  exact ⟨t, ht, hd⟩

/-- **C53 (`condition`).** What `condition` in log space returns denotes the conditional distribution, and the event has positive
probability.  Missing from the full claim: `allclose` has no tolerance (see `C53_condition_total`), and the restrictions of C21. -/
theorem C53_condition_partial {E : String → Env} (H : CanCond c L μ E s e) (h : s.conditionLog exactClose c L hash n e = .ok s') :
    0 < s.den μ {ω | e.holds ω} ∧ s'.den μ = (s.den μ)[|{ω | e.holds ω}] := by
  have k := conditionLog_ref (c := c) (hash := hash) (n := n) exactClose_ok (Spe.WF.logFit s H.wf) e
  cases hp : s.condition c L hash n e with
  | error x =>
    rw [hp] at k
    have := k rfl
    rw [h] at this; cases this
  | ok p =>
    rw [hp] at k
    obtain ⟨t, ht, rfl, -⟩ := k
    rw [h] at ht; cases ht
    exact ⟨C22_positive_partial hc H hp, C21_condition_partial hc H hp⟩

end

/-- **C53 (`logpdf`).** What `logpdf` returns is the logarithm of a number `w`, the density or the probability of C32: there is a dimension `d` such
that `w` is the probability of the assignment if `d = 0`, and otherwise the limit of the probabilities of boxes of `d` sides. -/
theorem C53_logpdf (hL : ∀ d x, 0 ≤ L.pdf d x) (hs : s.WF c L μ) (h : s.logpdf exactClose L a = .ok f) :
    ∃ (w : ℝ) (d : ℕ), 0 ≤ w ∧ f = some (ENNReal.log (ENNReal.ofReal w)) ∧ (d = 0 → w = (s.den μ).real {ω | ∀ p ∈ a, ω p.1 = some p.2}) ∧
      (s.Smooth L μ a → w ≠ 0 → Filter.Tendsto (fun ε => (s.den μ).real {ω | ∀ p ∈ a, near ε p.2 (ω p.1)} / (2 * ε) ^ d) (𝓝[>] (0 : ℝ)) (𝓝 w)) := by
  have k := logpdf_ref exactClose_ok hL (Spe.WF.logFit s hs) a
  cases hp : s.pdf L a with
  | error x =>
    rw [hp] at k
    have := k rfl
    rw [h] at this; cases this
  | ok w =>
    rw [hp] at k
    obtain ⟨b, hb, hw, rfl⟩ := k
    rw [h] at hb; cases hb
    obtain ⟨d, -, h1, h2⟩ := C32_logpdf hs hp
    exact ⟨w, d, hw, rfl, h1, h2⟩

/-- **C53 (`constrain`).** What `constrain` in log space returns has the assigned values with certainty, and, if the assignment has positive
probability, has the conditional distribution given the assignment. -/
theorem C53_constrain (hL : ∀ d x, 0 ≤ L.pdf d x) (hs : s.WF c L μ) (ha : ∀ p ∈ a, p.1 ∈ s.symbols) (h : s.constrainLog exactClose L a = .ok s') :
    (s'.WF c L μ ∧ (∀ p ∈ a, (s'.den μ).real {ω | ω p.1 = some p.2} = 1)) ∧
    (∀ w : ℝ, s.pdfMem L a = .ok (0, w) → w ≠ 0 → ∀ A, MeasurableSet A → DepOn s'.symbols A →
      (s'.den μ).real A = ((s.den μ)[|{ω | ∀ p ∈ a, ω p.1 = some p.2}]).real A) := by
  have k := constrainMemLog_ref exactClose_ok hL s (Spe.WF.logFit s hs) a
  unfold Spe.constrainLog at h
  cases hp : s.constrainMem L a with
  | error x =>
    rw [hp] at k
    have := k rfl
    rw [h] at this; cases this
  | ok p =>
    rw [hp] at k
    obtain ⟨t, ht, rfl, -⟩ := k
    rw [h] at ht; cases ht
    have h1 := C33_fixed hL hs ha hp
    exact ⟨⟨h1.1, h1.2.2.2⟩, fun w h2 h3 A hA hD => C33_conditional hL hs ha h2 h3 hp hA hD⟩

theorem Ref.tol {α β} {R : α → β → Prop} (hR : ∀ a b b', R a b → R a b' → b = b') {r : Res α} {x y : Res β} (h1 : Ref exactClose R r x) (h2 : Ref npClose R r y)
    {b : β} (h : x = .ok b) : y = .ok b := by
  cases r with
  | error e => have := h1 rfl; rw [h] at this; cases this
  | ok a =>
    obtain ⟨b1, hb1, r1⟩ := h1
    obtain ⟨b2, hb2, r2⟩ := h2
    rw [h] at hb1; cases hb1
    rw [hb2, hR a _ _ r1 r2]

/-- **C53 (tolerances).** The tolerances of numpy's `allclose` change no result: whatever is returned with exact comparisons is returned with
numpy's. -/
theorem C53_tolerance (hL : ∀ d x, 0 ≤ L.pdf d x) (hs : s.WF c L μ) :
    (∀ e f, s.logprob exactClose c L n e = .ok f → s.logprob npClose c L n e = .ok f) ∧
    (∀ e s', s.conditionLog exactClose c L hash n e = .ok s' → s.conditionLog npClose c L hash n e = .ok s') ∧
    (∀ a f, s.logpdf exactClose L a = .ok f → s.logpdf npClose L a = .ok f) ∧
    (∀ a s', s.constrainLog exactClose L a = .ok s' → s.constrainLog npClose L a = .ok s') := by
  have hf := Spe.WF.logFit s hs
  have hP : ∀ (p : ℝ) f f', RP p f → RP p f' → f = f' := fun p f f' h h' => h.2.trans h'.2.symm
  have hS : ∀ (s t t' : Spe), RS s t → RS s t' → t = t' := fun s t t' h h' => h.1.trans h'.1.symm
  exact ⟨fun e f => Ref.tol hP (logprob_ref exactClose_ok hf e) (logprob_ref npClose_ok hf e),
    fun e s' => Ref.tol hS (conditionLog_ref exactClose_ok hf e) (conditionLog_ref npClose_ok hf e),
    fun a f => Ref.tol hP (logpdf_ref exactClose_ok hL hf a) (logpdf_ref npClose_ok hL hf a),
    fun a s' => Ref.tol hS (constrainMemLog_ref exactClose_ok hL s hf a) (constrainMemLog_ref npClose_ok hL s hf a)⟩

/-! ## The hypotheses are met -/

/-- Two coins: the logarithm of the probability that at least one shows `a`. -/
example (n : ℕ) : coins.logprob npClose ctx0 (libOf muU) (n + 1) coinsEv = .ok (some (ENNReal.log (ENNReal.ofReal (3 / 4)))) := by
  have k := logprob_ref (c := ctx0) (n := n + 1) npClose_ok (Spe.WF.logFit coins (coins_wf ctx0 (libOf muU) muU)) coinsEv
  rw [coins_prob] at k
  obtain ⟨b, hb, -, rfl⟩ := k
  exact hb

/-- Conditioning two coins on the first showing `a`. -/
example (hash : Spe → ℤ) (n : ℕ) : CanCond ctx0 (libOf muU) muU (fun _ => []) coins (strEv "Y" "a") ∧
    coins.conditionLog npClose ctx0 (libOf muU) hash (n + 1) (strEv "Y" "a") = .ok (.prod [sure "Y", coin "Z"]) ∧
    coins.conditionLog exactClose ctx0 (libOf muU) hash (n + 1) (strEv "Y" "a") = .ok (.prod [sure "Y", coin "Z"]) := by
  have hf := Spe.WF.logFit coins (coins_wf ctx0 (libOf muU) muU)
  have k := conditionLog_ref (c := ctx0) (hash := hash) (n := n + 1) npClose_ok hf (strEv "Y" "a")
  have k' := conditionLog_ref (c := ctx0) (hash := hash) (n := n + 1) exactClose_ok hf (strEv "Y" "a")
  rw [coins_cond] at k k'
  obtain ⟨b, hb, rfl, -⟩ := k
  obtain ⟨b', hb', rfl, -⟩ := k'
  exact ⟨coins_canCond, hb, hb'⟩

/-- A uniform variable and a coin, and an event about both. -/
example (n : ℕ) : ∃ x : EReal, unifCoin.logprob npClose ctx0 (libOf muU) n unifCoinEv = .ok (some x) ∧ x ≠ ⊥ := by
  obtain ⟨h1, h2, h3, h4⟩ := unifCoin_asks
  refine ⟨_, C53_logprob_total ctx0_correct unifCoin_wf h1 (unifCoinEv_simple _ trivial) h2 h3 h4 n, ?_⟩
  rw [Ne, ENNReal.log_eq_bot_iff]
  exact unifCoin_mass.ne'

/-- The logarithm of a mixed density, and `constrain` by it. -/
example : pair.logpdf exactClose libD pairAt = .ok (some (ENNReal.log (ENNReal.ofReal (1 / 2)))) ∧ (∀ d x, 0 ≤ libD.pdf d x) ∧ pair.WF ctx0 libD muD := by
  have k := logpdf_ref exactClose_ok libD_nonneg (Spe.WF.logFit pair (pair_wf ctx0)) pairAt
  simp only [Spe.pdf, pair_pdf, bind, Except.bind] at k
  obtain ⟨b, hb, -, rfl⟩ := k
  exact ⟨hb, libD_nonneg, pair_wf ctx0⟩

example : ∃ s', spikes.constrainLog exactClose libD [("X", .num 1)] = .ok s' ∧ s'.symbols = {"X", "Y"} := by
  obtain ⟨s', h, h'⟩ := C33_total_partial (a := [("X", .num 1)]) (w := 1/2) libD_nonneg (spikes_wf ctx0) (by
    refine .prod ?_
    intro s hs; simp at hs; rcases hs with rfl | rfl
    · exact spike_plain _
    · exact .nominal) (by simp [spikes, Spe.symbols, Spe.symbolsL, spike, leafD, leafC, coin]) (by
      simp only [Spe.pdf, spikes_pdf, bind, Except.bind]) (by norm_num)
  have k := constrainMemLog_ref exactClose_ok libD_nonneg spikes (Spe.WF.logFit spikes (spikes_wf ctx0)) [("X", .num 1)]
  unfold Spe.constrain at h
  rw [h] at k
  obtain ⟨t, ht, rfl, -⟩ := k
  exact ⟨t, ht, by rw [h']; simp [spikes, Spe.symbols, Spe.symbolsL, spike, leafD, leafC, coin]⟩

/-! ## The tolerance of the constructor -/

theorem wlog_pos {p : ℝ} (h : 0 < p) : wlog p = ((Real.log p : ℝ) : EReal) := by
  rw [wlog, ENNReal.log_ofReal_of_pos h]

/-- **C53 (`SumSPE` of a user).** With numpy's tolerance `SumSPE` accepts weights that do not sum to one, and does not normalise them: the SPE has total
mass above one.  (So C18 needs the weights to sum to one exactly.) -/
theorem C53_unnormalised_wrong (μ : Dist → Measure ℝ) :
    mkSumLog npClose [coin "Y", coin "Y"] [some (wlog (1/2)), some (wlog (1/2 + 1/10^9))] = .ok (.sum [coin "Y", coin "Y"] [1/2, 1/2 + 1/10^9]) ∧
      1 < (Spe.sum [coin "Y", coin "Y"] [1/2, 1/2 + 1/10^9]).den μ Set.univ := by
  constructor
  · have h1 : flse [some (wlog (1/2)), some (wlog (1/2 + 1/10^9))] = some (wlog (1 + 1/10^9)) := by
      have := flse_wlog (ps := [1/2, 1/2 + 1/10^9]) (by intro p hp; simp at hp; rcases hp with rfl | rfl <;> norm_num)
      rw [List.map_cons, List.map_cons, List.map_nil] at this
      rw [this]; norm_num
    have h2 : closeTo npClose (some (wlog (1 + 1/10^9))) 0 = true := by
      rw [wlog_pos (by norm_num)]
      simp only [closeTo, npClose, decide_eq_true_eq]
      refine Or.inr ⟨_, 0, rfl, rfl, ?_⟩
      have hl : 0 ≤ Real.log (1 + 1/10^9) := Real.log_nonneg (by norm_num)
      have hu := Real.log_le_sub_one_of_pos (x := 1 + 1/10^9) (by norm_num)
      rw [sub_zero, abs_of_nonneg hl]
      refine hu.trans ?_
      norm_num
    unfold mkSumLog
    rw [if_neg (by simp)]
    simp only [h1]
    rw [if_pos h2, if_neg (by simp [coin, Spe.sumChildren]), if_pos]
    · simp only [coin, List.flatMap_cons, List.flatMap_nil, Spe.sumChildren, List.zip_cons_cons, List.zip_nil_right, Spe.sumLogWeights, List.append_nil, List.cons_append,
        List.nil_append, List.map_cons, List.map_nil, Option.getD_some]
      rw [wexp_wlog (by norm_num), wexp_wlog (by norm_num)]
    · simp [coin, Spe.sumChildren, Spe.symbolsL, Spe.symbols, areIdentical]
  · have hp := (coin_wf ctx0 (libOf μ) μ "Y").prob
    rw [Spe.den, Spe.denL_eq]
    simp only [List.map_cons, List.map_nil, mixture_cons, mixture_nil, Measure.add_apply, Measure.smul_apply, hp.measure_univ, smul_eq_mul, mul_one,
      Measure.coe_zero, Pi.zero_apply, add_zero]
    rw [← ENNReal.ofReal_add (by norm_num) (by norm_num)]
    exact ENNReal.one_lt_ofReal.2 (by norm_num)

end Sppl
