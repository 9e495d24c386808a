import Verif.Spe.DistProps
import Verif.Sets.EndsLemmas
import Mathlib.Probability.Distributions.Exponential

/-!
# Property C49: distributions whose interval in distributions.py is wrong
-/

namespace Sppl
open Classical MeasureTheory
open scoped ENNReal ProbabilityTheory

/-- An unconditioned leaf gives probability 0 to an interval that does not meet its domain. -/
theorem prob_outside {c : Ctx} {L : Lib} {k : Kind} {X : String} {d : Dist} {i j : Ivl EReal} (hi : i.WF) (hj : j.WF) (ha : i.Apart j) (n : ℕ) :
    (Spe.real k X d i false [(X, .id X)]).prob c L (n + 1) (.ivl (.id X) j) = .ok 0 := by
  have h1 : leafSubst c (n + 1) X [(X, .id X)] (.ivl (.id X) j) = .ok (.ivl (.id X) j) := by
    have hno : ¬ exprInEnv (Ev.ivl (.id X) j).symbols [(X, .id X)] := by rintro ⟨s, -, hs⟩; exact hs (single_get X s)
    have hsub : (Ev.ivl (.id X) j).substitute c (n + 1) [(X, .id X)] (n + 1) = .ok (.ivl (.id X) j) := by simp [Ev.substitute, hno]
    unfold leafSubst
    rw [hsub]
    simp [bind, Except.bind, Ev.symbols, Tr.symbols]
  have h2 : (Ev.ivl (.id X) j).solve c (n + 1) = .ok (.pc (.ivl j)) := by simp only [Ev.solve]
  obtain ⟨r, hr, -, -, hem, -⟩ := Ivl.and_spec i j hi hj
  rw [hem.mpr ha] at hr
  unfold Spe.prob
  rw [if_pos (show Spe.isLeaf _ = true from rfl)]
  simp only [leafProb, Spe.leafEnv, h1, h2, leafProbSet, SSet.and, Piece.and, hr, bind, Except.bind, RLeaf.probValues]

/-- The open interval between two numbers. -/
noncomputable def openIvl (a b : ℝ) : Ivl EReal := ⟨(a : EReal), (b : EReal), true, true⟩

theorem openIvl_wf {a b : ℝ} (h : a < b) : (openIvl a b).WF :=
  ⟨by simpa [openIvl] using h, fun h => absurd h (EReal.coe_ne_bot _), fun h => absurd h (EReal.coe_ne_top _)⟩

theorem openIvl_mem (a b x : ℝ) : (openIvl a b).Mem (x : EReal) ↔ a < x ∧ x < b := by
  simp [openIvl, Ivl.Mem]

theorem posLoc_a {kw : Kw} {i : Ivl EReal} (h : realsPosLoc kw = .ok i) : i.a = (kw.loc : EReal) := by
  unfold realsPosLoc at h
  unfold Kw.loc
  split at h
  · rename_i l hl; rw [(mkIvl_ab h).1, hl]; rfl
  · rename_i hl; rw [(mkIvl_ab h).1, hl]; rfl

/-- C49 counterexample: five classes have an interval that misses a part of the support of positive length, for all values of their parameters: whole line
in scipy, but `[loc, oo)` for `genlogistic`, `gumbel_l`, `powernorm` and `tukeylambda`, and `(-oo, 0]` for `loggamma`.  The leaf gives an interval inside the support
probability 0. -/
theorem C49_wrong_domain {c : Ctx} {L : Lib} {d : DName} (hd : d ∈ [DName.genlogistic, .gumbel_l, .powernorm, .tukeylambda, .loggamma]) {args : List ℝ} {kw : Kw}
    (hs : 0 < kw.scale) {X : String} {s : Spe} (h : d.call L args kw X = .ok s) :
    ∃ a b : ℝ, a < b ∧ Set.Ioo a b ⊆ d.support kw ∧ ∀ n, s.prob c L (n + 1) (.ivl (.id X) (openIvl a b)) = .ok 0 := by
  obtain ⟨i, hi, rfl, -⟩ := DName.call_ok h
  have hw := getDomain_wf hi
  have line : d.standard kw = (⊥, ⊤) → d.onIntegers = false → ∀ a b : ℝ, Set.Ioo a b ⊆ d.support kw := by
    intro h h' a b x _
    refine ⟨(x - kw.loc) / kw.scale, ?_, ?_, ?_⟩
    · rw [h]; exact bot_le
    · rw [h]; exact le_top
    · rw [h']; simp only [Bool.false_eq_true, if_false]; field_simp; ring
  have pos : realsPosLoc kw = .ok i → ∀ a, a < kw.loc → ∀ n, (Spe.real d.kind X (d.scipy kw) i false [(X, .id X)]).prob c L (n + 1) (.ivl (.id X) (openIvl a kw.loc)) = .ok 0 := by
    intro h a ha n
    refine prob_outside hw (openIvl_wf ha) ?_ n
    right; right
    exact ⟨(posLoc_a h).symm, .inl rfl⟩
  simp only [List.mem_cons, List.not_mem_nil, or_false] at hd
  rcases hd with rfl | rfl | rfl | rfl | rfl
  · exact ⟨kw.loc - 1, kw.loc, by linarith, line rfl rfl _ _, pos hi _ (by linarith)⟩
  · exact ⟨kw.loc - 1, kw.loc, by linarith, line rfl rfl _ _, pos hi _ (by linarith)⟩
  · exact ⟨kw.loc - 1, kw.loc, by linarith, line rfl rfl _ _, pos hi _ (by linarith)⟩
  · by_cases hl : 0 < kw.par "lam"
    · have hst : DName.standard .tukeylambda kw = (((-(1 / kw.par "lam") : ℝ) : EReal), ((1 / kw.par "lam" : ℝ) : EReal)) := by simp only [DName.standard, if_pos hl]
      have hδ : 0 < kw.scale * (1 / kw.par "lam") := by positivity
      refine ⟨kw.loc - kw.scale * (1 / kw.par "lam"), kw.loc, by linarith, ?_, pos hi _ (by linarith)⟩
      rintro x ⟨h1, h2⟩
      refine ⟨(x - kw.loc) / kw.scale, ?_, ?_, ?_⟩
      · rw [hst, EReal.coe_le_coe_iff, le_div_iff₀ hs]; linarith
      · rw [hst, EReal.coe_le_coe_iff, div_le_iff₀ hs]; have : 0 ≤ 1 / kw.par "lam" * kw.scale := by positivity
        linarith
      · simp only [DName.onIntegers, Bool.false_eq_true, if_false]; field_simp; ring
    · exact ⟨kw.loc - 1, kw.loc, by linarith, line (by simp only [DName.standard, if_neg hl]) rfl _ _, pos hi _ (by linarith)⟩
  · refine ⟨0, 1, zero_lt_one, line rfl rfl _ _, fun n => prob_outside hw (openIvl_wf zero_lt_one) ?_ n⟩
    left; right
    exact ⟨(mkIvl_ab (show realsNegDom = .ok i from hi)).2, .inr rfl⟩

/-- C49 counterexample: `cosine` has support `[-pi, pi]`, the class says `[-pi/2, pi/2]`, and the leaf gives `(pi/2, pi)` probability 0. -/
theorem C49_cosine_wrong {c : Ctx} {L : Lib} {args : List ℝ} {kw : Kw} (hl : kw.loc = 0) (hs : kw.scale = 1) {X : String} {s : Spe}
    (h : DName.call L .cosine args kw X = .ok s) :
    Set.Ioo (Real.pi / 2) Real.pi ⊆ DName.support .cosine kw ∧ ∀ n, s.prob c L (n + 1) (.ivl (.id X) (openIvl (Real.pi / 2) Real.pi)) = .ok 0 := by
  obtain ⟨i, hi, rfl, -⟩ := DName.call_ok h
  have pi := Real.pi_pos
  refine ⟨?_, fun n => prob_outside (getDomain_wf hi) (openIvl_wf (by linarith)) ?_ n⟩
  · rintro x ⟨h1, h2⟩
    refine ⟨x, ?_, ?_, ?_⟩
    · simp only [DName.standard, EReal.coe_le_coe_iff]; linarith
    · simp only [DName.standard, EReal.coe_le_coe_iff]; linarith
    · simp [DName.onIntegers, hl, hs]
  · left; right
    exact ⟨(mkIvl_ab (show mkIvl _ _ _ _ = .ok i from hi)).2, .inr rfl⟩

/-- C49 counterexample: `hypergeom(M, n, N)` has values from `max(0, N-(M-n))` to `min(n, N)`, but the class takes the maximum of `N` too.  With parameters that are possible
the leaf is only made if `N ≤ n` (otherwise an assertion fails), and then gives `X < N` probability 0. -/
theorem C49_hypergeom_wrong {c : Ctx} {L : Lib} {args : List ℝ} {kw : Kw} {X : String} (hN : 0 ≤ kw.par "N") (hn : kw.par "n" ≤ kw.par "M")
    {s : Spe} (h : DName.call L .hypergeom args kw X = .ok s) :
    kw.par "N" ≤ kw.par "n" ∧ ∀ n, s.prob c L (n + 1) (.ivl (.id X) ⟨⊥, (kw.par "N" : EReal), true, true⟩) = .ok 0 := by
  obtain ⟨i, hi, rfl, -⟩ := DName.call_ok h
  have hw := getDomain_wf hi
  simp only [DName.getDomain, bind, Except.bind] at hi
  split at hi; · cases hi
  rename_i N' hN'
  split at hi; · cases hi
  rename_i M' hM'
  split at hi; · cases hi
  rename_i n' hn'
  rw [kwGet_par hN'] at hN ⊢
  rw [kwGet_par hn', kwGet_par hM'] at hn
  rw [kwGet_par hn']
  rw [max_eq_right hN, max_eq_left (by linarith)] at hi
  unfold mkRange at hi
  simp only [bind, Except.bind] at hi
  split at hi; · cases hi
  split at hi; · cases hi
  split at hi; · cases hi
  split at hi; · cases hi
  have hle : N' ≤ n' := by
    by_contra hlt
    push Not at hlt
    rw [min_eq_left hlt.le] at hi
    obtain ⟨hlt', -⟩ := mkIvl_ok hi
    rw [if_neg (by rw [EReal.coe_eq_coe_iff]; exact hlt.ne'), add_zero, EReal.coe_lt_coe_iff] at hlt'
    linarith
  refine ⟨hle, fun n => prob_outside hw ⟨EReal.bot_lt_coe _, fun _ => rfl, fun h => absurd h (EReal.coe_ne_top _)⟩ ?_ n⟩
  right; right
  exact ⟨(mkIvl_ab hi).1.symm, .inl rfl⟩

/-- `hypergeom(M=10, n=5, N=3)`: the leaf is made, although `X = 0` is possible. -/
example : ∃ s, DName.call (libOf muU) .hypergeom [] [("M", 10), ("n", 5), ("N", 3)] "X" = .ok s := by
  obtain ⟨i, hi⟩ := mkRange_total (m := 3) (n := 3) le_rfl
  refine DName.call_of (i := i) ?_ ?_
  · rw [← hi]
    simp only [DName.getDomain, kwGet, List.lookup, bind, Except.bind]
    norm_num
    simp
    norm_num
  · intro _
    obtain ⟨-, rfl⟩ := mkIvl_ok (mkRange_ivl hi)
    refine ⟨.inr ⟨3, rfl⟩, .inr ⟨4, ?_⟩⟩
    simp only [if_true]
    rw [← EReal.coe_one, ← EReal.coe_add]; norm_num

/-! ## `gumbel_l`, in full -/

/-- The law of `log E` with `E` exponential, the standard left-skewed Gumbel distribution. -/
noncomputable def muGumbel : Dist → Measure ℝ := fun _ => (ProbabilityTheory.expMeasure 1).map Real.log

theorem gumbel_prob (d : Dist) : IsProbabilityMeasure (muGumbel d) := by
  have := ProbabilityTheory.isProbabilityMeasure_expMeasure (r := 1) one_pos
  exact Measure.isProbabilityMeasure_map Real.measurable_log.aemeasurable

theorem expMeasure_singleton (x : ℝ) : ProbabilityTheory.expMeasure 1 {x} = 0 := by
  unfold ProbabilityTheory.expMeasure ProbabilityTheory.gammaMeasure
  exact (withDensity_absolutelyContinuous _ _) (by simp)

theorem expMeasure_Iic {x : ℝ} (hx : 0 ≤ x) : (ProbabilityTheory.expMeasure 1).real (Set.Iic x) = 1 - Real.exp (-x) := by
  have := ProbabilityTheory.isProbabilityMeasure_expMeasure (r := 1) one_pos
  rw [← ProbabilityTheory.cdf_eq_real, ProbabilityTheory.cdf_expMeasure_eq one_pos, if_pos hx, one_mul]

/-- The distribution function of the left-skewed Gumbel distribution is `1 - exp(-exp(x))`. -/
theorem gumbel_cdf (d : Dist) (x : ℝ) : (muGumbel d).real (Set.Iic x) = 1 - Real.exp (-Real.exp x) := by
  have := ProbabilityTheory.isProbabilityMeasure_expMeasure (r := 1) one_pos
  unfold muGumbel
  rw [map_measureReal_apply Real.measurable_log measurableSet_Iic, ← expMeasure_Iic (Real.exp_pos x).le]
  have h0 : ProbabilityTheory.expMeasure 1 (Set.Iic 0) = 0 := by
    have := expMeasure_Iic (x := 0) le_rfl
    rw [neg_zero, Real.exp_zero, sub_self, measureReal_def, ENNReal.toReal_eq_zero_iff] at this
    exact this.resolve_right (measure_ne_top _ _)
  refine measureReal_congr ?_
  rw [ae_eq_set]
  constructor
  · refine measure_mono_null (t := Set.Iic 0) ?_ h0
    rintro y ⟨h1, h2⟩
    rw [Set.mem_Iic]
    by_contra hy
    push Not at hy
    exact h2 ((Real.log_le_iff_le_exp hy).mp h1)
  · refine measure_mono_null (t := Set.Iic 0) ?_ h0
    rintro y ⟨h1, h2⟩
    rw [Set.mem_Iic]
    by_contra hy
    push Not at hy
    exact h2 ((Real.log_le_iff_le_exp hy).mpr h1)

theorem gumbel_ok (d : Dist) : DistOK (libOf muGumbel) muGumbel .cont d where
  prob := gumbel_prob d
  cdf x := rfl
  cont _ x := by
    unfold muGumbel
    rw [Measure.map_apply Real.measurable_log (measurableSet_singleton x)]
    have hc : (Real.log ⁻¹' {x}).Countable := by
      refine Set.Countable.mono (s₂ := {0, Real.exp x, -Real.exp x}) ?_ ((Set.finite_singleton _).insert _ |>.insert _).countable
      intro y hy
      have hy : Real.log y = x := hy
      rcases lt_trichotomy y 0 with h | h | h
      · right; right; rw [← hy, Real.exp_log_of_neg h]; simp
      · left; exact h
      · right; left; rw [← hy, Real.exp_log h]
    exact (measure_null_iff_singleton hc).mpr (fun x _ => expMeasure_singleton x)
  disc h := by cases h
  pmf h := by cases h

/-- C49 counterexample in full: for the left-skewed Gumbel distribution, with distribution function `1 - exp(-exp(x))`, `X < 0` has probability `1 - 1/e`, but `prob` of the leaf
`X >> gumbel_l()` returns 0 for it, and returns `1/e` for the event that is always true. -/
theorem C49_gumbel_l_wrong (c : Ctx) (X : String) : ∃ s, DName.call (libOf muGumbel) .gumbel_l [] [] X = .ok s ∧
    DistOK (libOf muGumbel) muGumbel .cont (DName.scipy .gumbel_l []) ∧
    (∀ n, s.prob c (libOf muGumbel) (n + 1) (.ivl (.id X) ⟨⊥, ((0 : ℝ) : EReal), true, true⟩) = .ok 0) ∧
    (∀ n, s.prob c (libOf muGumbel) (n + 1) (.ivl (.id X) ⟨⊥, ⊤, true, true⟩) = .ok (Real.exp (-1))) ∧
    (muGumbel (DName.scipy .gumbel_l [])).real (Set.Iio 0) = 1 - Real.exp (-1) := by
  have hd := gumbel_ok (DName.scipy .gumbel_l [])
  have hp := hd.prob
  obtain ⟨s, hs⟩ : ∃ s, DName.call (libOf muGumbel) .gumbel_l [] [] X = .ok s :=
    DName.call_of (i := ⟨((0 : ℝ) : EReal), ⊤, false || decide (((0 : ℝ) : EReal) = ⊥), false || decide ((⊤ : EReal) = ⊤)⟩) (mkIvl_eq (EReal.coe_lt_top _)) (by intro h; cases h)
  have h0 : (muGumbel (DName.scipy .gumbel_l [])).real (Set.Iio 0) = 1 - Real.exp (-1) := by
    have := gumbel_cdf (DName.scipy .gumbel_l []) 0
    rw [Real.exp_zero] at this
    rw [← this]
    refine measureReal_congr ?_
    exact Iio_ae_eq_Iic' (hd.cont rfl 0)
  refine ⟨s, hs, hd, ?_, ?_, h0⟩
  · intro n
    obtain ⟨i, hi, h⟩ := C49_clipped (c := c) (n := n) rfl hd hs (j := ⟨⊥, ((0 : ℝ) : EReal), true, true⟩) ⟨EReal.bot_lt_coe _, fun _ => rfl, fun h => absurd h (EReal.coe_ne_top _)⟩
    rw [h]
    have : {x : ℝ | i.Mem (x : EReal) ∧ Ivl.Mem ⟨⊥, ((0 : ℝ) : EReal), true, true⟩ (x : EReal)} = ∅ := by
      ext x
      rw [Set.mem_ofPred_eq, dom_pos hi]
      simp [Ivl.Mem]
    rw [this]; simp
  · intro n
    obtain ⟨i, hi, h⟩ := C49_clipped (c := c) (n := n) rfl hd hs (j := ⟨⊥, ⊤, true, true⟩) ⟨bot_lt_top, fun _ => rfl, fun _ => rfl⟩
    rw [h]
    have : {x : ℝ | i.Mem (x : EReal) ∧ Ivl.Mem ⟨⊥, ⊤, true, true⟩ (x : EReal)} = (Set.Iio 0)ᶜ := by
      ext x
      rw [Set.mem_ofPred_eq, dom_pos hi]
      simp [Ivl.Mem, EReal.bot_lt_coe, EReal.coe_lt_top]
    rw [this, probReal_compl_eq_one_sub measurableSet_Iio, h0]
    simp

/-! ## `loc` is ignored -/

theorem lookup_loc (kw : Kw) (l : ℝ) {s : String} (h : s ≠ "loc") : List.lookup s (("loc", l) :: kw) = kw.lookup s := by
  rw [List.lookup_cons]
  have : (s == "loc") = false := by simpa using h
  simp [this]

/-- C49: these classes do not look at `loc`: the interval stays where it is although `loc` moves the support. -/
theorem C49_loc_ignored {d : DName} (hd : d ∈ DName.fixed) (kw : Kw) (l : ℝ) : d.getDomain (("loc", l) :: kw) = d.getDomain kw ∧
    d.support (("loc", l) :: kw) = (fun x => x + (l - kw.loc)) '' d.support kw := by
  have hst : d.standard (("loc", l) :: kw) = d.standard kw := by
    have hp : ∀ s, s ≠ "loc" → Kw.par (("loc", l) :: kw) s = kw.par s := by intro s hs; unfold Kw.par; rw [lookup_loc kw l hs]
    cases d <;> simp only [DName.standard, hp _ (show "c" ≠ "loc" by decide), hp _ (show "a" ≠ "loc" by decide), hp _ (show "b" ≠ "loc" by decide),
      hp _ (show "n" ≠ "loc" by decide), hp _ (show "N" ≠ "loc" by decide), hp _ (show "M" ≠ "loc" by decide), hp _ (show "low" ≠ "loc" by decide),
      hp _ (show "high" ≠ "loc" by decide), hp _ (show "lam" ≠ "loc" by decide)]
  constructor
  · have hg : ∀ s, s ≠ "loc" → kwGet (("loc", l) :: kw) s = kwGet kw s := by intro s hs; unfold kwGet; rw [lookup_loc kw l hs]
    simp only [DName.fixed, List.mem_cons, List.not_mem_nil, or_false] at hd
    rcases hd with rfl | rfl | rfl | rfl | rfl | rfl | rfl | rfl | rfl | rfl | rfl | rfl | rfl | rfl | rfl | rfl | rfl | rfl | rfl | rfl | rfl | rfl | rfl | rfl | rfl |
      rfl | rfl
    all_goals simp only [DName.getDomain, hg _ (show "c" ≠ "loc" by decide), hg _ (show "a" ≠ "loc" by decide), hg _ (show "b" ≠ "loc" by decide),
      hg _ (show "n" ≠ "loc" by decide), hg _ (show "N" ≠ "loc" by decide), hg _ (show "M" ≠ "loc" by decide), hg _ (show "low" ≠ "loc" by decide),
      hg _ (show "high" ≠ "loc" by decide)]
  · have h1 : Kw.loc (("loc", l) :: kw) = l := by simp [Kw.loc]
    have h2 : Kw.scale (("loc", l) :: kw) = kw.scale := by unfold Kw.scale; rw [lookup_loc kw l (by decide)]
    ext x
    simp only [DName.support, hst, h1, h2, Set.mem_ofPred_eq, Set.mem_image]
    constructor
    · rintro ⟨y, ha, hb, rfl⟩
      exact ⟨_, ⟨y, ha, hb, rfl⟩, by ring⟩
    · rintro ⟨_, ⟨y, ha, hb, rfl⟩, rfl⟩
      exact ⟨y, ha, hb, by ring⟩

/-- C49 counterexample: hence for each of them, whatever the other parameters, there is a value of `loc` for which the interval misses some of the support (unless the
interval is the whole line). -/
theorem C49_moved_wrong {d : DName} (hd : d ∈ DName.fixed) {kw : Kw} {i : Ivl EReal} (hi : d.getDomain kw = .ok i) (hline : i.a ≠ ⊥ ∨ i.b ≠ ⊤)
    (hne : (d.support kw).Nonempty) : ∃ l x : ℝ, d.getDomain (("loc", l) :: kw) = .ok i ∧ x ∈ d.support (("loc", l) :: kw) ∧ ¬ i.Mem (x : EReal) := by
  obtain ⟨y, hy⟩ := hne
  have hw := getDomain_wf hi
  obtain ⟨x, hx⟩ : ∃ x : ℝ, ¬ i.Mem (x : EReal) := by
    rcases hline with h | h
    · obtain ⟨a, ha⟩ : ∃ a : ℝ, i.a = (a : EReal) := ⟨i.a.toReal, (EReal.coe_toReal (ne_top_of_lt hw.1) h).symm⟩
      refine ⟨a - 1, fun hm => ?_⟩
      have : i.a ≤ ((a - 1 : ℝ) : EReal) := by
        have := hm.1; split_ifs at this; · exact this.le
        exact this
      rw [ha, EReal.coe_le_coe_iff] at this; linarith
    · obtain ⟨b, hb⟩ : ∃ b : ℝ, i.b = (b : EReal) := ⟨i.b.toReal, (EReal.coe_toReal h (ne_bot_of_gt hw.1)).symm⟩
      refine ⟨b + 1, fun hm => ?_⟩
      have : ((b + 1 : ℝ) : EReal) ≤ i.b := by
        have := hm.2; split_ifs at this; · exact this.le
        exact this
      rw [hb, EReal.coe_le_coe_iff] at this; linarith
  obtain ⟨h1, h2⟩ := C49_loc_ignored hd kw (x - y + kw.loc)
  refine ⟨x - y + kw.loc, x, h1.trans hi, ?_, hx⟩
  rw [h2]
  exact ⟨y, hy, by ring⟩

/-- `poisson(mu=3)`: the interval is `[0, oo)`, the support is not empty. -/
example : DName.poisson ∈ DName.fixed ∧ (∃ i, DName.getDomain .poisson [("mu", 3)] = .ok i ∧ i.a ≠ ⊥) ∧ (DName.support .poisson [("mu", 3)]).Nonempty := by
  refine ⟨by simp [DName.fixed], ⟨_, mkIvl_eq (EReal.coe_lt_top _), EReal.coe_ne_bot _⟩, ⟨_, 0, ?_, ?_, rfl⟩⟩
  · simp [DName.standard]
  · simp [DName.standard]

end Sppl
