import Verif.Spe.DistLemmas

/-!
# Property C49: distributions have the support that their classes say (`distributions.py`)
-/

namespace Sppl
open Classical MeasureTheory
open scoped ENNReal ProbabilityTheory

/-- C49: the interval that a class of distributions.py gives for its distribution contains the support that scipy documents for it, for all keyword arguments.

Partial: `Fits` excludes the classes for which this is false (`C49_wrong_domain`, `C49_cosine_wrong`, `C49_hypergeom_wrong`; `vonmises`, which scipy
defines on the circle; `kstwobign`, which asks for a parameter `n` that scipy does not have), and the values of `loc` and `scale` for which it is false because
the class does not look at them (`C49_loc_ignored`, `C49_moved_wrong`). -/
theorem C49_domain_partial {d : DName} {kw : Kw} (hs : 0 < kw.scale) (hf : d.Fits kw) {i : Ivl EReal} (h : d.getDomain kw = .ok i) {x : ℝ} (hx : x ∈ d.support kw) :
    i.Mem (x : EReal) := by
  obtain ⟨y, h1, h2, rfl⟩ := hx
  cases d
  all_goals simp only [DName.Fits] at hf
  all_goals simp only [DName.getDomain] at h
  all_goals simp only [DName.standard, EReal.coe_le_coe_iff] at h1 h2
  all_goals simp only [DName.onIntegers, if_true, Bool.false_eq_true, if_false, one_mul]
  all_goals try exact dom_reals h _
  all_goals try (rw [dom_posLoc h]; nlinarith [mul_nonneg hs.le h1])
  all_goals try (rw [dom_unit h]; constructor <;> nlinarith [mul_nonneg hs.le h1])
  all_goals try (rw [dom_neg h]; nlinarith [mul_nonneg hs.le (neg_nonneg.mpr h2)])
  all_goals try (rw [dom_pos h]; linarith)
  all_goals try (rw [dom_ipos h]; linarith)
  all_goals try (rw [dom_closed h, hf.1, hf.2]; constructor <;> linarith)
  all_goals try (replace h := two_keys h; rw [dom_closed h, hf.1, hf.2]; constructor <;> linarith)
  all_goals try (replace h := one_key h; rw [dom_closed h, hf.1, hf.2]; constructor <;> linarith)
  case genextreme =>
    replace h := one_key h
    rw [hf.1, hf.2]
    split_ifs at h h1 h2 <;> simp only [EReal.coe_le_coe_iff] at h1 h2
    · exact dom_reals h _
    · rw [mkIvl_mem h]; simp; simpa using h2
    · rw [mkIvl_mem h]; simp; simpa using h1
  case genhalflogistic =>
    replace h := one_key h
    rw [hf.1, hf.2]
    split_ifs at h
    rw [dom_closed h]; constructor <;> linarith
  case pareto =>
    rw [mkIvl_mem h]; simp only [Bool.false_eq_true, if_false, EReal.coe_le_coe_iff, le_top, and_true]
    nlinarith [mul_nonneg hs.le (sub_nonneg.mpr h1)]
  case bernoulli => rw [mkRange_mem h, hf]; simp; exact ⟨h1, h2⟩
  case betabinom =>
    replace h := one_key h
    rw [mkRange_mem h, hf]; refine ⟨by linarith, ?_⟩; split_ifs <;> linarith
  case binom =>
    replace h := one_key h
    rw [mkRange_mem h, hf]; refine ⟨by linarith, ?_⟩; split_ifs <;> linarith
  case boltzmann =>
    replace h := one_key h
    rw [mkRange_mem h, hf]; refine ⟨by linarith, ?_⟩; split_ifs <;> linarith
  case randint =>
    replace h := two_keys h
    rw [mkIvl_mem h, hf]
    simp only [Bool.false_eq_true, if_false, if_true, EReal.coe_le_coe_iff, EReal.coe_lt_coe_iff]
    constructor <;> linarith

/-- C49: with the parameters of a distribution, calling the class on a variable does return a leaf. -/
theorem C49_total {L : Lib} {d : DName} {kw : Kw} (hp : d.Proper kw) (hf : d.Fits kw) (X : String) : ∃ s, d.call L [] kw X = .ok s := by
  obtain ⟨hs, hsh, hr, hi⟩ := hp
  have kp : ∃ i, realsPosLoc kw = .ok i := by
    unfold realsPosLoc; split <;> exact mkIvl_total (EReal.coe_lt_top _)
  have ku : ∃ i, unitIntervalLocScale kw = .ok i := by
    refine mkIvl_total ?_
    rw [EReal.coe_lt_coe_iff]
    have : kwGetD kw "scale" 1 = kw.scale := rfl
    rw [this]; linarith
  have pi := Real.pi_pos
  have dom : ∃ i, d.getDomain kw = .ok i ∧ (d.onIntegers = true → (i.a = ⊥ ∨ ∃ n : ℤ, i.a = ((n : ℝ) : EReal)) ∧ (i.b = ⊤ ∨ ∃ n : ℤ, i.b = ((n : ℝ) : EReal))) := by
    by_cases hk : d.onIntegers = true
    · replace hi := hi hk
      clear hr
      have half : ∀ {lo : Bool} {i : Ivl EReal}, mkIvl ((0 : ℝ) : EReal) ⊤ lo false = .ok i →
          (i.a = ⊥ ∨ ∃ n : ℤ, i.a = ((n : ℝ) : EReal)) ∧ (i.b = ⊤ ∨ ∃ n : ℤ, i.b = ((n : ℝ) : EReal)) := by
        intro lo i h
        obtain ⟨-, rfl⟩ := mkIvl_ok h
        exact ⟨.inr ⟨0, by simp⟩, .inl rfl⟩
      have rng : ∀ {m n : ℤ} {i : Ivl EReal}, mkRange ((m : ℝ) : EReal) ((n : ℝ) : EReal) = .ok i →
          (i.a = ⊥ ∨ ∃ n : ℤ, i.a = ((n : ℝ) : EReal)) ∧ (i.b = ⊤ ∨ ∃ n : ℤ, i.b = ((n : ℝ) : EReal)) := by
        intro m n i h
        unfold mkRange at h
        simp only [bind, Except.bind] at h
        split at h; · cases h
        split at h; · cases h
        split at h; · cases h
        split at h; · cases h
        obtain ⟨-, rfl⟩ := mkIvl_ok h
        refine ⟨.inr ⟨m, rfl⟩, .inr ?_⟩
        simp only
        split_ifs
        · exact ⟨n + 1, by push_cast; rfl⟩
        · exact ⟨n, by simp⟩
      have toN : ∀ {x : ℝ}, ((x : EReal) = ⊤ ∨ ∃ n : ℤ, (x : EReal) = ((n : ℝ) : EReal)) → ∃ n : ℤ, x = n := by
        rintro x (h | ⟨n, h⟩)
        · exact absurd h (EReal.coe_ne_top _)
        · exact ⟨n, EReal.coe_eq_coe_iff.mp h⟩
      have toN' : ∀ {x : ℝ}, ((x : EReal) = ⊥ ∨ ∃ n : ℤ, (x : EReal) = ((n : ℝ) : EReal)) → ∃ n : ℤ, x = n := by
        rintro x (h | ⟨n, h⟩)
        · exact absurd h (EReal.coe_ne_bot _)
        · exact ⟨n, EReal.coe_eq_coe_iff.mp h⟩
      have rng' : ∀ {x : ℝ}, (∃ n : ℤ, x = n) → 0 ≤ x → ∃ i, mkRange ((0 : ℝ) : EReal) (x : EReal) = .ok i ∧
          ((i.a = ⊥ ∨ ∃ n : ℤ, i.a = ((n : ℝ) : EReal)) ∧ (i.b = ⊤ ∨ ∃ n : ℤ, i.b = ((n : ℝ) : EReal))) := by
        rintro x ⟨n, rfl⟩ h
        have h0 : ((0 : ℤ) : ℝ) = 0 := by simp
        rw [← h0]
        obtain ⟨i, hi⟩ := mkRange_total (m := 0) (n := n) (by exact_mod_cast h)
        exact ⟨i, hi, rng hi⟩
      cases d
      all_goals simp only [DName.onIntegers, Bool.false_eq_true] at hk
      all_goals simp only [DName.Fits] at hf
      all_goals simp only [DName.standard] at hi
      all_goals simp only [DName.shapes] at hsh
      all_goals simp only [DName.getDomain]
      all_goals try (obtain ⟨i, hi⟩ := mkIvl_total (a := ((0 : ℝ) : EReal)) (b := ⊤) (lo := false) (ro := false) (EReal.coe_lt_top _); exact ⟨i, hi, fun _ => half hi⟩)
      all_goals try (obtain ⟨i, hi⟩ := mkIvl_total (a := ((0 : ℝ) : EReal)) (b := ⊤) (lo := true) (ro := false) (EReal.coe_lt_top _); exact ⟨i, hi, fun _ => half hi⟩)
      case bernoulli => obtain ⟨i, h, h'⟩ := rng' ⟨1, by simp⟩ zero_le_one; exact ⟨i, h, fun _ => h'⟩
      case randint =>
        rw [kwGet_isSome (hsh "low" (by simp)), kwGet_isSome (hsh "high" (by simp))]
        obtain ⟨h1, h2, h3⟩ := hi
        obtain ⟨m, hm⟩ := toN' h2
        obtain ⟨n, hn⟩ := toN h3
        have hn' : kw.par "high" = ((n + 1 : ℤ) : ℝ) := by push_cast; linarith
        rw [hm, hn] at h1
        rw [hm, hn']
        have : m ≤ n := by simpa using h1
        refine ⟨_, mkIvl_eq ?_, fun _ => ⟨.inr ⟨m, rfl⟩, .inr ⟨n + 1, rfl⟩⟩⟩
        rw [EReal.coe_lt_coe_iff]; push_cast; have : (m : ℝ) ≤ n := by exact_mod_cast this
        linarith
      case boltzmann =>
        rw [kwGet_isSome (hsh "N" (by simp))]
        obtain ⟨h1, h2, h3⟩ := hi
        obtain ⟨n, hn⟩ := toN h3
        rw [EReal.coe_le_coe_iff] at h1
        obtain ⟨i, h, h'⟩ := rng' (x := kw.par "N") ⟨n + 1, by push_cast; linarith⟩ (by linarith)
        exact ⟨i, h, fun _ => h'⟩
      case binom =>
        rw [kwGet_isSome (hsh "n" (by simp))]
        obtain ⟨h1, h2, h3⟩ := hi
        rw [EReal.coe_le_coe_iff] at h1
        obtain ⟨i, h, h'⟩ := rng' (x := kw.par "n") (toN h3) h1
        exact ⟨i, h, fun _ => h'⟩
      case betabinom =>
        rw [kwGet_isSome (hsh "n" (by simp))]
        obtain ⟨h1, h2, h3⟩ := hi
        rw [EReal.coe_le_coe_iff] at h1
        obtain ⟨i, h, h'⟩ := rng' (x := kw.par "n") (toN h3) h1
        exact ⟨i, h, fun _ => h'⟩
      all_goals exact ⟨_, mkIvl_eq bot_lt_top, fun _ => ⟨.inl rfl, .inl rfl⟩⟩
    · have hk' : d.onIntegers = false := by simpa using hk
      suffices h : ∃ i, d.getDomain kw = .ok i from ⟨h.choose, h.choose_spec, fun h => absurd h hk⟩
      replace hr := hr hk'
      clear hi
      cases d
      all_goals simp only [DName.onIntegers, Bool.true_eq_false] at hk'
      all_goals simp only [DName.Fits] at hf
      all_goals simp only [DName.standard] at hr
      all_goals simp only [DName.shapes] at hsh
      all_goals simp only [DName.getDomain]
      all_goals try exact kp
      all_goals try exact ku
      all_goals try (refine mkIvl_total ?_; first | exact bot_lt_top | exact EReal.coe_lt_top _ | exact EReal.bot_lt_coe _ | (rw [EReal.coe_lt_coe_iff]; linarith))
      case genextreme =>
        rw [kwGet_isSome (hsh "c" (by simp))]
        simp only [bind, Except.bind]
        split_ifs
        all_goals (refine mkIvl_total ?_; first | exact bot_lt_top | exact EReal.coe_lt_top _ | exact EReal.bot_lt_coe _)
      case genhalflogistic =>
        rw [kwGet_isSome (hsh "c" (by simp))]
        simp only [bind, Except.bind]
        rw [EReal.coe_lt_coe_iff] at hr
        rw [if_pos (by simpa using hr)]
        exact mkIvl_total (EReal.coe_lt_coe_iff.mpr hr)
      case truncexpon =>
        rw [kwGet_isSome (hsh "b" (by simp))]
        exact mkIvl_total hr
      all_goals
        rw [kwGet_isSome (hsh "a" (by simp)), kwGet_isSome (hsh "b" (by simp))]
        exact mkIvl_total hr
  obtain ⟨i, hi, h⟩ := dom
  exact DName.call_of hi h

/-- C49: the leaf that `X >> d(**kw)` makes is well formed, and the distribution of `X` is the scipy distribution, provided that scipy's distribution has the support that
its documentation gives.  All theorems about SPEs (C17, C18, C22, ...) hence apply to the leaf.

Partial: `Fits` as in `C49_domain_partial`; and `hneg` excludes integer distributions with negative values
(`dlaplace`, `skellam`, `randint` with a negative `low`, and `geom` with a negative `loc`), see `C17_negative_discrete_wrong`. -/
theorem C49_leaf_partial {c : Ctx} {L : Lib} {μ : Dist → Measure ℝ} {d : DName} {args : List ℝ} {kw : Kw} {X : String} {s : Spe} (hs : 0 < kw.scale) (hf : d.Fits kw)
    (hd : DistOK L μ d.kind (d.scipy kw)) (hsupp : μ (d.scipy kw) (d.support kw)ᶜ = 0) (hneg : d.onIntegers = true → (∀ i, d.getDomain kw = .ok i → 0 ≤ i.a) ∨ ∀ x ∈ d.support kw, 0 < x)
    (h : d.call L args kw X = .ok s) :
    s.WF c L μ ∧ s.den μ = (μ (d.scipy kw)).map (fun x => baseAsg X (.num x)) := by
  obtain ⟨i, hi, rfl, hint⟩ := DName.call_ok h
  have hp := hd.prob
  have hk : d.kind = .disc → d.onIntegers = true := by
    intro hk; rw [DName.kind_eq] at hk; split at hk; · assumption
    cases hk
  refine ⟨.real hd (envOK_single c X) (getDomain_wf hi) ?_ ?_ ?_, ?_⟩
  · intro h
    refine ⟨⟨(hneg (hk h)).imp (fun h0 => h0 i hi) (fun h0 => ?_), (hint h).1⟩, (hint h).2⟩
    refine measure_mono_null (t := (d.support kw)ᶜ) ?_ hsupp
    intro x hx hx'
    exact absurd (h0 x hx') (not_lt.2 hx)
  · simp only [Bool.false_eq_true, if_false]
    rw [← prob_compl_eq_zero_iff (show MeasurableSet i.reals from i.measurableSet)]
    have hsub : i.realsᶜ ⊆ (d.support kw)ᶜ := fun x hx hx' => hx (C49_domain_partial hs hf hi hx')
    exact measure_mono_null hsub hsupp
  · refine Filter.Eventually.of_forall (fun x p hp => ?_)
    simp at hp; subst hp; trivial
  · simp only [Spe.den, realMeas, Bool.false_eq_true, if_false, env_single_extend]

/-- The values of `geom` are positive, so that `C49_leaf_partial` applies although `get_domain` returns all integers. -/
theorem geom_pos {kw : Kw} (h : 0 ≤ kw.loc) : ∀ x ∈ DName.support .geom kw, 0 < x := by
  rintro x ⟨y, h1, -, rfl⟩
  have : (1 : ℝ) ≤ y := EReal.coe_le_coe_iff.1 h1
  simp only [DName.onIntegers, if_true, one_mul]
  linarith

/-- C49: the probability of every event under `X >> d(**kw)` is its probability under the scipy distribution.

Partial: the exclusions of `C49_leaf_partial` and C17. -/
theorem C49_prob_partial {c : Ctx} (hc : c.Correct) {L : Lib} {μ : Dist → Measure ℝ} {d : DName} {args : List ℝ} {kw : Kw} {X : String} {s : Spe} (hs : 0 < kw.scale) (hf : d.Fits kw)
    (hd : DistOK L μ d.kind (d.scipy kw)) (hsupp : μ (d.scipy kw) (d.support kw)ᶜ = 0) (hneg : d.onIntegers = true → (∀ i, d.getDomain kw = .ok i → 0 ≤ i.a) ∨ ∀ x ∈ d.support kw, 0 < x)
    (h : d.call L args kw X = .ok s) {n : ℕ} {e : Ev} (he : e.MadeG true c) (hr : ∀ᵐ x ∂(μ (d.scipy kw)), e.Regular (baseAsg X (.num x))) {p : ℝ}
    (hp : s.prob c L n e = .ok p) : p = (μ (d.scipy kw)).real {x | e.holds (baseAsg X (.num x))} := by
  obtain ⟨hw, hden⟩ := C49_leaf_partial (c := c) hs hf hd hsupp hneg h
  obtain ⟨i, hi, rfl, -⟩ := DName.call_ok h
  have hm : MeasurableSet {ω | e.holds ω} := e.measurable_set
  rw [C17_leaf_prob_partial hc hw rfl he ?_ hp, hden, map_measureReal_apply (measurable_baseAsg X) hm]
  · rfl
  · rw [hden]
    exact (ae_map_iff (measurable_baseAsg X).aemeasurable (measurable_regular.2 e)).mpr hr

/-- C49: for every class with a density, whatever interval its `get_domain` returns, the probability of an interval `j` that the leaf returns is the scipy
probability of the part of `j` in the domain.  So the mass that scipy puts outside of the domain is lost, and probabilities are right exactly
when there is no such mass. -/
theorem C49_clipped {c : Ctx} {L : Lib} {μ : Dist → Measure ℝ} {d : DName} {args : List ℝ} {kw : Kw} {X : String} {s : Spe} (hk : d.onIntegers = false)
    (hd : DistOK L μ d.kind (d.scipy kw)) (h : d.call L args kw X = .ok s) {n : ℕ} {j : Ivl EReal} (hj : j.WF) :
    ∃ i, d.getDomain kw = .ok i ∧ s.prob c L (n + 1) (.ivl (.id X) j) = .ok ((μ (d.scipy kw)).real {x : ℝ | i.Mem (x : EReal) ∧ j.Mem (x : EReal)}) := by
  obtain ⟨i, hi, rfl, -⟩ := DName.call_ok h
  refine ⟨i, hi, ?_⟩
  have hp := hd.prob
  have hkc : d.kind = .cont := by rw [DName.kind_eq, hk]; rfl
  have hat := hd.cont hkc
  have h1 : leafSubst c (n + 1) X [(X, .id X)] (.ivl (.id X) j) = .ok (.ivl (.id X) j) := by
    have hno : ¬ exprInEnv (Ev.ivl (.id X) j).symbols [(X, .id X)] := by rintro ⟨s, -, hs⟩; exact hs (single_get X s)
    have hsub : (Ev.ivl (.id X) j).substitute c (n + 1) [(X, .id X)] (n + 1) = .ok (.ivl (.id X) j) := by simp [Ev.substitute, hno]
    unfold leafSubst
    rw [hsub]
    simp [bind, Except.bind, Ev.symbols, Tr.symbols]
  have h2 : (Ev.ivl (.id X) j).solve c (n + 1) = .ok (.pc (.ivl j)) := by simp only [Ev.solve]
  obtain ⟨r, hr, hrw, hstr, -, hmem⟩ := Ivl.and_spec i j (getDomain_wf hi) hj
  have hset : {x : ℝ | i.Mem (x : EReal) ∧ j.Mem (x : EReal)} = {x : ℝ | Val.num (x : EReal) ∈ r.den} := by
    ext x; exact (hmem _).symm
  rw [hset]
  unfold Spe.prob
  rw [if_pos (show Spe.isLeaf _ = true from rfl)]
  simp only [leafProb, Spe.leafEnv, h1, h2, leafProbSet, SSet.and, Piece.and, hr, bind, Except.bind, hkc]
  cases r with
  | empty => simp [RLeaf.probValues, SSet.den]
  | un u => exact absurd hr (Ivl.and_ne_un _ _ _)
  | pc q =>
    cases q with
    | nom m =>
      obtain ⟨v, hv⟩ := Piece.WF.nonempty (p := .nom m) hrw
      cases v with
      | str s => exact absurd hv (hstr s)
      | num x => simp [Piece.den] at hv
    | fin t =>
      simp only [RLeaf.probValues, RLeaf.probPiece, RLeaf.probFinite]
      have hz : (μ (d.scipy kw)) {x : ℝ | Val.num (x : EReal) ∈ (SSet.pc (.fin t)).den} = 0 := by
        have hc : Set.Countable {x : ℝ | Val.num (x : EReal) ∈ (SSet.pc (.fin t)).den} := by
          refine Set.Countable.mono (s₂ := (fun x : ℝ => (x : EReal)) ⁻¹' (t : Set EReal)) ?_ ?_
          · intro x hx
            simpa [SSet.den, Piece.den] using hx
          · exact (t.finite_toSet.preimage (EReal.coe_injective.injOn)).countable
        exact (measure_null_iff_singleton hc).mpr (fun x _ => hat x)
      rw [measureReal_def, hz]; rfl
    | ivl q =>
      have hset2 : {x : ℝ | Val.num (x : EReal) ∈ (SSet.pc (.ivl q)).den} = q.reals := by
        ext x; simp [SSet.den, Piece.den, Ivl.reals]
      rw [hset2, ← noAtoms_ivl hat hrw]
      simp only [RLeaf.probValues, RLeaf.probPiece, RLeaf.probIvl, RLeaf.cdf, if_true, bind, Except.bind, hd.cdf]
      unfold pdiff
      have hle : (μ (d.scipy kw)).real {y | (y : EReal) ≤ q.a} ≤ (μ (d.scipy kw)).real {y | (y : EReal) ≤ q.b} :=
        measureReal_mono (fun y (hy : (y : EReal) ≤ q.a) => hy.trans hrw.1.le)
      split_ifs with ha hb
      · rfl
      · rw [hb, sub_self]
      · exact absurd (lt_of_le_of_ne hle hb) ha

theorem foldl_min_le (xs : List ℝ) (x : ℝ) : xs.foldl min x ≤ x ∧ ∀ y ∈ xs, xs.foldl min x ≤ y := by
  induction xs generalizing x with
  | nil => simp
  | cons z zs ih =>
    obtain ⟨h1, h2⟩ := ih (min x z)
    simp only [List.foldl_cons]
    refine ⟨h1.trans (min_le_left _ _), ?_⟩
    intro y hy
    rcases List.mem_cons.mp hy with rfl | hy
    · exact h1.trans (min_le_right _ _)
    · exact h2 y hy

theorem le_foldl_max (xs : List ℝ) (x : ℝ) : x ≤ xs.foldl max x ∧ ∀ y ∈ xs, y ≤ xs.foldl max x := by
  induction xs generalizing x with
  | nil => simp
  | cons z zs ih =>
    obtain ⟨h1, h2⟩ := ih (max x z)
    simp only [List.foldl_cons]
    refine ⟨(le_max_left _ _).trans h1, ?_⟩
    intro y hy
    rcases List.mem_cons.mp hy with rfl | hy
    · exact (le_max_right _ _).trans h1
    · exact h2 y hy

/-- C49: the interval of `rv_discrete`, `discrete` and `uniformd` contains all values of the table. -/
theorem C49_table_domain {values : List (ℝ × ℝ)} {i : Ivl EReal} (h : rvDomain values = .ok i) {x : ℝ} (hx : x ∈ values.map Prod.fst) : i.Mem (x : EReal) := by
  unfold rvDomain at h
  split at h; · cases h
  rename_i y ys hy
  rw [hy] at hx
  rw [mkRange_mem h]
  have h1 := foldl_min_le ys y
  have h2 := le_foldl_max ys y
  have h3 : ys.foldl min y ≤ x := by
    rcases List.mem_cons.mp hx with rfl | hx
    · exact h1.1
    · exact h1.2 x hx
  have h4 : x ≤ ys.foldl max y := by
    rcases List.mem_cons.mp hx with rfl | hx
    · exact h2.1
    · exact h2.2 x hx
  refine ⟨h3, ?_⟩
  split_ifs <;> linarith

/-- C49 for distributions given by a table: the leaf is well formed, and the distribution of `X` is the scipy distribution of the table.

Partial: negative values are excluded (`C17_negative_discrete_wrong`). -/
theorem C49_table_leaf_partial {c : Ctx} {L : Lib} {μ : Dist → Measure ℝ} {values : List (ℝ × ℝ)} {X : String} {s : Spe}
    (hd : DistOK L μ .disc ⟨"rv_discrete", [], [], values⟩) (hsupp : μ ⟨"rv_discrete", [], [], values⟩ {x | x ∉ values.map Prod.fst} = 0)
    (hneg : ∀ x ∈ values.map Prod.fst, 0 ≤ x) (h : rvCall L values X = .ok s) :
    s.WF c L μ ∧ s.den μ = (μ ⟨"rv_discrete", [], [], values⟩).map (fun x => baseAsg X (.num x)) := by
  unfold rvCall at h
  simp only [bind, Except.bind] at h
  split at h; · cases h
  rename_i i hi
  obtain ⟨rfl, hint⟩ := Distr.call_real h
  have hp := hd.prob
  obtain ⟨ha, hb⟩ := hint rfl
  have hw : i.WF := by
    unfold rvDomain at hi
    split at hi; · cases hi
    exact mkRange_wf hi
  have h0 : 0 ≤ i.a := by
    unfold rvDomain at hi
    split at hi; · cases hi
    rename_i y ys hy
    rw [mkRange_a hi]
    rw [hy] at hneg
    have : ∀ (l : List ℝ) (z : ℝ), 0 ≤ z → (∀ w ∈ l, 0 ≤ w) → 0 ≤ l.foldl min z := by
      intro l
      induction l with
      | nil => intro z hz _; exact hz
      | cons w l ih => intro z hz hl; exact ih _ (le_min hz (hl w (by simp))) (fun v hv => hl v (by simp [hv]))
    exact_mod_cast this ys y (hneg y (by simp)) (fun w hw => hneg w (by simp [hw]))
  refine ⟨.real hd (envOK_single c X) hw (fun _ => ⟨⟨.inl h0, ha⟩, hb⟩) ?_ ?_, ?_⟩
  · simp only [Bool.false_eq_true, if_false]
    rw [← prob_compl_eq_zero_iff (show MeasurableSet i.reals from i.measurableSet)]
    have hsub : i.realsᶜ ⊆ {x | x ∉ values.map Prod.fst} := fun x hx hx' => hx (C49_table_domain hi hx')
    exact measure_mono_null hsub hsupp
  · refine Filter.Eventually.of_forall (fun x p hp => ?_)
    simp at hp; subst hp; trivial
  · simp only [Spe.den, realMeas, Bool.false_eq_true, if_false, env_single_extend]

/-- C49 for `atomic(loc=v)`: the leaf gives an event probability 1 if it holds at `v`, and 0 otherwise.

Partial: negative `v` are excluded, and so are the events that C17 excludes. -/
theorem C49_atomic_partial {c : Ctx} (hc : c.Correct) {L : Lib} {μ : Dist → Measure ℝ} {v : ℝ} (hv : 0 ≤ v) {args : List ℝ} {X : String} {s : Spe}
    (hd : DistOK L μ .disc (DName.scipy .randint [("low", v), ("high", v + 1)]))
    (hsupp : μ (DName.scipy .randint [("low", v), ("high", v + 1)]) (DName.support .randint [("low", v), ("high", v + 1)])ᶜ = 0)
    (h : atomicCall L args [("loc", v)] X = .ok s) {n : ℕ} {e : Ev} (he : e.MadeG true c) (hr : e.Regular (baseAsg X (.num v))) {p : ℝ}
    (hp : s.prob c L n e = .ok p) : p = if e.holds (baseAsg X (.num v)) then 1 else 0 := by
  have hpr := hd.prob
  have hkw : atomicKw [("loc", v)] = .ok [("low", v), ("high", v + 1)] := by simp [atomicKw, kwGet, bind, Except.bind]
  unfold atomicCall at h
  rw [hkw] at h
  simp only [bind, Except.bind] at h
  have hset : (DName.support .randint [("low", v), ("high", v + 1)])ᶜ = {x | x ≠ v} := by
    have h1 : Kw.loc [("low", v), ("high", v + 1)] = 0 := by simp [Kw.loc, List.lookup]
    have h2 : Kw.par [("low", v), ("high", v + 1)] "low" = v := by simp [Kw.par, List.lookup]
    have h3 : Kw.par [("low", v), ("high", v + 1)] "high" - 1 = v := by simp [Kw.par, List.lookup]
    ext x
    simp only [DName.support, DName.standard, DName.onIntegers, h1, h2, h3, Set.mem_compl_iff, Set.mem_ofPred_eq, if_true, EReal.coe_le_coe_iff, zero_add, one_mul]
    refine not_congr ⟨?_, ?_⟩
    · rintro ⟨y, ha, hb, rfl⟩; exact le_antisymm hb ha
    · rintro rfl; exact ⟨x, le_rfl, le_rfl, rfl⟩
  rw [hset] at hsupp
  have hae : ∀ᵐ x ∂(μ (DName.scipy .randint [("low", v), ("high", v + 1)])), x = v := hsupp
  have hp' := C49_prob_partial hc (d := .randint) (kw := [("low", v), ("high", v + 1)]) (by simp [Kw.scale, List.lookup]) (by simp [DName.Fits, Kw.loc, List.lookup]) hd
    (by rw [hset]; exact hsupp) (fun _ => .inl (fun i hi => by rw [mkIvl_a (two_keys hi)]; simpa [Kw.par] using hv)) h he (hae.mono (fun x hx => by rw [hx]; exact hr)) hp
  rw [hp']
  split_ifs with hh
  · have hu : {x | e.holds (baseAsg X (.num x))} =ᵐ[μ (DName.scipy .randint [("low", v), ("high", v + 1)])] Set.univ := by
      rw [Filter.eventuallyEq_univ]
      exact hae.mono (fun x hx => by rw [hx]; exact hh)
    rw [measureReal_congr hu, probReal_univ]
  · have : ∀ᵐ x ∂(μ (DName.scipy .randint [("low", v), ("high", v + 1)])), ¬ e.holds (baseAsg X (.num x)) := hae.mono (fun x hx => by rw [hx]; exact hh)
    rw [measureReal_def]
    have h0 := this
    rw [ae_iff] at h0
    simp only [not_not] at h0
    rw [h0]; rfl

/-- C49: a table with integer values makes a leaf. -/
theorem C49_table_total {L : Lib} {values : List (ℝ × ℝ)} (hne : values ≠ []) (hint : ∀ p ∈ values, ∃ n : ℤ, p.1 = n) (X : String) : ∃ s, rvCall L values X = .ok s := by
  obtain ⟨y, ys, hy⟩ : ∃ y ys, values.map Prod.fst = y :: ys := by
    cases values with
    | nil => exact absurd rfl hne
    | cons p ps => exact ⟨_, _, rfl⟩
  have hz : ∀ x ∈ y :: ys, ∃ n : ℤ, x = n := by
    intro x hx
    rw [← hy] at hx
    obtain ⟨p, hp, rfl⟩ := List.mem_map.1 hx
    exact hint p hp
  have fold : ∀ (f : ℝ → ℝ → ℝ), (∀ a b, f a b = a ∨ f a b = b) → ∀ (l : List ℝ) (z : ℝ), (∃ n : ℤ, z = n) → (∀ w ∈ l, ∃ n : ℤ, w = n) → ∃ n : ℤ, l.foldl f z = n := by
    intro f hf l
    induction l with
    | nil => intro z hz _; exact hz
    | cons w l ih =>
      intro z hz hl
      refine ih _ ?_ (fun v hv => hl v (by simp [hv]))
      rcases hf z w with h | h <;> rw [h]
      · exact hz
      · exact hl w (by simp)
  obtain ⟨m, hm⟩ := fold min (fun a b => min_choice a b) ys y (hz y (by simp)) (fun w hw => hz w (by simp [hw]))
  obtain ⟨n, hn⟩ := fold max (fun a b => max_choice a b) ys y (hz y (by simp)) (fun w hw => hz w (by simp [hw]))
  have hmn : m ≤ n := by
    have := (foldl_min_le ys y).1.trans (le_foldl_max ys y).1
    rw [hm, hn] at this
    exact_mod_cast this
  obtain ⟨i, hi⟩ := mkRange_total hmn
  have hd : rvDomain values = .ok i := by
    unfold rvDomain
    rw [hy]
    simp only [hm, hn]
    exact hi
  refine ⟨.real .disc X ⟨"rv_discrete", [], [], values⟩ i false [(X, .id X)], ?_⟩
  obtain ⟨-, rfl⟩ := mkIvl_ok (mkRange_ivl hi)
  have h2 : intOrNegInf ((m : ℝ) : EReal) = .ok true := by simp only [intOrNegInf, EReal.coe_ne_bot, EReal.coe_ne_top, if_false, isInt_coe]
  have h3 : intOrPosInf (((n : ℝ) : EReal) + (if ((m : ℝ) : EReal) = ((n : ℝ) : EReal) then 1 else 0)) = .ok true := by
    split
    · have : ((n : ℝ) : EReal) + 1 = (((n + 1 : ℤ) : ℝ) : EReal) := by
        rw [← EReal.coe_one, ← EReal.coe_add]; norm_num
      rw [this]; simp only [intOrPosInf, EReal.coe_ne_bot, EReal.coe_ne_top, if_false, isInt_coe]
    · rw [add_zero]; simp only [intOrPosInf, EReal.coe_ne_bot, EReal.coe_ne_top, if_false, isInt_coe]
  simp only [rvCall, hd, bind, Except.bind, Distr.call, mkReal, h2, h3, assertB, if_true, Bool.false_eq_true, if_false]

/-- What scipy does with a table of distinct integers and probabilities that add up to one. -/
structure TableOK (L : Lib) (μ : Dist → Measure ℝ) : Prop where
  dist : ∀ t : List (ℝ × ℝ), (t.map Prod.fst).Nodup → (∀ p ∈ t, ∃ n : ℤ, p.1 = n) → (∀ p ∈ t, 0 ≤ p.2) → (t.map Prod.snd).sum = 1 → DistOK L μ .disc ⟨"rv_discrete", [], [], t⟩
  mass : ∀ t : List (ℝ × ℝ), (t.map Prod.fst).Nodup → (∀ p ∈ t, ∃ n : ℤ, p.1 = n) → (∀ p ∈ t, 0 ≤ p.2) → (t.map Prod.snd).sum = 1 →
    (∀ p ∈ t, (μ ⟨"rv_discrete", [], [], t⟩).real {p.1} = p.2) ∧ μ ⟨"rv_discrete", [], [], t⟩ {x | x ∉ t.map Prod.fst} = 0

/-- C49: under `X >> uniformd(values=[...])`, with distinct integers that are not negative, each of the values has the same probability, and there are no others. -/
theorem C49_uniformd_partial {c : Ctx} {L : Lib} {μ : Dist → Measure ℝ} (hT : TableOK L μ) {values : List ℝ} {X : String} {s : Spe} (hnd : values.Nodup)
    (hint : ∀ x ∈ values, ∃ n : ℕ, x = n) (h : uniformdCall L values X = .ok s) :
    s.WF c L μ ∧ (∀ x ∈ values, (s.den μ).real {ω | ω X = some (.num x)} = 1 / values.length) ∧ ∀ᵐ ω ∂(s.den μ), ∃ x ∈ values, ω X = some (.num x) := by
  set t : List (ℝ × ℝ) := values.map (fun x => (x, 1 / (values.length : ℝ))) with ht
  have h1 : t.map Prod.fst = values := by simp [ht, Function.comp_def]
  have hne : values ≠ [] := by
    rintro rfl
    simp [uniformdCall, rvCall, rvDomain, bind, Except.bind] at h
  have hlen : (values.length : ℝ) ≠ 0 := by exact_mod_cast (List.length_pos_iff.2 hne).ne'
  have h2 : (t.map Prod.snd).sum = 1 := by
    have : t.map Prod.snd = List.replicate values.length (1 / (values.length : ℝ)) := by simp [ht, Function.comp_def]
    rw [this, List.sum_replicate, nsmul_eq_mul]
    field_simp
  have h3 : ∀ p ∈ t, p.1 ∈ values ∧ p.2 = 1 / (values.length : ℝ) := by
    intro p hp
    rw [ht, List.mem_map] at hp
    obtain ⟨x, hx, rfl⟩ := hp
    exact ⟨hx, rfl⟩
  have h4 : ∀ p ∈ t, 0 ≤ p.2 := fun p hp => by rw [(h3 p hp).2]; positivity
  have h5 : ∀ p ∈ t, ∃ n : ℤ, p.1 = n := fun p hp => by
    obtain ⟨n, hn⟩ := hint _ (h3 p hp).1
    exact ⟨n, by simp [hn]⟩
  have hnd' : (t.map Prod.fst).Nodup := by rw [h1]; exact hnd
  obtain ⟨m1, m2⟩ := hT.mass t hnd' h5 h4 h2
  obtain ⟨k1, k2⟩ := C49_table_leaf_partial (c := c) (hT.dist t hnd' h5 h4 h2) m2 (by
    rw [h1]
    intro x hx
    obtain ⟨n, hn⟩ := hint x hx
    rw [hn]; positivity) h
  have hset : ∀ x : ℝ, MeasurableSet {ω : Asg | ω X = some (.num x)} := fun x => by
    have := (Ev.fin (.id X) (some {(x : EReal)})).measurable_set
    have e : (Ev.fin (.id X) (some {(x : EReal)})).set = {ω : Asg | ω X = some (.num x)} := by
      ext ω
      simp only [Ev.set, Ev.holds, Ev.holdsB, Set.mem_ofPred_eq, decide_eq_true_iff]
      constructor
      · rintro ⟨y, s, h1, h2, h3⟩
        cases h2
        rw [Finset.mem_singleton] at h3
        rw [← EReal.coe_eq_coe_iff.1 h3]; exact h1
      · intro h1
        exact ⟨x, _, h1, rfl, by simp⟩
    rw [← e]; exact this
  refine ⟨k1, ?_, ?_⟩
  · intro x hx
    rw [k2, map_measureReal_apply (measurable_baseAsg X) (hset x)]
    have e : (fun y : ℝ => baseAsg X (.num y)) ⁻¹' {ω : Asg | ω X = some (.num x)} = {x} := by
      ext y; simp [baseAsg]
    rw [e]
    exact m1 (x, _) (by rw [ht, List.mem_map]; exact ⟨x, hx, rfl⟩)
  · have hms : MeasurableSet {ω : Asg | ∃ x ∈ values, ω X = some (.num x)} := by
      have : {ω : Asg | ∃ x ∈ values, ω X = some (.num x)} = ⋃ x ∈ values, {ω : Asg | ω X = some (.num x)} := by ext; simp
      rw [this]
      exact MeasurableSet.biUnion (List.finite_toSet _).countable (fun x _ => hset x)
    rw [k2]
    refine (ae_map_iff (measurable_baseAsg X).aemeasurable hms).2 ?_
    rw [h1] at m2
    rw [ae_iff]
    refine measure_mono_null ?_ m2
    intro x hx hx'
    exact hx ⟨x, hx', by simp [baseAsg]⟩

/-! ## The hypotheses can be met -/

/-- The uniform distribution on `[0, 1]`, called with keyword arguments. -/
example : ∃ s, DName.call (libOf muU) .uniform [] [("loc", 0), ("scale", 1)] "X" = .ok s ∧ DName.Fits .uniform [("loc", 0), ("scale", 1)] ∧
    DistOK (libOf muU) muU .cont (DName.scipy .uniform [("loc", 0), ("scale", 1)]) ∧
    muU (DName.scipy .uniform [("loc", 0), ("scale", 1)]) (DName.support .uniform [("loc", 0), ("scale", 1)])ᶜ = 0 ∧ s.WF ctx0 (libOf muU) muU := by
  have hs : Kw.scale [("loc", 0), ("scale", 1)] = 1 := by simp [Kw.scale, List.lookup]
  have hl : Kw.loc [("loc", 0), ("scale", 1)] = 0 := by simp [Kw.loc, List.lookup]
  have hp : DName.Proper .uniform [("loc", 0), ("scale", 1)] :=
    ⟨by rw [hs]; norm_num, by simp [DName.shapes], fun _ => by simp [DName.standard], by intro h; cases h⟩
  obtain ⟨s, h⟩ := C49_total (L := libOf muU) hp trivial "X"
  have hsupp : DName.support .uniform [("loc", 0), ("scale", 1)] = Set.Icc 0 1 := by
    ext x
    simp only [DName.support, DName.standard, DName.onIntegers, hs, hl, Set.mem_ofPred_eq, Bool.false_eq_true, if_false, EReal.coe_le_coe_iff, zero_add, one_mul, Set.mem_Icc]
    constructor
    · rintro ⟨y, h1, h2, rfl⟩; exact ⟨h1, h2⟩
    · rintro ⟨h1, h2⟩; exact ⟨x, h1, h2, rfl⟩
  have h0 : muU (DName.scipy .uniform [("loc", 0), ("scale", 1)]) (DName.support .uniform [("loc", 0), ("scale", 1)])ᶜ = 0 := by
    rw [hsupp]
    have := (distOK_unif (DName.scipy .uniform [("loc", 0), ("scale", 1)])).prob
    rw [prob_compl_eq_zero_iff measurableSet_Icc]
    simp [muU, unif]
  exact ⟨s, h, trivial, distOK_unif _, h0, (C49_leaf_partial (d := .uniform) hp.scale trivial (distOK_unif _) h0 (by intro h; cases h) h).1⟩

/-- The distribution concentrated at 2. -/
noncomputable def muTwo : Dist → Measure ℝ := fun _ => Measure.dirac 2

theorem distOK_two (d : Dist) : DistOK (libOf muTwo) muTwo .disc d where
  prob := by unfold muTwo; infer_instance
  cdf x := rfl
  cont := by intro h; cases h
  disc := by
    intro _
    have : ({x | ∀ n : ℤ, x ≠ n} : Set ℝ) ⊆ {x | x ≠ 2} := by
      intro x hx; have := hx 2; simpa using this
    refine measure_mono_null this ?_
    have hm : MeasurableSet {x : ℝ | x ≠ 2} := (measurableSet_singleton (2 : ℝ)).compl
    simp only [muTwo]; rw [Measure.dirac_apply' _ hm]; simp
  pmf := by intro _ x; rfl

/-- `geom(p=0.5)`, as if it had only the value 2: a leaf with the unbounded support. -/
example : ∃ s, DName.call (libOf muTwo) .geom [] [("p", 0.5)] "X" = .ok s ∧ s.WF ctx0 (libOf muTwo) muTwo := by
  obtain ⟨s, h⟩ := C49_total (d := .geom) (L := libOf muTwo) (kw := [("p", 0.5)])
    ⟨by simp [Kw.scale, List.lookup], by simp [DName.shapes], (by intro h; cases h), fun _ => ⟨by simp [DName.standard], .inr ⟨1, by simp [DName.standard]⟩, .inl (by simp [DName.standard])⟩⟩ trivial "X"
  · refine ⟨s, h, (C49_leaf_partial (c := ctx0) (d := .geom) (by simp [Kw.scale, List.lookup]) trivial (distOK_two _) ?_ (fun _ => .inr (geom_pos (by simp [Kw.loc, List.lookup]))) h).1⟩
    refine measure_mono_null (t := {x : ℝ | x ≠ 2}) ?_ ?_
    · intro x hx hx'
      subst hx'
      exact hx ⟨2, by simp [DName.standard]; exact_mod_cast one_le_two, by simp [DName.standard], by simp [DName.onIntegers, Kw.loc, List.lookup]⟩
    · have hm : MeasurableSet {x : ℝ | x ≠ 2} := (measurableSet_singleton (2 : ℝ)).compl
      simp only [muTwo]; rw [Measure.dirac_apply' _ hm]; simp

/-- `atomic(loc=2)` and a table with the single value 2. -/
example : (∃ s, atomicCall (libOf muTwo) [] [("loc", 2)] "X" = .ok s) ∧ (∃ s, rvCall (libOf muTwo) [(2, 1)] "X" = .ok s) ∧
    muTwo ⟨"rv_discrete", [], [], [(2, 1)]⟩ {x | x ∉ [((2 : ℝ), (1 : ℝ))].map Prod.fst} = 0 ∧
    muTwo (DName.scipy .randint [("low", 2), ("high", 2 + 1)]) (DName.support .randint [("low", 2), ("high", 2 + 1)])ᶜ = 0 := by
  have hne : muTwo d0 {x : ℝ | x ≠ 2} = 0 := by
    have hm : MeasurableSet {x : ℝ | x ≠ 2} := (measurableSet_singleton (2 : ℝ)).compl
    simp only [muTwo]; rw [Measure.dirac_apply' _ hm]; simp
  refine ⟨?_, ?_, ?_, ?_⟩
  · have hkw : atomicKw [("loc", (2 : ℝ))] = .ok [("low", 2), ("high", 2 + 1)] := by simp [atomicKw, kwGet, bind, Except.bind]
    unfold atomicCall
    rw [hkw]
    refine C49_total (d := .randint) ⟨by simp [Kw.scale, List.lookup], by simp [DName.shapes, List.lookup], (by intro h; cases h), fun _ => ⟨?_, .inr ⟨2, ?_⟩, .inr ⟨2, ?_⟩⟩⟩ ?_ "X"
    all_goals simp [DName.standard, Kw.par, DName.Fits, Kw.loc, List.lookup]
  · obtain ⟨i, hi⟩ := mkRange_total (m := 2) (n := 2) le_rfl
    have hd : rvDomain [((2 : ℝ), (1 : ℝ))] = .ok i := by simpa [rvDomain] using hi
    refine ⟨.real .disc "X" ⟨"rv_discrete", [], [], [(2, 1)]⟩ i false [("X", .id "X")], ?_⟩
    obtain ⟨-, rfl⟩ := mkIvl_ok (mkRange_ivl hi)
    have h2 : intOrNegInf (((2 : ℤ) : ℝ) : EReal) = .ok true := by simp only [intOrNegInf, EReal.coe_ne_bot, EReal.coe_ne_top, if_false, isInt_coe]
    have h3 : intOrPosInf ((((2 : ℤ) : ℝ) : EReal) + 1) = .ok true := by
      have : (((2 : ℤ) : ℝ) : EReal) + 1 = (((3 : ℤ) : ℝ) : EReal) := by
        rw [← EReal.coe_one, ← EReal.coe_add]; norm_num
      rw [this]; simp only [intOrPosInf, EReal.coe_ne_bot, EReal.coe_ne_top, if_false, isInt_coe]
    simp only [rvCall, hd, bind, Except.bind, Distr.call, mkReal, h2, h3, assertB, if_true, Bool.false_eq_true, if_false]
  · have h2 : muTwo ⟨"rv_discrete", [], [], [(2, 1)]⟩ {x : ℝ | x ≠ 2} = 0 := hne
    simpa using h2
  · refine measure_mono_null ?_ hne
    intro x hx h2
    apply hx
    refine ⟨2, ?_, ?_, ?_⟩
    · simp [DName.standard, Kw.par, List.lookup]
    · simp [DName.standard, Kw.par, List.lookup]
    · simp [DName.onIntegers, Kw.loc, List.lookup, h2]

/-- The distributions of tables. -/
noncomputable def muTab (d : Dist) : Measure ℝ := (d.values.map (fun p => ENNReal.ofReal p.2 • Measure.dirac p.1)).sum

theorem muTab_apply (t : List (ℝ × ℝ)) (A : Set ℝ) (hA : MeasurableSet A) : muTab ⟨"rv_discrete", [], [], t⟩ A = (t.map (fun p => ENNReal.ofReal p.2 * A.indicator 1 p.1)).sum := by
  unfold muTab
  simp only
  induction t with
  | nil => simp
  | cons p t ih => rw [List.map_cons, List.sum_cons, Measure.add_apply, ih]; simp [Measure.dirac_apply' _ hA]

theorem tableOK_muTab : TableOK (libOf muTab) muTab := by
  have univ : ∀ t : List (ℝ × ℝ), (∀ p ∈ t, 0 ≤ p.2) → (t.map (fun p => ENNReal.ofReal p.2)).sum = ENNReal.ofReal (t.map Prod.snd).sum := by
    intro t
    induction t with
    | nil => simp
    | cons p t ih =>
      intro h
      have hs : 0 ≤ (t.map Prod.snd).sum := List.sum_nonneg (by
        intro x hx
        obtain ⟨q, hq, rfl⟩ := List.mem_map.1 hx
        exact h q (by simp [hq]))
      rw [List.map_cons, List.sum_cons, List.map_cons, List.sum_cons, ih (fun q hq => h q (by simp [hq])), ENNReal.ofReal_add (h p (by simp)) hs]
  have zero : ∀ (t : List (ℝ × ℝ)) (A : Set ℝ), MeasurableSet A → (∀ p ∈ t, p.1 ∉ A) → muTab ⟨"rv_discrete", [], [], t⟩ A = 0 := by
    intro t A hA h
    rw [muTab_apply t A hA]
    refine List.sum_eq_zero (fun x hx => ?_)
    obtain ⟨q, hq, rfl⟩ := List.mem_map.1 hx
    simp [h q hq]
  constructor
  · intro t h1 h2 h3 h4
    refine ⟨⟨?_⟩, fun _ => rfl, (by intro h; cases h), fun _ => ?_, fun _ _ => rfl⟩
    · rw [muTab_apply t _ MeasurableSet.univ]
      simpa [h4] using univ t h3
    · have hm : MeasurableSet {x : ℝ | ∀ n : ℤ, x ≠ n} := by
        have : {x : ℝ | ∀ n : ℤ, x ≠ n} = (⋃ n : ℤ, {(n : ℝ)})ᶜ := by ext; simp [eq_comm]
        rw [this]
        exact (MeasurableSet.iUnion (fun n => measurableSet_singleton _)).compl
      exact zero t _ hm (fun p hp h => by obtain ⟨n, hn⟩ := h2 p hp; exact h n hn)
  · intro t h1 h2 h3 h4
    constructor
    · intro p hp
      rw [measureReal_def, muTab_apply t _ (measurableSet_singleton _)]
      have : (t.map (fun q => ENNReal.ofReal q.2 * ({p.1} : Set ℝ).indicator 1 q.1)).sum = ENNReal.ofReal p.2 := by
        clear h2 h4
        induction t with
        | nil => simp at hp
        | cons q t ih =>
          rw [List.map_cons, List.nodup_cons] at h1
          rw [List.map_cons, List.sum_cons]
          rcases List.mem_cons.1 hp with rfl | hp
          · have : (t.map (fun q => ENNReal.ofReal q.2 * ({p.1} : Set ℝ).indicator 1 q.1)).sum = 0 := by
              refine List.sum_eq_zero (fun x hx => ?_)
              obtain ⟨q, hq, rfl⟩ := List.mem_map.1 hx
              have : q.1 ≠ p.1 := fun h => h1.1 (h ▸ List.mem_map_of_mem hq)
              simp [this]
            rw [this]; simp
          · have : q.1 ≠ p.1 := fun h => h1.1 (h ▸ List.mem_map_of_mem hp)
            rw [ih h1.2 (fun q hq => h3 q (by simp [hq])) hp]
            simp [this]
      rw [this, ENNReal.toReal_ofReal (h3 p hp)]
    · refine zero t _ ?_ (fun p hp h => h (List.mem_map_of_mem hp))
      exact (Set.Finite.measurableSet (List.finite_toSet (t.map Prod.fst))).compl

/-- `uniformd(values=[2, 3])`. -/
example : ∃ s, uniformdCall (libOf muTab) [2, 3] "X" = .ok s ∧ (s.den muTab).real {ω | ω "X" = some (.num 3)} = 1 / 2 := by
  obtain ⟨s, hs⟩ : ∃ s, uniformdCall (libOf muTab) [2, 3] "X" = .ok s := by
    refine C49_table_total (by simp) ?_ "X"
    intro p hp
    simp only [List.map_cons, List.map_nil, List.mem_cons, List.not_mem_nil, or_false] at hp
    rcases hp with rfl | rfl
    · exact ⟨2, by norm_num⟩
    · exact ⟨3, by norm_num⟩
  refine ⟨s, hs, ?_⟩
  have := (C49_uniformd_partial (c := ctx0) tableOK_muTab (by norm_num) ?_ hs).2.1 3 (by simp)
  · simpa using this
  · intro x hx
    simp only [List.mem_cons, List.not_mem_nil, or_false] at hx
    rcases hx with rfl | rfl
    · exact ⟨2, by norm_num⟩
    · exact ⟨3, by norm_num⟩

end Sppl
