import Verif.Spe.Example
import Verif.Dnf.Props

/-!
# Properties C17-C20: probabilities of events (`spe.py`)
-/

namespace Sppl
open Classical MeasureTheory
open scoped ENNReal ProbabilityTheory

/-! ## C17: leaves -/

/-- C17: whenever `prob(e)` of a continuous, discrete, atomic or nominal leaf returns, it is the probability that a
draw from the (possibly truncated) distribution, extended with the derived variables, satisfies `e`.  (Almost surely,
no logarithm in `e` is taken at its singularity.)

Partial: `Spe.WF` excludes discrete leaves with negative values, for which the claim is false (`C17_negative_discrete_wrong`), and
`CanAsk` excludes comparisons of the variable of an atomic leaf with strings, for which it is false (`C18_atomic_string_wrong`), and the events for which
`solve` is wrong (C08). -/
theorem C17_leaf_prob_partial {c : Ctx} (hc : c.Correct) {L : Lib} {μ : Dist → Measure ℝ} {n : ℕ} {s : Spe} (hs : s.WF c L μ) (hl : s.isLeaf = true)
    {e : Ev} (he : s.CanAsk c e) (hr : ∀ᵐ ω ∂(s.den μ), e.Regular ω) {p : ℝ} (h : s.prob c L n e = .ok p) :
    p = (s.den μ).real {ω | e.holds ω} := by
  unfold Spe.prob at h
  rw [if_pos hl] at h
  refine leafProb_ok hc hs ?_ hr h
  cases s with
  | sum => simp [Spe.isLeaf, Spe.leafEnv] at hl
  | prod => simp [Spe.isLeaf, Spe.leafEnv] at hl
  | _ => exact he

/-- C17 for real leaves, in terms of the scipy distribution: the leaf with distribution `μ d`, truncated to `supp`, gives an event the
probability that `X ~ μ d` given `X ∈ supp` satisfies it. -/
theorem C17_real_leaf_prob_partial {c : Ctx} (hc : c.Correct) {L : Lib} {μ : Dist → Measure ℝ} {n : ℕ} {k : Kind} {X : String} {d : Dist} {supp : Ivl EReal}
    {env : Env} (hs : (Spe.real k X d supp true env).WF c L μ) {e : Ev} (he : e.MadeG true c)
    (hr : ∀ᵐ ω ∂((Spe.real k X d supp true env).den μ), e.Regular ω) {p : ℝ} (h : (Spe.real k X d supp true env).prob c L n e = .ok p) :
    p = (μ d).real {x | supp.Mem (x : EReal) ∧ e.holds (env.extend (baseAsg X (.num x)))} / (μ d).real {x | supp.Mem (x : EReal)} := by
  rw [C17_leaf_prob_partial hc hs rfl he hr h]
  obtain ⟨hl, -⟩ := hs.rleaf
  have hm : MeasurableSet {ω | e.holds ω} := e.measurable_set
  simp only [Spe.den, realMeas, if_true]
  rw [map_measureReal_apply (measurable_leafAsg X env) hm, measureReal_def, ProbabilityTheory.cond_apply (show MeasurableSet supp.reals from supp.measurableSet),
    ENNReal.toReal_mul, ENNReal.toReal_inv, div_eq_inv_mul]
  rfl

/-- `X` in `[1/4, 1/2)`. -/
noncomputable def quarterEv (X : String) : Ev := ivE (.id X) (1/4) (1/2) false true

theorem quarter_prob (n : ℕ) : (leafX "X").prob ctx0 (libOf muU) (n + 1) (quarterEv "X") = .ok (1/4) := by
  have h1 : leafSubst ctx0 (n + 1) "X" [("X", .id "X")] (quarterEv "X") = .ok (quarterEv "X") := by
    have hno : ¬ exprInEnv (quarterEv "X").symbols [("X", .id "X")] := by rintro ⟨s, -, hs⟩; exact hs (single_get "X" s)
    have hsub : (quarterEv "X").substitute ctx0 (n + 1) [("X", .id "X")] (n + 1) = .ok (quarterEv "X") := by simp [Ev.substitute, hno]
    unfold leafSubst
    rw [hsub]
    simp [bind, Except.bind, quarterEv, ivE, Ev.symbols, Tr.symbols]
  have h2 : (quarterEv "X").solve ctx0 (n + 1) = .ok (.pc (.ivl ⟨((1/4 : ℝ) : EReal), ((1/2 : ℝ) : EReal), false, true⟩)) := by
    simp only [quarterEv, ivE, Ev.solve]
  have h3 : Ivl.and unitIvl ⟨((1/4 : ℝ) : EReal), ((1/2 : ℝ) : EReal), false, true⟩ = .ok (.pc (.ivl ⟨((1/4 : ℝ) : EReal), ((1/2 : ℝ) : EReal), false, true⟩)) := by
    unfold Ivl.and
    have a : unitIvl.has ((1/4 : ℝ) : EReal) = true := by
      rw [Ivl.has_iff]; simp only [unitIvl, Ivl.Mem, Bool.false_eq_true, if_false, EReal.coe_le_coe_iff]; norm_num
    have b : unitIvl.has ((1/2 : ℝ) : EReal) = true := by
      rw [Ivl.has_iff]; simp only [unitIvl, Ivl.Mem, Bool.false_eq_true, if_false, EReal.coe_le_coe_iff]; norm_num
    simp only [a, b, Bool.and_self, if_true, ite_self]
  have c1 := unif_cdf (1/4) (by norm_num) (by norm_num)
  have c2 := unif_cdf (1/2) (by norm_num) (by norm_num)
  unfold Spe.prob
  rw [if_pos (show Spe.isLeaf _ = true from rfl)]
  simp only [leafProb, leafX, Spe.leafEnv, h1, h2, leafProbSet, SSet.and, Piece.and, h3, RLeaf.probValues, RLeaf.probPiece, RLeaf.probIvl, RLeaf.cdf,
    if_true, c1, c2, bind, Except.bind, pdiff]
  norm_num

/-- C17 non-vacuity: a uniform variable is in `[1/4, 1/2)` with probability 1/4. -/
example : (leafX "X").WF ctx0 (libOf muU) muU ∧ (leafX "X").CanAsk ctx0 (quarterEv "X") ∧ (∀ ω, (quarterEv "X").Regular ω) ∧
    (leafX "X").prob ctx0 (libOf muU) 5 (quarterEv "X") = .ok (1/4) :=
  ⟨leafX_wf _ _, .ivl (.id _) (by refine ⟨by simp only [EReal.coe_lt_coe_iff]; norm_num, fun h => absurd h (EReal.coe_ne_bot _), fun h => absurd h (EReal.coe_ne_top _)⟩),
    fun _ => trivial, quarter_prob 4⟩

/-- The distribution concentrated at `-1`, an integer. -/
noncomputable def muNeg : Dist → Measure ℝ := fun _ => Measure.dirac (-1)

theorem distOK_neg (d : Dist) : DistOK (libOf muNeg) muNeg .disc d where
  prob := by unfold muNeg; infer_instance
  cdf x := rfl
  cont := by intro h; cases h
  disc := by
    intro _
    have : ({x | ∀ n : ℤ, x ≠ n} : Set ℝ) ⊆ {x | x ≠ -1} := by
      intro x hx; have := hx (-1); simpa using this
    refine measure_mono_null this ?_
    have hm : MeasurableSet {x : ℝ | x ≠ -1} := (measurableSet_singleton (-1 : ℝ)).compl
    simp only [muNeg]; rw [Measure.dirac_apply' _ hm]; simp
  pmf := by intro _ x; rfl

theorem neg_cdf (x : ℝ) : (libOf muNeg).cdf d0 (x : EReal) = if -1 ≤ x then 1 else 0 := by
  simp only [libOf, muNeg, EReal.coe_le_coe_iff]
  have hm : MeasurableSet {y : ℝ | y ≤ x} := measurableSet_Iic
  rw [measureReal_def, Measure.dirac_apply' _ hm]
  by_cases h : -1 ≤ x <;> simp [h]

/-- C17 counterexample: a discrete leaf with a negative value.  Here `X = -1` with certainty (support `[-2, 3]`), and yet the
code computes probability 0 for `-3/2 < X <= 2`, since `int` truncates `-3/2` to `-1`. -/
theorem C17_negative_discrete_wrong : ∃ (d : Dist) (supp : Ivl EReal) (i : Ivl EReal), DistOK (libOf muNeg) muNeg .disc d ∧ supp.WF ∧
    i.WF ∧ muNeg d supp.reals = 1 ∧ RLeaf.probIvl (libOf muNeg) ⟨.disc, d, supp, false⟩ i = .ok 0 ∧ (muNeg d).real i.reals = 1 := by
  refine ⟨d0, ⟨((-2 : ℝ) : EReal), ((3 : ℝ) : EReal), false, false⟩, ⟨((-3/2 : ℝ) : EReal), ((2 : ℝ) : EReal), true, false⟩, distOK_neg _,
    ⟨by simp only [EReal.coe_lt_coe_iff]; norm_num, fun h => absurd h (EReal.coe_ne_bot _), fun h => absurd h (EReal.coe_ne_top _)⟩,
    ⟨by simp only [EReal.coe_lt_coe_iff]; norm_num, fun h => absurd h (EReal.coe_ne_bot _), fun h => absurd h (EReal.coe_ne_top _)⟩, ?_, ?_, ?_⟩
  · simp only [muNeg]
    rw [Measure.dirac_apply' _ (show MeasurableSet (Ivl.reals _) from Ivl.measurableSet _)]
    rw [Set.indicator_of_mem]; · rfl
    simp only [Ivl.reals, Set.mem_ofPred_eq, Ivl.Mem, Bool.false_eq_true, if_false, EReal.coe_le_coe_iff]; norm_num
  · have t1 : floatToInt ((-3/2 : ℝ) : EReal) = ((-1 : ℝ) : EReal) := by
      have : ⌈(-3/2 : ℝ)⌉ = -1 := by rw [Int.ceil_eq_iff]; norm_num
      unfold floatToInt
      rw [if_neg (by simp [EReal.coe_ne_bot, EReal.coe_ne_top]), EReal.toReal_coe]
      unfold truncZ
      rw [if_neg (by norm_num), this]; simp
    have t2 : floatToInt ((2 : ℝ) : EReal) = ((2 : ℝ) : EReal) := by
      have : ⌊(2 : ℝ)⌋ = 2 := by rw [Int.floor_eq_iff]; norm_num
      unfold floatToInt
      rw [if_neg (by simp [EReal.coe_ne_bot, EReal.coe_ne_top]), EReal.toReal_coe]
      unfold truncZ
      rw [if_pos (by norm_num), this]; simp
    simp only [RLeaf.probIvl, leftIncl, rightExcl, RLeaf.cdf, t1, t2, bind, Except.bind, if_true, Bool.false_eq_true, if_false, sub_zero, neg_cdf, pdiff]
    norm_num
  · simp only [muNeg]
    rw [measureReal_def, Measure.dirac_apply' _ (show MeasurableSet (Ivl.reals _) from Ivl.measurableSet _), Set.indicator_of_mem]; · simp
    simp only [Ivl.reals, Set.mem_ofPred_eq, Ivl.Mem, Bool.false_eq_true, if_false, if_true, EReal.coe_le_coe_iff, EReal.coe_lt_coe_iff]; norm_num

/-! ## C18: SPEs -/

/-- C18: for every well-formed SPE of any depth and every event over its variables, whenever `prob(e)` returns, it is
the probability of `e` under the distribution that the SPE denotes.

Partial: the exclusions are those of C17 (`Spe.WF`, `Spe.CanAsk`). -/
theorem C18_prob_partial {c : Ctx} (hc : c.Correct) {L : Lib} {μ : Dist → Measure ℝ} {n : ℕ} {s : Spe} (hs : s.WF c L μ) {e : Ev} (he : s.CanAsk c e)
    (hsym : e.symbols ⊆ s.symbols) (hr : ∀ᵐ ω ∂(s.den μ), e.Regular ω) {p : ℝ} (h : s.prob c L n e = .ok p) :
    p = (s.den μ).real {ω | e.holds ω} := prob_ok hc hs he hsym hr h

/-- C18: the distribution is a probability distribution. -/
theorem C18_den_prob {c : Ctx} {L : Lib} {μ : Dist → Measure ℝ} {s : Spe} (hs : s.WF c L μ) : s.den μ Set.univ = 1 := hs.prob.measure_univ

/-- C18 non-vacuity: for two coins, `Y == 'a' | Z == 'a'` has probability 3/4. -/
example : coins.WF ctx0 (libOf muU) muU ∧ coins.CanAsk ctx0 coinsEv ∧ coinsEv.symbols ⊆ coins.symbols ∧ (∀ ω, coinsEv.Regular ω) ∧
    coins.prob ctx0 (libOf muU) 5 coinsEv = .ok (3/4) := by
  refine ⟨coins_wf _ _ _, ⟨coinsEv_made _, ?_⟩, ?_, ?_, coins_prob _ 4⟩
  · simp [coin, Spe.atomSymsL, Spe.atomSyms, coinsEv, strEv, Ev.NomFree, Ev.NomFreeL]
  · decide
  · intro ω; simp [coinsEv, strEv, Ev.Regular, Ev.RegularL, Tr.Regular]

/-- C18 counterexample: an atomic leaf and a continuous leaf, neither of which ever takes a string value, disagree on `X != 'a'`: the atomic leaf says 1
and the continuous leaf says 0. -/
theorem C18_atomic_string_wrong (n : ℕ) :
    (Spe.atomic "X" 0 [("X", .id "X")]).prob ctx0 (libOf muU) (n + 1) (nomN "X" "a") = .ok 1 ∧
    (leafX "X").prob ctx0 (libOf muU) (n + 1) (nomN "X" "a") = .ok 0 := by
  have h1 : leafSubst ctx0 (n + 1) "X" [("X", .id "X")] (nomN "X" "a") = .ok (nomN "X" "a") := by
    have hno : ¬ exprInEnv (nomN "X" "a").symbols [("X", .id "X")] := by rintro ⟨s, -, hs⟩; exact hs (single_get "X" s)
    have hsub : (nomN "X" "a").substitute ctx0 (n + 1) [("X", .id "X")] (n + 1) = .ok (nomN "X" "a") := by simp [Ev.substitute, hno]
    unfold leafSubst
    rw [hsub]
    simp [bind, Except.bind, nomN, Ev.symbols, Tr.symbols]
  have h2 : (nomN "X" "a").solve ctx0 (n + 1) = .ok (.pc (.nom ⟨{"a"}, some true⟩)) := by simp [nomN, Ev.solve, optNom]
  constructor
  · unfold Spe.prob
    rw [if_pos (show Spe.isLeaf _ = true from rfl)]
    simp [leafProb, Spe.leafEnv, h1, h2, leafProbSet, SSet.contains, Piece.contains, Nom.neg, bind, Except.bind]
  · unfold Spe.prob
    rw [if_pos (show Spe.isLeaf _ = true from rfl)]
    simp [leafProb, leafX, Spe.leafEnv, h1, h2, leafProbSet, SSet.and, Piece.and, RLeaf.probValues, bind, Except.bind]

/-! ## C19: laws of probability

Partial, with the exclusions of C17. -/

/-- What is assumed of an event a well-formed SPE is asked about: built by a user, over variables of the SPE, and with no logarithm at its
singularity (almost surely). -/
structure Asks (c : Ctx) (μ : Dist → Measure ℝ) (s : Spe) (e : Ev) : Prop where
  can : s.CanAsk c e
  vars : e.symbols ⊆ s.symbols
  regular : ∀ᵐ ω ∂(s.den μ), e.Regular ω

theorem Spe.CanAsk.valid {c : Ctx} {s : Spe} {e : Ev} (h : s.CanAsk c e) : e.Valid := by
  cases s with
  | real => exact Ev.Made.valid _ h
  | atomic => exact Ev.Made.valid _ h.1
  | nominal => exact Ev.Made.valid _ h
  | sum => exact Ev.Made.valid _ h.1
  | prod => exact Ev.Made.valid _ h.1

theorem Asks.prob {c : Ctx} (hc : c.Correct) {L : Lib} {μ : Dist → Measure ℝ} {n : ℕ} {s : Spe} (hs : s.WF c L μ) {e : Ev} (he : Asks c μ s e)
    {p : ℝ} (h : s.prob c L n e = .ok p) : p = (s.den μ).real {ω | e.holds ω} := prob_ok hc hs he.can he.vars he.regular h

section
variable {c : Ctx} (hc : c.Correct) {L : Lib} {μ : Dist → Measure ℝ} {n : ℕ} {s : Spe} (hs : s.WF c L μ)
include hc hs

/-- C19: `0 <= prob(e) <= 1`. -/
theorem C19_bounds_partial {e : Ev} (he : Asks c μ s e) {p : ℝ} (h : s.prob c L n e = .ok p) : 0 ≤ p ∧ p ≤ 1 := by
  have := hs.prob
  rw [he.prob hc hs h]
  exact ⟨measureReal_nonneg, measureReal_le_one⟩

/-- C19: `prob(e | f) = prob(e) + prob(f) - prob(e & f)`. -/
theorem C19_union_partial {e f g k : Ev} (he : Asks c μ s e) (hf : Asks c μ s f) (hg : Asks c μ s g) (hk : Asks c μ s k)
    (hor : e.lor c f = .ok g) (hand : e.land c f = .ok k) {pe pf pg pk : ℝ} (h1 : s.prob c L n e = .ok pe) (h2 : s.prob c L n f = .ok pf)
    (h3 : s.prob c L n g = .ok pg) (h4 : s.prob c L n k = .ok pk) : pg = pe + pf - pk := by
  have := hs.prob
  rw [he.prob hc hs h1, hf.prob hc hs h2, hg.prob hc hs h3, hk.prob hc hs h4]
  have a := measureReal_union_add_inter (μ := s.den μ) (s := {ω | e.holds ω}) (Ev.measurable f)
  have b : {ω | g.holds ω} = {ω | e.holds ω} ∪ {ω | f.holds ω} := by
    ext ω; exact (Ev.lor_spec he.can.valid hf.can.valid hor).2 ω
  have d : {ω | k.holds ω} = {ω | e.holds ω} ∩ {ω | f.holds ω} := by
    ext ω; exact (Ev.land_spec he.can.valid hf.can.valid hand).2 ω
  rw [b, d]
  linarith

/-- C19: `prob(~e) = 1 - prob(e)`, when the expressions compared in `e` are almost surely defined and of the right kind. -/
theorem C19_not_partial {e g : Ev} (he : Asks c μ s e) (hg : Asks c μ s g) (hT : ∀ᵐ ω ∂(s.den μ), e.Typed ω) (hn : e.not c = .ok g)
    {pe pg : ℝ} (h1 : s.prob c L n e = .ok pe) (h2 : s.prob c L n g = .ok pg) : pg = 1 - pe := by
  have := hs.prob
  rw [he.prob hc hs h1, hg.prob hc hs h2]
  rw [← probReal_compl_eq_one_sub (Ev.measurable e)]
  refine measureReal_congr ?_
  filter_upwards [hT] with ω hω
  exact propext ((Ev.not_spec e he.can.valid hn).2 ω hω)

/-- C19: an event that implies another one is at most as probable. -/
theorem C19_mono_partial {e f : Ev} (he : Asks c μ s e) (hf : Asks c μ s f) (hle : ∀ ω, e.holds ω → f.holds ω)
    {pe pf : ℝ} (h1 : s.prob c L n e = .ok pe) (h2 : s.prob c L n f = .ok pf) : pe ≤ pf := by
  have := hs.prob
  rw [he.prob hc hs h1, hf.prob hc hs h2]
  exact measureReal_mono hle

/-- C19: events that are satisfied by the same assignments have the same probability, whatever their syntax (and whatever the fuel). -/
theorem C19_ext_partial {e f : Ev} (he : Asks c μ s e) (hf : Asks c μ s f) (heq : ∀ ω, e.holds ω ↔ f.holds ω) {n' : ℕ}
    {pe pf : ℝ} (h1 : s.prob c L n e = .ok pe) (h2 : s.prob c L n' f = .ok pf) : pe = pf := by
  rw [he.prob hc hs h1, hf.prob hc hs h2]
  exact congrArg _ (Set.ext heq)

/-- C19: additivity for incompatible events. -/
theorem C19_additive_partial {e f g : Ev} (he : Asks c μ s e) (hf : Asks c μ s f) (hg : Asks c μ s g) (hor : e.lor c f = .ok g)
    (hdis : ∀ ω, ¬ (e.holds ω ∧ f.holds ω)) {pe pf pg : ℝ} (h1 : s.prob c L n e = .ok pe) (h2 : s.prob c L n f = .ok pf)
    (h3 : s.prob c L n g = .ok pg) : pg = pe + pf := by
  have := hs.prob
  rw [he.prob hc hs h1, hf.prob hc hs h2, hg.prob hc hs h3]
  have b : {ω | g.holds ω} = {ω | e.holds ω} ∪ {ω | f.holds ω} := by
    ext ω; exact (Ev.lor_spec he.can.valid hf.can.valid hor).2 ω
  rw [b, measureReal_union _ (Ev.measurable f)]
  exact Set.disjoint_left.2 (fun ω a b => hdis ω ⟨a, b⟩)

/-- C19: total probability, `prob(e) = prob(e & f) + prob(e & ~f)`, when `f` is almost surely defined and of the right kind. -/
theorem C19_total_partial {e f g k l : Ev} (he : Asks c μ s e) (hf : Asks c μ s f) (hk : Asks c μ s k) (hl : Asks c μ s l)
    (hT : ∀ᵐ ω ∂(s.den μ), f.Typed ω) (hn : f.not c = .ok g) (h1 : e.land c f = .ok k) (h2 : e.land c g = .ok l) {pe pk pl : ℝ}
    (p1 : s.prob c L n e = .ok pe) (p2 : s.prob c L n k = .ok pk) (p3 : s.prob c L n l = .ok pl) : pe = pk + pl := by
  have := hs.prob
  rw [he.prob hc hs p1, hk.prob hc hs p2, hl.prob hc hs p3]
  have hv := Ev.not_spec f hf.can.valid hn
  rw [← measureReal_inter_add_sdiff (μ := s.den μ) (s := {ω | e.holds ω}) (Ev.measurable f)]
  congr 1
  · refine congrArg _ (Set.ext fun ω => ?_)
    exact ((Ev.land_spec he.can.valid hf.can.valid h1).2 ω).symm
  · refine measureReal_congr ?_
    filter_upwards [hT] with ω hω
    refine propext ?_
    have a := (Ev.land_spec he.can.valid hv.1 h2).2 ω
    have b := hv.2 ω hω
    show (e.holds ω ∧ ¬ f.holds ω) ↔ l.holds ω
    rw [a, b]
end

/-! ## C20: inclusion-exclusion -/

/-- C20: the loop of `ProductSPE.logprob` over the subsets of the clauses, with its list of subsets to avoid, computes the probability of the
union of the clauses: if every probability it asks for (for a nonempty set `J` of clauses) is that of the intersection, then what it returns is that of the
union. -/
theorem C20_inclusion_exclusion {Ω : Type} [MeasurableSpace Ω] (P : Measure Ω) [IsFiniteMeasure P] {A : ℕ → Set Ω} (hA : ∀ k, MeasurableSet (A k))
    {m : ℕ} {f : List ℕ → Res ℝ} (hf : ∀ J p, J ≠ [] → (∀ j ∈ J, j < m) → f J = .ok p → p = P.real {ω | ∀ j ∈ J, ω ∈ A j}) {p : ℝ}
    (h : inclExcl m f = .ok p) : p = P.real {ω | ∃ k < m, ω ∈ A k} := inclExcl_ok P hA hf h

/-- C20 non-vacuity: two independent fair coins, the union of "the first is heads" and "the second is heads". -/
example : ∃ (P : Measure (Bool × Bool)) (_ : IsFiniteMeasure P) (A : ℕ → Set (Bool × Bool)) (f : List ℕ → Res ℝ),
    (∀ k, MeasurableSet (A k)) ∧ A 0 ≠ A 1 ∧ (∀ J p, J ≠ [] → (∀ j ∈ J, j < 2) → f J = .ok p → p = P.real {ω | ∀ j ∈ J, ω ∈ A j}) ∧ ∃ p, inclExcl 2 f = .ok p := by
  refine ⟨Measure.count, inferInstance, fun k => if k = 0 then {ω | ω.1 = true} else {ω | ω.2 = true},
    fun J => .ok (Measure.count.real {ω : Bool × Bool | ∀ j ∈ J, ω ∈ (if j = 0 then {ω | ω.1 = true} else {ω | ω.2 = true} : Set (Bool × Bool))}),
    fun k => MeasurableSet.of_discrete, ?_, ?_, ?_⟩
  · intro h
    have := congrArg (fun S => (true, false) ∈ S) h
    simp at this
  · intro J p _ _ h; cases h; rfl
  · exact ⟨_, inclExcl_total Measure.count (fun k => MeasurableSet.of_discrete) (fun J _ _ => rfl)⟩

/-- C20: and it always returns if the probabilities of the intersections can be computed: the difference of the positive and the
negative terms is never of the wrong sign. -/
theorem C20_inclusion_exclusion_total {Ω : Type} [MeasurableSpace Ω] (P : Measure Ω) [IsFiniteMeasure P] {A : ℕ → Set Ω} (hA : ∀ k, MeasurableSet (A k))
    {m : ℕ} {f : List ℕ → Res ℝ} (hf : ∀ J, J ≠ [] → (∀ j ∈ J, j < m) → f J = .ok (P.real {ω | ∀ j ∈ J, ω ∈ A j})) :
    inclExcl m f = .ok (P.real {ω | ∃ k < m, ω ∈ A k}) := inclExcl_total P hA hf

/-- The probability of `Y << m` under a fair coin. -/
theorem coin_prob_set (L : Lib) (n : ℕ) (Y : String) {m k : Nom} {q : ℚ} (hm : nominalValues ctx0 [("a", 1/2), ("b", 1/2)] (.pc (.nom m)) = .ok (.pc (.nom k)))
    (hk : k ≠ ⟨∅, some true⟩) (hq : nominalMass [("a", 1/2), ("b", 1/2)] k.vals = .ok q) :
    (coin Y).prob ctx0 L (n + 1) (.nom (.id Y) (some m)) = .ok (q : ℝ) := by
  have h1 : leafSubst ctx0 (n + 1) Y [(Y, .id Y)] (.nom (.id Y) (some m)) = .ok (.nom (.id Y) (some m)) := by
    have hno : ¬ exprInEnv (Ev.nom (.id Y) (some m)).symbols [(Y, .id Y)] := by rintro ⟨s, -, hs⟩; exact hs (single_get Y s)
    have hsub : (Ev.nom (.id Y) (some m)).substitute ctx0 (n + 1) [(Y, .id Y)] (n + 1) = .ok (.nom (.id Y) (some m)) := by simp [Ev.substitute, hno]
    unfold leafSubst
    rw [hsub]
    simp [bind, Except.bind, Ev.symbols, Tr.symbols]
  have h2 : (Ev.nom (.id Y) (some m)).solve ctx0 (n + 1) = .ok (.pc (.nom m)) := by simp [Ev.solve, optNom]
  unfold Spe.prob
  rw [if_pos (show Spe.isLeaf _ = true from rfl)]
  simp only [leafProb, coin, Spe.leafEnv, h1, h2, leafProbSet, hm, hq, bind, Except.bind, hk, if_false]

/-- What the laws ask of an event about a coin. -/
theorem coin_asks (Y : String) {v : Option Nom} (hv : ∀ m, v = some m → m.WF) : Asks ctx0 muU (coin Y) (.nom (.id Y) v) where
  can := .nom (.id _) (by simp) (fun m hm => ⟨hv m hm, fun _ _ => rfl⟩)
  vars := by simp [coin, Ev.symbols, Tr.symbols, Spe.symbols]
  regular := by filter_upwards with ω; simp [Ev.Regular, Tr.Regular]

/-- C19 non-vacuity: for a fair coin, `Y == 'a'` has probability 1/2, `Y == 'b'` has probability 1/2, `Y << {'a', 'b'}` has probability 1, and the
complement `Y != 'a'` has probability 1/2. -/
theorem coin_facts : (coin "Y").WF ctx0 (libOf muU) muU ∧ Asks ctx0 muU (coin "Y") (strEv "Y" "a") ∧ Asks ctx0 muU (coin "Y") (strEv "Y" "b") ∧
    (strEv "Y" "a").lor ctx0 (strEv "Y" "b") = .ok (.nom (.id "Y") (some ⟨{"a", "b"}, some false⟩)) ∧
    (strEv "Y" "a").land ctx0 (strEv "Y" "b") = .ok (.fin (.id "Y") none) ∧
    (strEv "Y" "a").not ctx0 = .ok (nomN "Y" "a") ∧
    (coin "Y").prob ctx0 (libOf muU) 5 (strEv "Y" "a") = .ok (1/2) ∧ (coin "Y").prob ctx0 (libOf muU) 5 (strEv "Y" "b") = .ok (1/2) ∧
    (coin "Y").prob ctx0 (libOf muU) 5 (.nom (.id "Y") (some ⟨{"a", "b"}, some false⟩)) = .ok 1 ∧
    (coin "Y").prob ctx0 (libOf muU) 5 (.fin (.id "Y") none) = .ok 0 ∧
    (coin "Y").prob ctx0 (libOf muU) 5 (nomN "Y" "a") = .ok (1/2) := by
  have f1 : Finset.filter (fun x => x = "a") ({"a", "b"} : Finset String) = {"a"} := by decide
  have f2 : Finset.filter (fun x => x = "b") ({"a", "b"} : Finset String) = {"b"} := by decide
  have f3 : Finset.filter (fun x => ¬ x = "a") ({"a", "b"} : Finset String) = {"b"} := by decide
  have f4 : Finset.filter (fun x => x = "a" ∨ x = "b") ({"a", "b"} : Finset String) = {"a", "b"} := by decide
  have f5 : ({"a", "b"} : Finset String).sort (· ≤ ·) = ["a", "b"] := by
    rw [Finset.sort_insert _ (by simp) (by decide)]; simp
  have nv : ∀ m k : Nom, SSet.and ctx0.σ (.pc (.nom ⟨{"a", "b"}, none⟩)) (.pc (.nom m)) = .ok (.pc (.nom k)) →
      nominalValues ctx0 [("a", 1/2), ("b", 1/2)] (.pc (.nom m)) = .ok (.pc (.nom k)) := by
    intro m k h
    unfold nominalValues mkNom
    simpa [bind, Except.bind] using h
  have m1 : nominalMass [("a", 1/2), ("b", 1/2)] {"a"} = .ok (1/2) := by
    unfold nominalMass
    simp [bind, Except.bind, pure, Except.pure, List.mapM_cons]
  have m2 : nominalMass [("a", 1/2), ("b", 1/2)] {"b"} = .ok (1/2) := by
    unfold nominalMass
    simp [bind, Except.bind, pure, Except.pure, List.mapM_cons, List.lookup]
  have m3 : nominalMass [("a", 1/2), ("b", 1/2)] {"a", "b"} = .ok 1 := by
    unfold nominalMass
    rw [f5]
    simp [bind, Except.bind, pure, Except.pure, List.mapM_cons, List.lookup]
    norm_num
  refine ⟨coin_wf _ _ _ _, coin_asks _ (by simp [Nom.WF]), coin_asks _ (by simp [Nom.WF]), ?_, ?_, ?_, ?_, ?_, ?_, ?_, ?_⟩
  · have e : ({"a"} ∪ {"b"} : Finset String) = {"a", "b"} := by decide
    simp [strEv, Ev.lor, Ev.simplify, Ev.basic?, Ev.values, SSet.or, Piece.or, Nom.or, Nom.neg, mkNom, bind, Except.bind, Ev.ofSet, e]
  · simp [strEv, Ev.land, Ev.simplify, Ev.basic?, Ev.values, SSet.and, Piece.and, Nom.and, Nom.neg, Nom.has, nomOrEmpty, bind, Except.bind, Ev.ofSet]
  · simp [strEv, nomN, Ev.not, SSet.invert, Piece.invert, Nom.invert, Nom.neg, mkNom, notNom, optNom, bind, Except.bind]
  · have := coin_prob_set (libOf muU) 4 "Y" (m := ⟨{"a"}, none⟩) (nv _ ⟨{"a"}, none⟩ (by
      simp [SSet.and, Piece.and, Nom.and, Nom.neg, nomOrEmpty, f1, mkNom, Nom.has, bind, Except.bind])) (by simp) m1
    simpa [strEv] using this
  · have := coin_prob_set (libOf muU) 4 "Y" (m := ⟨{"b"}, none⟩) (nv _ ⟨{"b"}, none⟩ (by
      simp [SSet.and, Piece.and, Nom.and, Nom.neg, nomOrEmpty, f2, mkNom, Nom.has, bind, Except.bind])) (by simp) m2
    simpa [strEv] using this
  · have := coin_prob_set (libOf muU) 4 "Y" (m := ⟨{"a", "b"}, some false⟩) (nv _ ⟨{"a", "b"}, none⟩ (by
      simp [SSet.and, Piece.and, Nom.and, Nom.neg, nomOrEmpty, f4, mkNom, Nom.has, bind, Except.bind])) (by simp) m3
    simpa using this
  · have h1 : leafSubst ctx0 5 "Y" [("Y", .id "Y")] (.fin (.id "Y") none) = .ok (.fin (.id "Y") none) := by
      have hno : ¬ exprInEnv (Ev.fin (.id "Y") none).symbols [("Y", .id "Y")] := by rintro ⟨s, -, hs⟩; exact hs (single_get "Y" s)
      have hsub : (Ev.fin (.id "Y") none).substitute ctx0 5 [("Y", .id "Y")] 5 = .ok (.fin (.id "Y") none) := by simp [Ev.substitute, hno]
      unfold leafSubst
      rw [hsub]
      simp [bind, Except.bind, Ev.symbols, Tr.symbols]
    have h2 : (Ev.fin (.id "Y") none).solve ctx0 5 = .ok .empty := by simp [Ev.solve, optFin]
    unfold Spe.prob
    rw [if_pos (show Spe.isLeaf _ = true from rfl)]
    simp [leafProb, coin, Spe.leafEnv, h1, h2, leafProbSet, nominalValues, mkNom, SSet.and, bind, Except.bind]
  · have := coin_prob_set (libOf muU) 4 "Y" (m := ⟨{"a"}, some true⟩) (nv _ ⟨{"b"}, none⟩ (by
      simp [SSet.and, Piece.and, Nom.and, Nom.neg, nomOrEmpty, f3, mkNom, Nom.has, bind, Except.bind])) (by simp) m2
    simpa [nomN] using this

end Sppl
