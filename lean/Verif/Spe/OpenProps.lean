import Verif.Spe.OpenLemmas
import Verif.Events.NestLemmas

set_option linter.all false

/-!
# C18: `prob` of leaves on events whose solutions have several parts

The support of a leaf is an interval.  If it is open (like that of a normal variable), `prob` returns on every event about
the symbol of the leaf that `solve` solves, in particular on inequalities with absolute values and reciprocals.  If it is
open at one end only (like that of an exponential variable), this holds if the solution has no isolated numbers.  If both
ends belong to it (like those of a uniform variable), `prob` can raise already on the single comparison `abs(X) >= 1`.
-/

namespace Sppl
open Classical MeasureTheory
open scoped ENNReal ProbabilityTheory

variable {c : Ctx} {L : Lib} {μ : Dist → Measure ℝ} {k : Kind} {X : String} {d : Dist} {supp : Ivl EReal} {cond : Bool} {env : Env} {e : Ev}

/-- The step shared by the next theorems. -/
theorem leaf_parts (hc : c.Correct) (hs : (Spe.real k X d supp cond env).WF c L μ) (he : e.symbols = {X}) (hm : e.MadeG true c)
    {N : ℕ} {S : SSet EReal} (hS : e.solve c N = .ok S)
    (h : (supp.lo = true ∧ supp.ro = true) ∨ ((∀ u, S = .un u → u.atoms = none) ∧ (supp.lo = true ∨ supp.ro = true)))
    (hr : ∀ᵐ ω ∂((Spe.real k X d supp cond env).den μ), e.Regular ω) :
    ∀ n, N ≤ n → (Spe.real k X d supp cond env).prob c L n e = .ok (((Spe.real k X d supp cond env).den μ).real {ω | e.holds ω}) := by
  intro n hn
  obtain ⟨w1, w2, -⟩ := Ev.solve_exact hc hm hS
  obtain ⟨h1, -, h2, -⟩ := hs.rleaf
  obtain ⟨V, hV⟩ := open_and_total c.σ h1.wf w1 w2 h
  obtain ⟨p, hp⟩ := realLeaf_prob_total (c := c) h1 h2 w1 w2 hV
  have hl : (Spe.real k X d supp cond env).leafEnv = some (X, env) := rfl
  have hp' : (Spe.real k X d supp cond env).prob c L n e = .ok p := by
    unfold Spe.prob
    rw [if_pos (by simp [Spe.isLeaf, hl])]
    simp only [leafProb, hl, leafSubst_base (leafEnv_built hs hl) he n, Ev.solve_le hn e _ hS, bind, Except.bind, leafProbSet, hV, hp]
  rw [hp', C18_prob_partial hc hs hm (by rw [he]; intro s hs'; rw [Finset.mem_singleton.1 hs']; simpa using leafEnv_mem hs hl) hr hp']

/-- **C18 (`prob` of a leaf with an open support returns on every solvable event).** -/
theorem C18_open_total (hc : c.Correct) (hs : (Spe.real k X d supp cond env).WF c L μ) (ho : supp.lo = true ∧ supp.ro = true) (he : e.symbols = {X})
    (hm : e.MadeG true c) (hS : ∃ N S, e.solve c N = .ok S) (hr : ∀ᵐ ω ∂((Spe.real k X d supp cond env).den μ), e.Regular ω) :
    ∃ N, ∀ n, N ≤ n → (Spe.real k X d supp cond env).prob c L n e = .ok (((Spe.real k X d supp cond env).den μ).real {ω | e.holds ω}) := by
  obtain ⟨N, S, hS⟩ := hS
  exact ⟨N, leaf_parts hc hs he hm hS (.inl ho) hr⟩

/-- **C18 (`prob` of a leaf with a support open at one end).** It returns on every event whose solution has no isolated
numbers. -/
theorem C18_half_open_total (hc : c.Correct) (hs : (Spe.real k X d supp cond env).WF c L μ) (ho : supp.lo = true ∨ supp.ro = true) (he : e.symbols = {X})
    (hm : e.MadeG true c) (hS : ∃ N S, e.solve c N = .ok S ∧ ∀ u, S = .un u → u.atoms = none)
    (hr : ∀ᵐ ω ∂((Spe.real k X d supp cond env).den μ), e.Regular ω) :
    ∃ N, ∀ n, N ≤ n → (Spe.real k X d supp cond env).prob c L n e = .ok (((Spe.real k X d supp cond env).den μ).real {ω | e.holds ω}) := by
  obtain ⟨N, S, hS, hu⟩ := hS
  exact ⟨N, leaf_parts hc hs he hm hS (.inr ⟨hu, ho⟩) hr⟩

/-- **C18 (absolute values and reciprocals on a leaf with an open support).** `prob` returns on the events of
`C61_abs_partial`. -/
theorem C18_abs_total (hc : c.Correct) (hl : c.Linear) (hs : (Spe.real k X d supp cond env).WF c L μ) (ho : supp.lo = true ∧ supp.ro = true) (he : e.PeakDnf X)
    (hr : ∀ᵐ ω ∂((Spe.real k X d supp cond env).den μ), e.Regular ω) :
    ∃ N, ∀ n, N ≤ n → (Spe.real k X d supp cond env).prob c L n e = .ok (((Spe.real k X d supp cond env).den μ).real {ω | e.holds ω}) :=
  C18_open_total hc hs ho he.symbols he.made.mono (he.solve hc hl) hr

/-! ## A comparison on which `prob` raises -/

/-- `abs(X) >= 1`. -/
noncomputable def absGe : Ev := .ivl (.abs (.id "X")) geI
/-- The union of `[1, oo)` and `(-oo, -1]`. -/
noncomputable def absUn : Un EReal := ⟨none, none, [geI, leI], [.ivl geI, .ivl leI], [.ivl geI, .ivl leI]⟩

theorem not_one_le_m1 : ¬ (1 : EReal) ≤ -1 := not_le.2 m1_lt
theorem m1_ne_bot : (-1 : EReal) ≠ ⊥ := bot_lt_m1.ne'

theorem ge_or_le : SSet.or ctx0.σ (.pc (.ivl geI)) (.pc (.ivl leI)) = .ok (.un absUn) := by
  have b1 : geI.has (-1) = false := by rw [Bool.eq_false_iff, Ne, Ivl.has_iff]; exact fun h => absurd h.1 not_one_le_m1
  have b2 : geI.has ⊥ = false := by rw [Bool.eq_false_iff, Ne, Ivl.has_iff]; exact fun h => absurd h.1 (not_le.2 (bot_lt_m1.trans m1_lt))
  have b3 : leI.has 1 = false := by rw [Bool.eq_false_iff, Ne, Ivl.has_iff]; exact fun h => absurd h.2 not_one_le_m1
  have b4 : leI.has ⊤ = false := by rw [Bool.eq_false_iff, Ne, Ivl.has_iff]; exact fun h => absurd h.2 (not_le.2 (m1_lt.trans one_lt_top'))
  have h1 : geI ≠ leI := by simp
  have : Ivl.and leI geI = .ok .empty := by
    unfold Ivl.and
    rw [if_neg h1, if_neg (by simp [b3]), if_neg (by simp [b2]), if_neg (by simp [b3]), if_neg (by simp [b4])]
    rw [if_neg (by exact (bot_lt_m1.trans m1_lt).ne), if_neg (by exact (m1_lt.trans one_lt_top').ne)]
  simp only [SSet.or, Piece.or, Ivl.or, this, bind, Except.bind, if_neg h1]
  rw [if_pos (by simp [SSet.isEmpty, b1, b2, b3, b4])]
  simp [mkUnion, absUn, SSet.isUnion, SSet.piece?, Piece.nom?, Piece.fin?, Piece.ivl?, ctx0, Orders.id, List.filterMap, List.findSome?]

theorem absGe_solve (n : ℕ) : absGe.solve ctx0 (n + 4) = .ok (.un absUn) := by
  have ext : extReals ctx0 = .ok (.un ⟨none, some {⊥, ⊤}, [⟨⊥, ⊤, true, true⟩], [.fin {⊥, ⊤}, .ivl ⟨⊥, ⊤, true, true⟩], [.fin {⊥, ⊤}, .ivl ⟨⊥, ⊤, true, true⟩]⟩) := by
    simp [extReals, SSet.reals, mkUnion, SSet.isUnion, SSet.piece?, Piece.nom?, Piece.fin?, Piece.ivl?, ctx0, Orders.id, List.filterMap]
  obtain ⟨r, r1, r2⟩ := extReals_rng ctx0
  rw [ext] at r1; cases r1
  have part : ∀ i : Ivl EReal, i.WF → Un.andPiece ctx0.σ ⟨none, some {⊥, ⊤}, [⟨⊥, ⊤, true, true⟩], [.fin {⊥, ⊤}, .ivl ⟨⊥, ⊤, true, true⟩], [.fin {⊥, ⊤}, .ivl ⟨⊥, ⊤, true, true⟩]⟩ (.ivl i) = .ok (.pc (.ivl i)) := by
    intro i hi
    have := rng_and_ivl ctx0.σ r2 full_wf hi
    rw [and_full hi] at this
    exact this
  have inv1 : ∀ (m : ℕ) (i : Ivl EReal), i.WF → Tr.invert ctx0 (m + 1) (.id "X") (.pc (.ivl i)) = .ok (.pc (.ivl i)) := by
    intro m i hi
    rw [Tr.invert]
    simp only [Tr.range, ext, bind, Except.bind, SSet.and, part i hi]
    rfl
  have hor := ge_or_le
  have hand : SSet.and ctx0.σ (.un ⟨none, some {⊥, ⊤}, [⟨⊥, ⊤, true, true⟩], [.fin {⊥, ⊤}, .ivl ⟨⊥, ⊤, true, true⟩], [.fin {⊥, ⊤}, .ivl ⟨⊥, ⊤, true, true⟩]⟩) (.un absUn) = .ok (.un absUn) := by
    simp only [SSet.and, absUn, List.mapM_cons, List.mapM_nil, part _ geI_wf, part _ leI_wf, bind, Except.bind, pure, Except.pure, reduceM, List.foldlM_cons, List.foldlM_nil, hor]
  have inv2 : Tr.invert ctx0 (n + 2) (.id "X") (.un absUn) = .ok (.un absUn) := by
    rw [Tr.invert]
    simp only [Tr.range, ext, bind, Except.bind, hand, Tr.invertStep_un]
    simp only [absUn, List.mapM_cons, List.mapM_nil, inv1 n _ geI_wf, inv1 n _ leI_wf, bind, Except.bind, pure, Except.pure, makeUnion, reduceM, List.foldlM_cons, List.foldlM_nil, hor]
  obtain ⟨q, q1, q2⟩ := extRealsPos_rng ctx0
  have hpos : SSet.and ctx0.σ q (.pc (.ivl geI)) = .ok (.pc (.ivl geI)) := by
    rw [rng_and_ivl ctx0.σ q2 pos_wf geI_wf]
    have c1 : posIvl.has 1 = true := (Ivl.has_iff _ _).2 ⟨zero_le_one, one_lt_top'⟩
    have c2 : posIvl.has ⊤ = false := by rw [Bool.eq_false_iff, Ne, Ivl.has_iff]; exact fun h => absurd h.2 (lt_irrefl _)
    have c3 : geI.has 0 = false := by rw [Bool.eq_false_iff, Ne, Ivl.has_iff]; exact fun h => absurd h.1 not_one_le_zero
    unfold Ivl.and
    rw [if_neg (by simp), if_neg (by simp [c2]), if_neg (by simp [c3]), if_pos c1, if_neg (by exact one_lt_top'.ne')]
    simp [mkIvl, one_lt_top', bind, Except.bind, one_ne_bot']
  have pre : absInterval ctx0 geI = .ok (.un absUn) := by
    have e1 : transformInterval geI 1 ⊤ false = .ok geI := by simp [transformInterval, mkIvl, one_lt_top', one_ne_bot']
    have e2 : transformInterval geI (-⊤) (-1) true = .ok leI := by
      have : (-1 : EReal) ≠ ⊤ := (m1_lt.trans one_lt_top').ne
      simp [transformInterval, mkIvl, bot_lt_m1, this]
    simp only [absInterval, e1, e2, bind, Except.bind, hor]
  have inv3 : Tr.invert ctx0 (n + 3) (.abs (.id "X")) (.pc (.ivl geI)) = .ok (.un absUn) := by
    rw [Tr.invert]
    simp only [Tr.range, q1, bind, Except.bind, hpos, Tr.invertStep, Tr.invertInterval, Tr.intervalPre, pre, Tr.sub, inv2]
  obtain ⟨xs, h4, h5⟩ := iterUnion_one (c := ctx0) (y := 1) (f := fun y => Ev.finvReal ctx0 (.pc (.ivl geI)) y) (X := .pc (.ivl geI)) (by simp [Ev.finvReal]) (ivl_or_self _ _)
  unfold absGe
  rw [Ev.solve, if_neg (by simp [Ev.symbols, Tr.symbols])]
  · rw [Ev.invert]
    simp only [bool_and_one, bind, Except.bind, Ev.invertFinite, h4, h5, inv3]
  all_goals simp

/-- The uniform distribution on `[-1, 1]`. -/
noncomputable def unif2 : Measure ℝ := (2 : ℝ≥0∞)⁻¹ • volume.restrict (Set.Icc (-1) 1)

instance : IsProbabilityMeasure unif2 := ⟨by
  simp only [unif2, Measure.smul_apply, Measure.restrict_apply MeasurableSet.univ, Set.univ_inter, Real.volume_Icc, smul_eq_mul]
  norm_num
  exact ENNReal.inv_mul_cancel (by simp) (by simp)⟩

theorem distOK_unif2 (d : Dist) : DistOK (libOf fun _ => unif2) (fun _ => unif2) .cont d where
  prob := by infer_instance
  cdf x := rfl
  cont := by intro _ x; simp [unif2]
  disc := by intro h; cases h
  pmf := by intro h; cases h

/-- A variable that is uniform on `[-1, 1]`. -/
noncomputable def leafPM : Spe := .real .cont "X" d0 unitI false [("X", .id "X")]

theorem leafPM_wf (c : Ctx) : leafPM.WF c (libOf fun _ => unif2) (fun _ => unif2) := by
  refine .real (distOK_unif2 d0) (envOK_single c "X") unitI_wf (by intro h; cases h) ?_ ?_
  · have : unitI.reals = Set.Icc (-1) 1 := by
      ext x
      have e : (-1 : EReal) = ((-1 : ℝ) : EReal) := by simp
      have e' : (1 : EReal) = ((1 : ℝ) : EReal) := by simp
      simp only [unitI, Ivl.reals, Set.mem_setOf_eq, Ivl.Mem, Bool.false_eq_true, if_false, Set.mem_Icc]
      rw [e, e', EReal.coe_le_coe_iff, EReal.coe_le_coe_iff]
    simp only [Bool.false_eq_true, if_false, this]
    simp only [unif2, Measure.smul_apply, Measure.restrict_apply measurableSet_Icc, Set.inter_self, Real.volume_Icc, smul_eq_mul]
    norm_num
    exact ENNReal.inv_mul_cancel (by simp) (by simp)
  · refine Filter.Eventually.of_forall (fun x p hp => ?_)
    simp at hp; subst hp; trivial

/-- C18: for a variable that is uniform on `[-1, 1]`, `prob(abs(X) >= 1)` raises an `AssertionError`: the comparison is
solved, but `Union` refuses the two sets `{-1}` and `{1}` that the solution and the support have in common. -/
theorem C18_abs_raises : leafPM.WF ctx0 (libOf fun _ => unif2) (fun _ => unif2) ∧ absGe.PeakLit "X" ∧
    (∀ n, ∃ S, absGe.solve ctx0 (n + 4) = .ok S) ∧ ∀ n, leafPM.prob ctx0 (libOf fun _ => unif2) (n + 4) absGe = .error .assertion := by
  refine ⟨leafPM_wf _, .ivl (.abs .id) geI_wf, fun n => ⟨_, absGe_solve n⟩, fun n => ?_⟩
  have hs : leafSubst ctx0 (n + 4) "X" [("X", .id "X")] absGe = .ok absGe := leafSubst_base .base (by simp [absGe, Ev.symbols, Tr.symbols]) _
  have ha : SSet.and ctx0.σ (.pc (.ivl unitI)) (.un absUn) = .error .assertion := by
    simp only [SSet.and, Un.andPiece, absUn, andOptFin, List.mapM_cons, List.mapM_nil, Piece.and, bind, Except.bind, pure, Except.pure, le_and_unit, ge_and_unit]
    simp [SSet.isEmpty, finishAnd, mkUnion, SSet.isUnion, List.filterMap_cons]
  unfold Spe.prob
  rw [if_pos (by simp [leafPM, Spe.isLeaf, Spe.leafEnv])]
  simp only [leafPM, Spe.leafEnv, leafProb, hs, absGe_solve, leafProbSet, ha, bind, Except.bind]

/-! ## Non-vacuity -/

/-- The same variable with the support `(-1, 1)`, and with the support `(-1, 1]`. -/
noncomputable def leafPMo (ro : Bool) : Spe := .real .cont "X" d0 ⟨-1, 1, true, ro⟩ true [("X", .id "X")]

theorem leafPMo_wf (c : Ctx) (ro : Bool) : (leafPMo ro).WF c (libOf fun _ => unif2) (fun _ => unif2) := by
  refine .real (distOK_unif2 d0) (envOK_single c "X") ⟨m1_lt, by simp, fun h => absurd h one_lt_top'.ne⟩ (by intro h; cases h) ?_ ?_
  · have : Set.Ioo (-1) 1 ⊆ (⟨-1, 1, true, ro⟩ : Ivl EReal).reals := by
      intro x hx
      have e : (-1 : EReal) = ((-1 : ℝ) : EReal) := by simp
      have e' : (1 : EReal) = ((1 : ℝ) : EReal) := by simp
      refine Ivl.mem_of_btwn ?_ ?_
      · show (-1 : EReal) < x
        rw [e, EReal.coe_lt_coe_iff]; exact hx.1
      · show (x : EReal) < 1
        rw [e', EReal.coe_lt_coe_iff]; exact hx.2
    simp only [if_true]
    intro h0
    have h1 := measure_mono_null this h0
    simp only [unif2, Measure.smul_apply, Measure.restrict_apply measurableSet_Ioo, smul_eq_mul] at h1
    rw [Set.inter_eq_left.2 Set.Ioo_subset_Icc_self, Real.volume_Ioo] at h1
    norm_num at h1
  · refine Filter.Eventually.of_forall (fun x p hp => ?_)
    simp at hp; subst hp; trivial

/-- `abs(X) >= 1` on the open support, with all hypotheses of `C18_open_total` and `C18_abs_total`. -/
example : ctx0.Correct ∧ ctx0.Linear ∧ (leafPMo true).WF ctx0 (libOf fun _ => unif2) (fun _ => unif2) ∧ absGe.PeakDnf "X" ∧ absGe.symbols = {"X"} ∧ absGe.MadeG true ctx0 ∧
    (∃ N S, absGe.solve ctx0 N = .ok S) ∧ ∀ᵐ ω ∂((leafPMo true).den (fun _ => unif2)), absGe.Regular ω := by
  have h : absGe.PeakLit "X" := .ivl (.abs .id) geI_wf
  exact ⟨ctx0_correct, ctx0_linear, leafPMo_wf _ _, .lit h, h.symbols, h.made.mono, ⟨_, _, absGe_solve 0⟩, Filter.Eventually.of_forall fun ω => by simp [absGe, Ev.Regular, Tr.Regular]⟩

/-- `abs(X) >= 1` on `(-1, 1]`, with the hypotheses of `C18_half_open_total`. -/
example : ctx0.Correct ∧ (leafPMo false).WF ctx0 (libOf fun _ => unif2) (fun _ => unif2) ∧ absGe.symbols = {"X"} ∧ absGe.MadeG true ctx0 ∧
    (∃ N S, absGe.solve ctx0 N = .ok S ∧ ∀ u, S = .un u → u.atoms = none) ∧ ∀ᵐ ω ∂((leafPMo false).den (fun _ => unif2)), absGe.Regular ω := by
  have h : absGe.PeakLit "X" := .ivl (.abs .id) geI_wf
  exact ⟨ctx0_correct, leafPMo_wf _ _, h.symbols, h.made.mono, ⟨_, _, absGe_solve 0, by rintro u h; cases h; rfl⟩, Filter.Eventually.of_forall fun ω => by simp [absGe, Ev.Regular, Tr.Regular]⟩

end Sppl
