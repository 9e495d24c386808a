import Verif.Spe.OpenProps

set_option linter.all false

/-!
# C21, C22: `condition` of leaves with an open support

A continuous leaf whose support is open (like that of a normal variable) can be conditioned on every event about its
symbol that `solve` solves, that has positive probability, and whose solution has no isolated numbers in the support, in
particular on inequalities with absolute values and reciprocals.  If a continuous leaf is asked
for an event that has positive probability and holds at an isolated number of the support, `condition` raises an
`AssertionError`, also if the support is not open.
-/

namespace Sppl
open Classical MeasureTheory
open scoped ENNReal ProbabilityTheory

/-- What an open interval has in common with another one is nothing or an interval. -/
theorem Ivl.open_and {i j : Ivl EReal} (h1 : i.lo = true) (h2 : i.ro = true) {r : SSet EReal} (hr : Ivl.and i j = .ok r) :
    r = .empty ∨ ∃ k, r = .pc (.ivl k) := by
  have a1 : i.has i.a = false := by rw [Bool.eq_false_iff, Ne, Ivl.has_iff]; simp [Ivl.Mem, h1]
  have a2 : i.has i.b = false := by rw [Bool.eq_false_iff, Ne, Ivl.has_iff]; simp [Ivl.Mem, h2]
  unfold Ivl.and at hr
  simp only [bind, Except.bind] at hr
  split_ifs at hr with b1 b2 b3 b4 b5 b6 b7 b8 b9 <;> first
    | (cases hr; exact .inl rfl)
    | (cases hr; exact .inr ⟨_, rfl⟩)
    | (exfalso; simp_all; done)
    | (split at hr; · cases hr
       · cases hr; exact .inr ⟨_, rfl⟩)

/-- The intersection of an open interval and a set without isolated numbers in it has only intervals as parts. -/
theorem open_and_ivls (σ : Orders EReal) {j : Ivl EReal} (hj : j.WF) (h1 : j.lo = true) (h2 : j.ro = true) {S V : SSet EReal} (hS : S.WF)
    (hf : ∀ s, .fin s ∈ S.valPieces → ∀ v ∈ s, ¬ j.Mem v) (hV : SSet.and σ (.pc (.ivl j)) S = .ok V) (hw : V.WF) : ∀ p ∈ V.valPieces, ∃ i, p = .ivl i := by
  cases S with
  | empty => cases hV; simp [SSet.valPieces]
  | pc q =>
    cases q with
    | nom m => cases hV; simp [SSet.valPieces]
    | fin s =>
      have : s.filter (fun v => j.has v) = ∅ := Finset.filter_eq_empty_iff.2 (fun v hv h => hf s (by simp [SSet.valPieces]) v hv ((Ivl.has_iff _ _).1 h))
      simp only [SSet.and, Piece.and, this, finOrEmpty] at hV
      cases hV; simp [SSet.valPieces]
    | ivl i =>
      rcases Ivl.open_and h1 h2 (show Ivl.and j i = .ok V from hV) with rfl | ⟨k, rfl⟩
      · simp [SSet.valPieces]
      · intro p hp; simp [SSet.valPieces] at hp; exact ⟨k, hp⟩
  | un u =>
    have hu : u.WF := hS
    have ha : andOptFin u.atoms (.ivl j) = .ok .empty := by
      cases h : u.atoms with
      | none => rfl
      | some s =>
        have : s.filter (fun v => j.has v) = ∅ := Finset.filter_eq_empty_iff.2
          (fun v hv h' => hf s ((hu.mem_values _).2 (.inr (.inl ⟨s, h, rfl⟩))) v hv ((Ivl.has_iff _ _).1 h'))
        simp [andOptFin, Piece.and, this, finOrEmpty]
    have hV' : u.andPiece σ (.ivl j) = .ok V := hV
    simp only [Un.andPiece, ha, bind, Except.bind] at hV'
    split at hV'; · cases hV'
    rename_i ints hints
    have hF := mapM_ok hints
    have hk : ∀ r ∈ ints.filter (fun s => !s.isEmpty), ∃ k, r = .pc (.ivl k) := by
      intro r hr
      obtain ⟨hr1, hr2⟩ := List.mem_filter.1 hr
      obtain ⟨i, hi, hR⟩ := forall₂_mem_right hF hr1
      rcases Ivl.and_lo (hu.ivl_wf hi) hj h1 (show Ivl.and i j = .ok r from hR) with rfl | h | ⟨h, -⟩
      · simp [SSet.isEmpty] at hr2
      · exact h
      · rw [h2] at h; cases h
    generalize ints.filter (fun s => !s.isEmpty) = ne at hk hV'
    have hun : ∀ vs : List (SSet EReal), (∀ r ∈ vs, r = .empty ∨ ∃ k, r = .pc (.ivl k)) → mkUnion σ vs = .ok V → ∀ p ∈ V.valPieces, ∃ i, p = .ivl i := by
      intro vs hvs h
      have e1 : (vs.filterMap SSet.piece?).filterMap Piece.nom? = [] := by
        rw [List.filterMap_filterMap, List.filterMap_eq_nil_iff]
        intro r hr
        rcases hvs r hr with rfl | ⟨k, rfl⟩ <;> rfl
      have e2 : (vs.filterMap SSet.piece?).filterMap Piece.fin? = [] := by
        rw [List.filterMap_filterMap, List.filterMap_eq_nil_iff]
        intro r hr
        rcases hvs r hr with rfl | ⟨k, rfl⟩ <;> rfl
      unfold mkUnion at h
      simp only [e1, e2] at h
      split_ifs at h
      cases h
      intro p hp
      rcases (Un.WF.mem_values hw p).1 hp with ⟨m, hm, rfl⟩ | ⟨s, hs, rfl⟩ | ⟨i, hi, rfl⟩
      · simp at hm
      · simp at hs
      · exact ⟨i, rfl⟩
    match ne, hk, hV' with
    | [], _, h => cases h; simp [SSet.valPieces]
    | [r], hk, h =>
      obtain ⟨k, rfl⟩ := hk r (by simp)
      cases h
      intro p hp; simp [SSet.valPieces] at hp; exact ⟨k, hp⟩
    | r :: r' :: rs, hk, h =>
      refine hun (.empty :: r :: r' :: rs) (fun x hx => ?_) h
      rcases List.mem_cons.1 hx with rfl | hx
      · exact .inl rfl
      · exact .inr (hk x hx)

variable {c : Ctx} {L : Lib} {μ : Dist → Measure ℝ} {X : String} {d : Dist} {supp : Ivl EReal} {cond : Bool} {env : Env} {e : Ev} {hash : Spe → ℤ}

/-- **C21, C22 (`condition` of a continuous leaf with an open support).** It returns the conditional distribution on every
event of positive probability that is solved by a set without isolated numbers in the support, from some depth of the stack on. -/
theorem C21_open_total (hc : c.Correct) (hs : (Spe.real .cont X d supp cond env).WF c L μ) (ho : supp.lo = true ∧ supp.ro = true) (he : e.symbols = {X})
    (hm : e.MadeG true c) (hS : ∃ N S, e.solve c N = .ok S ∧ ∀ s, .fin s ∈ S.valPieces → ∀ v ∈ s, ¬ supp.Mem v) (hr : ∀ᵐ ω ∂((Spe.real .cont X d supp cond env).den μ), e.Regular ω)
    (h0 : 0 < (Spe.real .cont X d supp cond env).den μ {ω | e.holds ω}) :
    ∃ N, ∀ n, N ≤ n → ∃ s', (Spe.real .cont X d supp cond env).condition c L hash n e = .ok s' ∧
      s'.den μ = ((Spe.real .cont X d supp cond env).den μ)[|{ω | e.holds ω}] := by
  obtain ⟨N, S, hS, hf⟩ := hS
  refine ⟨N, fun n hn => ?_⟩
  have hPr := hs.prob
  obtain ⟨w1, w2, -⟩ := Ev.solve_exact hc hm hS
  obtain ⟨hl, hE, hz, hreg⟩ := hs.rleaf
  obtain ⟨V, hV⟩ := open_and_total c.σ hl.wf w1 w2 (.inl ho)
  have hle : (Spe.real .cont X d supp cond env).leafEnv = some (X, env) := rfl
  have hsub := leafSubst_base (c := c) (leafEnv_built hs hle) he n
  have hSn := Ev.solve_le hn e _ hS
  have hlo : LeafEvOK c (Spe.real .cont X d supp cond env) e := hm
  obtain ⟨w1, w2, w3⟩ := leaf_solve hc hE hlo hsub hSn
  obtain ⟨v1, v2, v3, -, -, v6, v7⟩ := realLeaf_values hl hz w1 w2 hV
  have hiv := open_and_ivls c.σ hl.wf ho.1 ho.2 w1 hf hV v1
  have hmass : (RLeaf.meas μ ⟨.cont, d, supp, cond⟩) S.realSet ≠ 0 := by
    have hr' : ∀ᵐ x : ℝ ∂(realMeas μ d supp cond), e.Regular (env.extend (baseAsg X (.num x))) := by
      simp only [Spe.den] at hr
      exact ae_of_ae_map (measurable_leafAsg X env).aemeasurable hr
    have hae : ∀ᵐ x : ℝ ∂(realMeas μ d supp cond), x ∈ S.realSet ↔ x ∈ (fun x : ℝ => env.extend (baseAsg X (.num x))) ⁻¹' e.set := by
      filter_upwards [hr', hreg] with x h1 h2
      exact w3 x h2 h1
    have h0' := h0.ne'
    simp only [Spe.den] at h0'
    rw [Measure.map_apply (measurable_leafAsg X env) (show MeasurableSet {ω | e.holds ω} from e.measurable_set)] at h0'
    show realMeas μ d supp cond S.realSet ≠ 0
    rw [measure_congr (Filter.eventuallyEq_set.2 hae)]
    exact h0'
  obtain ⟨s', hs'⟩ := condReal_total (l := ⟨.cont, d, supp, cond⟩) hs w1 w2 hV (fun p hp => by
    obtain ⟨i, rfl⟩ := hiv p hp
    exact fun h => by cases h) hmass
  have h : leafCond c L n (Spe.real .cont X d supp cond env) e = .ok s' := by
    simp only [leafCond, hle, hsub, hSn, bind, Except.bind, leafCondSet, hs']
  have h' : (Spe.real .cont X d supp cond env).condition c L hash n e = .ok s' := by
    unfold Spe.condition
    rw [if_pos (by simp [Spe.isLeaf, hle])]; exact h
  exact ⟨s', h', (leafCond_ok hc hs hlo hr h).den⟩

/-- **C22 (`condition` of a continuous leaf with an open support returns exactly on positive probability).** -/
theorem C22_open_iff (hc : c.Correct) (hs : (Spe.real .cont X d supp cond env).WF c L μ) (ho : supp.lo = true ∧ supp.ro = true) (he : e.symbols = {X})
    (hm : e.MadeG true c) (hS : ∃ N S, e.solve c N = .ok S ∧ ∀ s, .fin s ∈ S.valPieces → ∀ v ∈ s, ¬ supp.Mem v) (hr : ∀ᵐ ω ∂((Spe.real .cont X d supp cond env).den μ), e.Regular ω) :
    ∃ N, ∀ n, N ≤ n → ((∃ s', (Spe.real .cont X d supp cond env).condition c L hash n e = .ok s') ↔ 0 < (Spe.real .cont X d supp cond env).den μ {ω | e.holds ω}) := by
  have back : ∀ n, (∃ s', (Spe.real .cont X d supp cond env).condition c L hash n e = .ok s') → 0 < (Spe.real .cont X d supp cond env).den μ {ω | e.holds ω} := by
    rintro n ⟨s', h⟩
    unfold Spe.condition at h
    rw [if_pos (by simp [Spe.isLeaf, Spe.leafEnv])] at h
    have hlo : LeafEvOK c (Spe.real .cont X d supp cond env) e := hm
    exact pos_iff_ne_zero.2 (leafCond_ok hc hs hlo hr h).mass
  by_cases h0 : 0 < (Spe.real .cont X d supp cond env).den μ {ω | e.holds ω}
  · obtain ⟨N, hN⟩ := C21_open_total (hash := hash) hc hs ho he hm hS hr h0
    exact ⟨N, fun n hn => ⟨back n, fun _ => by obtain ⟨s', h, -⟩ := hN n hn; exact ⟨s', h⟩⟩⟩
  · exact ⟨0, fun n _ => ⟨back n, fun h => absurd h h0⟩⟩

/-- An interval has more than one number near any of its numbers. -/
theorem Ivl.mem_near {i : Ivl EReal} (hi : i.WF) {a x b : ℝ} (h1 : a < x) (h2 : x < b) (hx : i.Mem (x : EReal)) : ∃ y : ℝ, a < y ∧ y < b ∧ y ≠ x ∧ i.Mem (y : EReal) := by
  have hab : i.a < i.b := hi.1
  have ha : i.a ≤ x := by have := hx.1; split at this; exacts [this.le, this]
  have hb : (x : EReal) ≤ i.b := by have := hx.2; split at this; exacts [this.le, this]
  rcases lt_or_eq_of_le hb with h | h
  · obtain ⟨y, y1, y2⟩ := EReal.lt_iff_exists_real_btwn.1 (lt_min h (EReal.coe_lt_coe_iff.2 h2))
    have y3 := EReal.coe_lt_coe_iff.1 y1
    exact ⟨y, h1.trans y3, EReal.coe_lt_coe_iff.1 (y2.trans_le (min_le_right _ _)), y3.ne', Ivl.mem_of_btwn (ha.trans_lt y1) (y2.trans_le (min_le_left _ _))⟩
  · obtain ⟨y, y1, y2⟩ := EReal.lt_iff_exists_real_btwn.1 (max_lt (h ▸ hab) (EReal.coe_lt_coe_iff.2 h1) : max i.a (a : EReal) < x)
    have y3 := EReal.coe_lt_coe_iff.1 y2
    exact ⟨y, EReal.coe_lt_coe_iff.1 ((le_max_right _ _).trans_lt y1), y3.trans h2, y3.ne, Ivl.mem_of_btwn ((le_max_left _ _).trans_lt y1) (y2.trans_le h.le)⟩

/-- Finite sets of numbers are refused for continuous leaves. -/
theorem flattenValues_raises {V : SSet EReal} {p : Piece EReal} (hp : p ∈ V.argPieces) (hn : ∀ i, p ≠ .ivl i) : flattenValues .cont V = .error .assertion := by
  have h1 : ∀ q : Piece EReal, (∀ i, q ≠ .ivl i) → flattenPiece .cont q = .error .assertion := by
    intro q hq
    cases q with
    | ivl i => exact absurd rfl (hq i)
    | fin s => rfl
    | nom m => rfl
  cases V with
  | empty => simp [SSet.argPieces] at hp
  | pc q => simp only [SSet.argPieces, List.mem_singleton] at hp; subst hp; exact h1 p hn
  | un u =>
    have key : ∀ l : List (Piece EReal), p ∈ l → l.mapM (flattenPiece .cont) = .error .assertion := by
      intro l
      induction l with
      | nil => simp
      | cons q l ih =>
        intro hq
        rw [List.mapM_cons]
        rcases List.mem_cons.1 hq with rfl | hq2
        · simp [h1 p hn, bind, Except.bind]
        · cases q with
          | ivl i => simp [flattenPiece, ih hq2, bind, Except.bind]
          | fin s => rfl
          | nom m => rfl
    have := key u.args hp
    simp only [flattenValues, this, bind, Except.bind]

/-- **C21, C22 (`condition` raises at isolated numbers).** If `prob` answers with a positive probability on an event about a
continuous leaf, and the event holds at a number of the support but not nearby in the support, `condition` raises an
`AssertionError`. -/
theorem C22_isolated_raises (hc : c.Correct) (hs : (Spe.real .cont X d supp cond env).WF c L μ) (he : e.symbols = {X}) (hm : e.MadeG true c)
    {N : ℕ} {w : ℝ} (hw : (Spe.real .cont X d supp cond env).prob c L N e = .ok w) (h0 : 0 < w)
    {a x b : ℝ} (hax : a < x) (hxb : x < b) (hx : x ∈ supp.reals) (hex : e.holds (baseAsg X (.num x)))
    (hreg' : ∀ y ∈ supp.reals, a < y → y < b → e.Regular (baseAsg X (.num y))) (hny : ∀ y ∈ supp.reals, a < y → y < b → y ≠ x → ¬ e.holds (baseAsg X (.num y))) :
    ∀ n, N ≤ n → (Spe.real .cont X d supp cond env).condition c L hash n e = .error .assertion := by
  intro n hn
  have hle : (Spe.real .cont X d supp cond env).leafEnv = some (X, env) := rfl
  have hsub := leafSubst_base (c := c) (leafEnv_built hs hle) he
  unfold Spe.prob at hw
  rw [if_pos (by simp [Spe.isLeaf, hle])] at hw
  simp only [leafProb, hle, hsub N, bind, Except.bind] at hw
  split at hw; · cases hw
  rename_i S hS
  simp only [leafProbSet, bind, Except.bind] at hw
  split at hw; · cases hw
  rename_i V hV
  obtain ⟨w1, w2, w4⟩ := Ev.solve_exact hc hm hS
  obtain ⟨hl, hE, hz, hreg⟩ := hs.rleaf
  have hSn := Ev.solve_le hn e _ hS
  have hin : ∀ y ∈ supp.reals, a < y → y < b → (Val.num (y : EReal) ∈ S.den ↔ e.holds (baseAsg X (.num y))) := by
    intro y y0 y1 y2
    exact w4 (baseAsg X (.num y)) X (.num y) he (by simp [baseAsg]) (fun _ => trivial) (hreg' y y0 y1 y2)
  obtain ⟨v1, v2, v3, -, v5, v6, v7⟩ := realLeaf_values hl hz w1 w2 hV
  have hxV : Val.num (x : EReal) ∈ V.den := (v7 x).2 ⟨hx, (hin x hx hax hxb).2 hex⟩
  obtain ⟨p, hp, hxp⟩ : ∃ p ∈ V.argPieces, Val.num (x : EReal) ∈ p.den := by
    cases V with
    | empty => exact absurd hxV (by simp [SSet.den])
    | pc q => exact ⟨q, by simp [SSet.argPieces], hxV⟩
    | un u =>
      obtain ⟨q, hq, hxq⟩ := hxV
      exact ⟨q, (Un.WF.mem_args v1 q).2 hq, hxq⟩
  have hpn : ∀ i, p ≠ .ivl i := by
    rintro i rfl
    obtain ⟨hiw, hsubV⟩ := v5 _ hp
    rw [Piece.mem_den_ivl] at hxp
    obtain ⟨y, y1, y2, y3, y4⟩ := Ivl.mem_near hiw hax hxb hxp
    obtain ⟨z1, z2⟩ := (v7 y).1 (hsubV _ (by rw [Piece.mem_den_ivl]; exact y4))
    exact hny y z1 y1 y2 y3 ((hin y z1 y1 y2).1 z2)
  have hVs : V ≠ .pc (.ivl supp) := by
    rintro rfl
    simp only [SSet.argPieces, List.mem_singleton] at hp
    exact hpn _ hp
  unfold Spe.condition
  rw [if_pos (by simp [Spe.isLeaf, hle])]
  simp only [leafCond, hle, hsub n, hSn, bind, Except.bind, leafCondSet, condReal, hV, hw]
  rw [if_neg h0.ne', if_neg hVs, flattenValues_raises hp hpn]

/-! ## Non-vacuity -/

/-- The uniform distribution on `[-2, 2]`. -/
noncomputable def unif4 : Measure ℝ := (4 : ℝ≥0∞)⁻¹ • volume.restrict (Set.Icc (-2) 2)

theorem unif4_univ : unif4 Set.univ = 1 := by
  simp only [unif4, Measure.smul_apply, Measure.restrict_apply MeasurableSet.univ, Set.univ_inter, Real.volume_Icc, smul_eq_mul]
  norm_num
  exact ENNReal.inv_mul_cancel (by simp) (by simp)

instance : IsProbabilityMeasure unif4 := ⟨unif4_univ⟩

theorem distOK_unif4 (d : Dist) : DistOK (libOf fun _ => unif4) (fun _ => unif4) .cont d where
  prob := by infer_instance
  cdf x := rfl
  cont := by intro _ x; simp [unif4]
  disc := by intro h; cases h
  pmf := by intro h; cases h

/-- A variable with this distribution and the support `(-oo, oo)`. -/
noncomputable def leafR4 : Spe := .real .cont "X" d0 fullIvl false [("X", .id "X")]

theorem fullIvl_reals : fullIvl.reals = Set.univ := by
  ext x
  simp only [Set.mem_univ, iff_true]
  exact Ivl.mem_of_btwn (EReal.bot_lt_coe x) (EReal.coe_lt_top x)

theorem leafR4_wf (c : Ctx) : leafR4.WF c (libOf fun _ => unif4) (fun _ => unif4) := by
  refine .real (distOK_unif4 d0) (envOK_single c "X") full_wf (by intro h; cases h) ?_ ?_
  · simp only [Bool.false_eq_true, if_false, fullIvl_reals, unif4_univ]
  · refine Filter.Eventually.of_forall (fun x p hp => ?_)
    simp at hp; subst hp; trivial

/-- Events that hold if `X` is at least one have positive probability. -/
theorem leafR4_pos {e : Ev} (h : ∀ (ω : Asg) (x : ℝ), ω "X" = some (.num x) → 1 ≤ x → e.holds ω) : 0 < leafR4.den (fun _ => unif4) {ω | e.holds ω} := by
  simp only [leafR4, Spe.den]
  rw [Measure.map_apply (measurable_leafAsg "X" _) (show MeasurableSet {ω | e.holds ω} from e.measurable_set)]
  have hsub : Set.Icc 1 2 ⊆ (fun x : ℝ => Env.extend [("X", .id "X")] (baseAsg "X" (.num x))) ⁻¹' {ω | e.holds ω} :=
    fun x hx => h _ x (by simp [Env.extend, baseAsg, Tr.eval]) hx.1
  refine lt_of_lt_of_le ?_ (measure_mono hsub)
  simp only [realMeas, Bool.false_eq_true, if_false, unif4, Measure.smul_apply, Measure.restrict_apply measurableSet_Icc, smul_eq_mul]
  rw [Set.inter_eq_left.2 (Set.Icc_subset_Icc (by norm_num) le_rfl), Real.volume_Icc]
  norm_num

theorem geI_mem {x : ℝ} : geI.Mem (x : EReal) ↔ 1 ≤ x := by
  have e : (1 : EReal) = ((1 : ℝ) : EReal) := by simp
  simp only [Ivl.Mem, geI, Bool.false_eq_true, if_false, e, EReal.coe_le_coe_iff]
  simp

/-- `abs(X) >= 1` has all the hypotheses of `C21_open_total`. -/
example : ctx0.Correct ∧ leafR4.WF ctx0 (libOf fun _ => unif4) (fun _ => unif4) ∧ (fullIvl.lo = true ∧ fullIvl.ro = true) ∧ absGe.symbols = {"X"} ∧ absGe.MadeG true ctx0 ∧
    (∃ N S, absGe.solve ctx0 N = .ok S ∧ ∀ s, .fin s ∈ S.valPieces → ∀ v ∈ s, ¬ fullIvl.Mem v) ∧ (∀ᵐ ω ∂(leafR4.den (fun _ => unif4)), absGe.Regular ω) ∧
    0 < leafR4.den (fun _ => unif4) {ω | absGe.holds ω} := by
  have h : absGe.PeakLit "X" := .ivl (.abs .id) geI_wf
  refine ⟨ctx0_correct, leafR4_wf _, ⟨rfl, rfl⟩, h.symbols, h.made.mono, ⟨_, _, absGe_solve 0, by simp [SSet.valPieces, absUn]⟩,
    Filter.Eventually.of_forall fun ω => by simp [absGe, Ev.Regular, Tr.Regular], leafR4_pos ?_⟩
  intro ω x hx h1
  simp only [absGe, Ev.holds, Ev.holdsB, Tr.eval, hx, onNum, decide_eq_true_eq]
  exact ⟨|x|, rfl, geI_mem.2 (h1.trans (le_abs_self x))⟩

/-- `(X == 0) | (X >= 1)`. -/
noncomputable def zeroOrGe : Ev := .or [.fin (.id "X") (some {0}), .ivl (.id "X") geI]

theorem zeroOrGe_holds (ω : Asg) (x : ℝ) (hx : ω "X" = some (.num x)) : zeroOrGe.holds ω ↔ x = 0 ∨ 1 ≤ x := by
  have e : (0 : EReal) = ((0 : ℝ) : EReal) := by simp
  simp [zeroOrGe, Ev.holds, Ev.holdsB, Ev.holdsL, Tr.eval, hx, geI_mem]

/-- On this event, which holds at zero but not at the other numbers between `-1` and `1`, `prob` answers and `condition`
raises. -/
example (hash : Spe → ℤ) : ∃ N w, 0 < w ∧ leafR4.prob ctx0 (libOf fun _ => unif4) N zeroOrGe = .ok w ∧
    ∀ n, N ≤ n → leafR4.condition ctx0 (libOf fun _ => unif4) hash n zeroOrGe = .error .assertion := by
  have h : zeroOrGe.PeakDnf "X" := by
    refine .or (by simp) (fun e he => .inl ?_)
    simp at he
    rcases he with rfl | rfl
    · exact .chain (.one .id)
    · exact .chain (.ivl .id geI_wf)
  have hreg : ∀ ω, zeroOrGe.Regular ω := fun ω => by simp [zeroOrGe, Ev.Regular, Ev.RegularL, Tr.Regular]
  have hpr := (leafR4_wf ctx0).prob
  obtain ⟨N, hN⟩ := C18_abs_total (L := libOf fun _ => unif4) (μ := fun _ => unif4) ctx0_correct ctx0_linear (leafR4_wf _) ⟨rfl, rfl⟩ h (Filter.Eventually.of_forall hreg)
  have hpos : 0 < (leafR4.den (fun _ => unif4)).real {ω | zeroOrGe.holds ω} := real_pos (leafR4_pos (fun ω x hx h1 => (zeroOrGe_holds ω x hx).2 (.inr h1))).ne'
  refine ⟨N, _, hpos, hN N le_rfl, C22_isolated_raises (a := -1) (x := 0) (b := 1) ctx0_correct (leafR4_wf _) h.symbols h.made.mono (hN N le_rfl) hpos (by norm_num) (by norm_num)
    (by rw [fullIvl_reals]; trivial) ((zeroOrGe_holds _ 0 (by simp [baseAsg])).2 (.inl rfl)) (fun y _ _ _ => hreg _) (fun y _ h1 h2 h3 hh => ?_)⟩
  rcases (zeroOrGe_holds _ y (by simp [baseAsg])).1 hh with h | h
  · exact h3 h
  · linarith

end Sppl
