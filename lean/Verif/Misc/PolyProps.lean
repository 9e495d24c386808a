import Verif.Misc.PolyLemmas
import Verif.Events.Example
import Mathlib.Analysis.Calculus.Deriv.Polynomial
import Mathlib.Algebra.Polynomial.FieldDivision
import Verif.Events.FinvLemmas

/-!
# C41: the numerical polynomial solver

In exact arithmetic the solver is right whenever every real root of `p - b` is simple and there is at least
one; it raises when a root is repeated, and its answer does not depend on the polynomial when there is no
real root.
-/

namespace Sppl
open Classical Topology

theorem shift_eval (cs : List ℝ) (b x : ℝ) :
    (toPoly cs - Polynomial.C b).eval x = polyVal cs x - b := by simp [toPoly_eval]

theorem polyVal_deriv (cs : List ℝ) (b x : ℝ) :
    deriv (polyVal cs) x = (Polynomial.derivative (toPoly cs - Polynomial.C b)).eval x := by
  have : polyVal cs = fun x => (toPoly cs).eval x := by funext x; exact (toPoly_eval cs x).symm
  rw [this, Polynomial.deriv]
  simp

theorem shift_ne_zero (cs : List ℝ) (b : ℝ) (h : (toPoly cs).natDegree ≠ 0) : toPoly cs - Polynomial.C b ≠ 0 := by
  intro h0
  apply h
  rw [sub_eq_zero.1 h0]
  simp

theorem sorted_roots {v : NumSvc} (hv : v.Exact) (cs : List ℝ) (b : ℝ) (l : List ℝ)
    (hl : (v.nroots cs b).mergeSort (fun x y => decide (x ≤ y)) = l) :
    l.Pairwise (· ≤ ·) ∧ (l : Multiset ℝ) = (toPoly cs - Polynomial.C b).roots := by
  subst hl
  refine ⟨?_, ?_⟩
  · have := List.pairwise_mergeSort (le := fun x y : ℝ => decide (x ≤ y)) (by
      intro a b c h1 h2; simp only [decide_eq_true_eq] at *; exact h1.trans h2) (by
      intro a b; simp only [Bool.or_eq_true, decide_eq_true_eq]; exact le_total a b) (v.nroots cs b)
    simpa using this
  · rw [← hv.roots cs b]
    exact Multiset.coe_eq_coe.2 (List.mergeSort_perm _ _)

/-- The polynomial is not constant: some two values differ. -/
def NonConst (cs : List ℝ) : Prop := ∃ x y, polyVal cs x ≠ polyVal cs y

theorem nonConst_iff (cs : List ℝ) : NonConst cs ↔ (toPoly cs).natDegree ≠ 0 := by
  constructor
  · rintro ⟨x, y, h⟩ h0
    apply h
    rw [← toPoly_eval, ← toPoly_eval, Polynomial.eq_C_of_natDegree_eq_zero h0]
    simp
  · intro h
    by_contra hc
    apply h
    have h1 : ∀ x y, polyVal cs x = polyVal cs y := by
      intro x y; by_contra h; exact hc ⟨x, y, h⟩
    have : toPoly cs = Polynomial.C (polyVal cs 0) := by
      apply Polynomial.funext
      intro r
      rw [toPoly_eval, h1 r 0]; simp
    rw [this]; simp

/-- C41: when `p` takes the value `b` somewhere and all such points are simple roots, the numerical solver
returns exactly `{x : p(x) < b}` (strict) or `{x : p(x) <= b}` (not strict).  No bound on the degree. -/
theorem C41_exact (σ : Orders EReal) {v : NumSvc} (hv : v.Exact) (cs : List ℝ) (b : ℝ) (strict : Bool)
    (hroot : ∃ x, polyVal cs x = b) (hsimple : ∀ x, polyVal cs x = b → deriv (polyVal cs) x ≠ 0) :
    ∃ r, solvePolyIneqNum σ v cs b strict = .ok (.set r) ∧ r.WF ∧ r.Disj ∧ (∀ s, Val.str s ∉ r.den) ∧
      ∀ x : ℝ, Val.num (x : EReal) ∈ r.den ↔ if strict = true then polyVal cs x < b else polyVal cs x ≤ b := by
  obtain ⟨x0, hx0⟩ := hroot
  have hnc : (toPoly cs).natDegree ≠ 0 := by
    intro h0
    refine hsimple x0 hx0 ?_
    rw [polyVal_deriv cs b, Polynomial.eq_C_of_natDegree_eq_zero h0]
    simp
  have hP := shift_ne_zero cs b hnc
  have hmul : ∀ x, polyVal cs x = b → (toPoly cs - Polynomial.C b).rootMultiplicity x = 1 := by
    intro x hx
    have hr : (toPoly cs - Polynomial.C b).IsRoot x := by
      rw [Polynomial.IsRoot, shift_eval, hx, sub_self]
    have h1 := (Polynomial.rootMultiplicity_pos hP).2 hr
    have h2 : ¬ 1 < (toPoly cs - Polynomial.C b).rootMultiplicity x := by
      rw [Polynomial.one_lt_rootMultiplicity_iff_isRoot hP]
      rintro ⟨-, h⟩
      exact hsimple x hx (by rw [polyVal_deriv cs b]; exact h)
    omega
  have hmem : ∀ x, x ∈ (toPoly cs - Polynomial.C b).roots ↔ polyVal cs x = b := by
    intro x
    rw [Polynomial.mem_roots hP, Polynomial.IsRoot, shift_eval, sub_eq_zero]
  generalize hl : (v.nroots cs b).mergeSort (fun x y => decide (x ≤ y)) = l
  obtain ⟨hs, hms⟩ := sorted_roots hv cs b l hl
  have hnd : l.Nodup := by
    rw [← Multiset.coe_nodup, hms, Multiset.nodup_iff_count_le_one]
    intro a
    rw [Polynomial.count_roots]
    by_cases ha : polyVal cs a = b
    · exact (hmul a ha).le
    · have : ¬ (toPoly cs - Polynomial.C b).IsRoot a := by
        rw [Polynomial.IsRoot, shift_eval]; exact sub_ne_zero.2 ha
      rw [Polynomial.rootMultiplicity_eq_zero this]; exact Nat.zero_le _
  have hml : ∀ x, x ∈ l ↔ polyVal cs x = b := by
    intro x; rw [← hmem, ← hms, Multiset.mem_coe]
  have hlt : l.Pairwise (· < ·) := by
    have := hs.and hnd
    exact this.imp (fun h => lt_of_le_of_ne h.1 h.2)
  unfold solvePolyIneqNum
  rw [if_neg (by rw [(hv.nonconst cs).2 hnc]; simp), hl]
  cases l with
  | nil => exact absurd ((hml x0).2 hx0) (by simp)
  | cons z0 zs =>
    obtain ⟨sel, e1, e2, e3⟩ := sel_ok cs b (CellOK strict (z0 :: zs)) (cellList strict z0 zs) _ (cellList_ok strict z0 zs hlt)
    have hcont : Continuous (fun x => polyVal cs x - b) := (polyVal_continuous cs).sub continuous_const
    -- each point where p < b lies inside a selected cell
    have hin : ∀ x, polyVal cs x < b → ∃ s ∈ sel, Val.num (x : EReal) ∈ s.den := by
      intro x hx
      rcases cellList_cover strict z0 zs x with h | ⟨i, hi, h1, h2⟩
      · exact absurd ((hml x).1 h) (by linarith)
      · obtain ⟨q, hq, hsel⟩ := e3 i hi
        refine ⟨_, hsel ?_, ?_⟩
        · have := no_root_sign hcont (a := i.a) (b := i.b) (fun z hz => hq.gap z ((hml z).2 (by linarith)))
            ⟨h1, h2⟩ ⟨hq.left, hq.right⟩ (by linarith)
          linarith
        · rw [hq.mem_iff]
          split
          · exact ⟨h1, h2⟩
          · exact ⟨h1.le, h2.le⟩
    -- conversely
    have hout : ∀ s ∈ sel, ∀ x : ℝ, Val.num (x : EReal) ∈ s.den →
        if strict = true then polyVal cs x < b else polyVal cs x ≤ b := by
      intro s hs x hx
      obtain ⟨i, hi, q, hq, hneg, rfl⟩ := e2 s hs
      rw [hq.mem_iff] at hx
      have hint : i.a < x → (x : EReal) < i.b → polyVal cs x < b := by
        intro h1 h2
        have := no_root_sign hcont (a := i.a) (b := i.b) (fun z hz => hq.gap z ((hml z).2 (by linarith)))
          ⟨hq.left, hq.right⟩ ⟨h1, h2⟩ (by linarith)
        linarith
      cases strict
      · simp only [Bool.false_eq_true, if_false] at hx ⊢
        rcases hx.1.lt_or_eq with h1 | h1
        · rcases hx.2.lt_or_eq with h2 | h2
          · exact (hint h1 h2).le
          · rcases hq.ends' with h | ⟨z, hz, h⟩
            · rw [h] at h2; exact absurd h2 (EReal.coe_ne_top _)
            · rw [h, EReal.coe_eq_coe_iff] at h2
              rw [h2]; exact ((hml z).1 hz).le
        · rcases hq.ends with h | ⟨z, hz, h⟩
          · rw [h] at h1; exact absurd h1.symm (EReal.coe_ne_bot _)
          · rw [h, EReal.coe_eq_coe_iff] at h1
            rw [← h1]; exact ((hml z).1 hz).le
      · simp only [if_true] at hx ⊢
        exact hint hx.1 hx.2
    have hcl : ∀ x, polyVal cs x = b → x ∈ closure {y : ℝ | polyVal cs y < b} := by
      intro x hx
      have := simple_root_closure _ hP x (hmul x hx)
      simpa only [shift_eval, sub_neg] using this
    have hgood : ∀ s ∈ sel, s.WF ∧ s.Disj ∧ ∀ t, Val.str t ∉ s.den := by
      intro s hs
      obtain ⟨i, hi, q, hq, hneg, rfl⟩ := e2 s hs
      exact ⟨hq.wf, trivial, fun t ht => by simp [SSet.den, Piece.den] at ht⟩
    have hne : sel ≠ [] := by
      rintro rfl
      have h1 : closure {y : ℝ | polyVal cs y < b} = ∅ := by
        rw [show {y : ℝ | polyVal cs y < b} = ∅ from Set.eq_empty_iff_forall_notMem.2 fun y hy => by
          obtain ⟨s, hs, -⟩ := hin y hy; simp at hs]
        exact closure_empty
      have := hcl x0 hx0
      rw [h1] at this; exact this
    obtain ⟨r, hr⟩ := reduce_or_total σ sel hne hgood
    obtain ⟨w1, w2, w3, w4⟩ := reduce_or_spec σ sel (fun s hs => ⟨(hgood s hs).1, (hgood s hs).2.1⟩) hr
    refine ⟨r, ?_, w1, w2, ?_, ?_⟩
    · simp only [cells_ok strict z0 zs hlt, bind, Except.bind, probes_eq, e1, hr]
    · intro s hs
      obtain ⟨t, ht, h⟩ := w3 _ hs
      exact (hgood t ht).2.2 s h
    · intro x
      have hprop : (Val.num (x : EReal)).Proper := ⟨EReal.coe_ne_bot _, EReal.coe_ne_top _⟩
      constructor
      · intro h
        obtain ⟨s, hs, h⟩ := w3 _ h
        exact hout s hs x h
      · intro h
        apply w4 _ hprop
        cases strict
        · simp only [Bool.false_eq_true, if_false] at h
          rcases h.lt_or_eq with h | h
          · exact hin x h
          · -- a simple root lies in the closure of {p < b}, hence in a selected closed cell
            have hclosed : IsClosed {y : ℝ | ∃ s ∈ sel, Val.num (y : EReal) ∈ s.den} := by
              have : {y : ℝ | ∃ s ∈ sel, Val.num (y : EReal) ∈ s.den} =
                  ⋃ s ∈ {s | s ∈ sel}, {y : ℝ | Val.num (y : EReal) ∈ s.den} := by
                ext y; simp
              rw [this]
              refine Set.Finite.isClosed_biUnion (List.finite_toSet sel) ?_
              intro s hs
              obtain ⟨i, hi, q, hq, hneg, rfl⟩ := e2 s hs
              have : {y : ℝ | Val.num (y : EReal) ∈ (SSet.pc (.ivl i) : SSet EReal).den} =
                  (fun y : ℝ => (y : EReal)) ⁻¹' Set.Icc i.a i.b := by
                ext y
                simp only [Set.mem_ofPred_eq, hq.mem_iff]
                simp [Set.mem_Icc]
              rw [this]
              exact isClosed_Icc.preimage continuous_coe_real_ereal
            have := closure_minimal (s := {y : ℝ | polyVal cs y < b}) (fun y hy => hin y hy) hclosed (hcl x h)
            exact this
        · exact hin x (by simpa using h)

/-- C41: a repeated real root (the graph touches the line `b`) makes the solver raise AssertionError, in
`Interval(z, z)`. -/
theorem C41_repeated_root_raises (σ : Orders EReal) {v : NumSvc} (hv : v.Exact) (cs : List ℝ) (b : ℝ) (strict : Bool)
    (hc : NonConst cs) {x : ℝ} (hx : polyVal cs x = b) (hd : deriv (polyVal cs) x = 0) :
    solvePolyIneqNum σ v cs b strict = .error .assertion := by
  have hnc := (nonConst_iff cs).1 hc
  have hP := shift_ne_zero cs b hnc
  have hm : 1 < (toPoly cs - Polynomial.C b).rootMultiplicity x := by
    rw [Polynomial.one_lt_rootMultiplicity_iff_isRoot hP]
    refine ⟨by rw [Polynomial.IsRoot, shift_eval, hx, sub_self], ?_⟩
    rw [polyVal_deriv cs b] at hd; exact hd
  generalize hl : (v.nroots cs b).mergeSort (fun x y => decide (x ≤ y)) = l
  obtain ⟨hs, hms⟩ := sorted_roots hv cs b l hl
  have hnd : ¬ l.Nodup := by
    rw [← Multiset.coe_nodup, hms, Multiset.nodup_iff_count_le_one]
    intro h
    have := h x
    rw [Polynomial.count_roots] at this
    omega
  unfold solvePolyIneqNum
  rw [if_neg (by rw [(hv.nonconst cs).2 hnc]; simp), hl]
  cases l with
  | nil => simp at hnd
  | cons z0 zs => simp only [cells_dup strict z0 zs hs hnd, bind, Except.bind]

/-- C41: with no real root the answer is `sympy.EmptySet`, whatever the polynomial. -/
theorem C41_no_root (σ : Orders EReal) {v : NumSvc} (hv : v.Exact) (cs : List ℝ) (b : ℝ) (strict : Bool)
    (hc : NonConst cs) (hx : ∀ x, polyVal cs x ≠ b) :
    solvePolyIneqNum σ v cs b strict = .ok .sympyEmpty := by
  have hnc := (nonConst_iff cs).1 hc
  have hP := shift_ne_zero cs b hnc
  generalize hl : (v.nroots cs b).mergeSort (fun x y => decide (x ≤ y)) = l
  obtain ⟨hs, hms⟩ := sorted_roots hv cs b l hl
  have : l = [] := by
    apply List.eq_nil_iff_forall_not_mem.2
    intro x hx'
    have : x ∈ (toPoly cs - Polynomial.C b).roots := by rw [← hms]; exact hx'
    rw [Polynomial.mem_roots hP, Polynomial.IsRoot, shift_eval, sub_eq_zero] at this
    exact hx x this
  subst this
  unfold solvePolyIneqNum
  rw [if_neg (by rw [(hv.nonconst cs).2 hnc]; simp), hl]

/-- C41: a constant polynomial has no symbol, the solver raises AssertionError. -/
theorem C41_constant_raises (σ : Orders EReal) {v : NumSvc} (hv : v.Exact) (cs : List ℝ) (b : ℝ) (strict : Bool)
    (hc : ¬ NonConst cs) : solvePolyIneqNum σ v cs b strict = .error .assertion := by
  rw [nonConst_iff, not_not] at hc
  unfold solvePolyIneqNum
  rw [if_pos]
  by_contra h
  exact (hv.nonconst cs).1 (by simpa using h) hc

/-- Counterexample to exactness without a root: `-1 - X**2 < 0` holds for every `X`, the answer is the
empty set. -/
theorem C41_no_root_wrong (σ : Orders EReal) {v : NumSvc} (hv : v.Exact) :
    (∀ x, polyVal [-1, 0, -1] x < 0) ∧ solvePolyIneqNum σ v [-1, 0, -1] 0 true = .ok .sympyEmpty := by
  have h : ∀ x, polyVal [-1, 0, -1] x < 0 := by
    intro x; simp only [polyVal, List.foldr]; nlinarith [sq_nonneg x]
  refine ⟨h, C41_no_root σ hv _ _ _ ⟨0, 1, ?_⟩ fun x => (h x).ne⟩
  simp [polyVal]

/-- C41: the numerical equality solver returns exactly the roots, and raises when there is none. -/
theorem C41_equality {v : NumSvc} (hv : v.Exact) (cs : List ℝ) (b : ℝ) (hc : NonConst cs) :
    (∀ x : ℝ, ∀ r, solvePolyEqNum v cs b = .ok r → (Val.num (x : EReal) ∈ r.den ↔ polyVal cs x = b)) ∧
    ((∃ x, polyVal cs x = b) → ∃ r, solvePolyEqNum v cs b = .ok r ∧ r.WF ∧ r.Disj ∧ ∀ s, Val.str s ∉ r.den) ∧
    ((∀ x, polyVal cs x ≠ b) → solvePolyEqNum v cs b = .error .assertion) := by
  have hP := shift_ne_zero cs b ((nonConst_iff cs).1 hc)
  have hmem : ∀ x, x ∈ v.nroots cs b ↔ polyVal cs x = b := by
    intro x
    rw [← Multiset.mem_coe, hv.roots, Polynomial.mem_roots hP, Polynomial.IsRoot, shift_eval, sub_eq_zero]
  refine ⟨?_, ?_, ?_⟩
  · intro x r h
    unfold solvePolyEqNum at h
    split at h
    · cases h
    · injection h with h
      subst h
      simp only [SSet.den, Piece.den, Set.mem_ofPred_eq, List.mem_toFinset, List.mem_map, Val.num.injEq]
      constructor
      · rintro ⟨y, rfl, z, hz, e⟩
        rw [EReal.coe_eq_coe_iff] at e
        rw [← e]; exact (hmem z).1 hz
      · intro h
        exact ⟨_, rfl, x, (hmem x).2 h, rfl⟩
  · rintro ⟨x, hx⟩
    have hne : v.nroots cs b ≠ [] := List.ne_nil_of_mem ((hmem x).2 hx)
    refine ⟨.pc (.fin ((v.nroots cs b).map (fun x : ℝ => (x : EReal))).toFinset),
      by unfold solvePolyEqNum; rw [if_neg hne], ?_, trivial, fun s hs => by simp [SSet.den, Piece.den] at hs⟩
    show Finset.Nonempty _
    exact ⟨(x : EReal), by simpa using (hmem x).2 hx⟩
  · intro h
    unfold solvePolyEqNum
    rw [if_pos]
    exact List.eq_nil_iff_forall_not_mem.2 fun x hx => h x ((hmem x).1 hx)

/-! ## Infinite thresholds -/

/-- `sympy.limit` answers exactly at both ends for this polynomial. -/
structure Ctx.Limits (c : Ctx) (cs : List ℝ) : Prop where
  pos : Filter.Tendsto (fun x : ℝ => (polyVal cs x : EReal)) Filter.atTop (𝓝 (c.limPos cs))
  neg : Filter.Tendsto (fun x : ℝ => (polyVal cs x : EReal)) Filter.atBot (𝓝 (c.limNeg cs))

/-- C41: for an infinite threshold the equality solver returns exactly those of `+oo`, `-oo` where the
polynomial tends to the threshold, and no real number. -/
theorem C41_equality_inf {c : Ctx} {cs : List ℝ} (hc : c.Limits cs) (b : EReal) :
    (Val.num ⊤ ∈ (polyEqInf c cs b).den ↔
      Filter.Tendsto (fun x : ℝ => (polyVal cs x : EReal)) Filter.atTop (𝓝 b)) ∧
    (Val.num ⊥ ∈ (polyEqInf c cs b).den ↔
      Filter.Tendsto (fun x : ℝ => (polyVal cs x : EReal)) Filter.atBot (𝓝 b)) ∧
    ∀ x : ℝ, Val.num (x : EReal) ∉ (polyEqInf c cs b).den := by
  have h1 : Filter.Tendsto (fun x : ℝ => (polyVal cs x : EReal)) Filter.atTop (𝓝 b) ↔ c.limPos cs = b :=
    ⟨fun h => tendsto_nhds_unique (hc.pos) h, fun h => h ▸ hc.pos⟩
  have h2 : Filter.Tendsto (fun x : ℝ => (polyVal cs x : EReal)) Filter.atBot (𝓝 b) ↔ c.limNeg cs = b :=
    ⟨fun h => tendsto_nhds_unique (hc.neg) h, fun h => h ▸ hc.neg⟩
  rw [h1, h2]
  unfold polyEqInf
  by_cases e1 : c.limPos cs = b <;> by_cases e2 : c.limNeg cs = b <;>
    simp [e1, e2, SSet.den, Piece.den]

/-- C41: for an infinite threshold with `extended=False` (the only way `Poly.invert_interval` calls it) the
inequality solver is exact on the real numbers, for every polynomial. -/
theorem C41_inequality_inf (c : Ctx) (cs : List ℝ) (b : EReal) (hb : b = ⊥ ∨ b = ⊤) (strict : Bool) :
    ∃ r, solvePolyIneqInf c cs b strict false = .ok r ∧ r.WF ∧ ∀ x : ℝ, Val.num (x : EReal) ∈ r.den ↔
      if strict = true then (polyVal cs x : EReal) < b else (polyVal cs x : EReal) ≤ b := by
  rcases hb with rfl | rfl
  · refine ⟨.empty, by simp [solvePolyIneqInf], trivial, ?_⟩
    intro x; cases strict <;> simp [SSet.den]
  · refine ⟨SSet.reals, ?_, SSet.wf_reals, ?_⟩
    · cases strict <;> simp [solvePolyIneqInf, SSet.or, SSet.reals]
    · intro x
      cases strict <;> simp [SSet.reals, SSet.den, Piece.den, Ivl.Mem, EReal.bot_lt_coe, EReal.coe_lt_top]

/-- The limits of `-X` are answered exactly by the example context. -/
theorem ctx0_limits : ctx0.Limits [0, -1] where
  pos := by
    simp only [ctx0]
    rw [if_neg (by norm_num), EReal.tendsto_nhds_bot_iff_real]
    intro x
    filter_upwards [Filter.eventually_gt_atTop (-x)] with y hy
    rw [EReal.coe_lt_coe_iff, polyVal_linear]; linarith
  neg := by
    simp only [ctx0]
    rw [if_neg (by norm_num), EReal.tendsto_nhds_top_iff_real]
    intro x
    filter_upwards [Filter.eventually_lt_atBot (-x)] with y hy
    rw [EReal.coe_lt_coe_iff, polyVal_linear]; linarith

example : Val.num ⊤ ∈ (polyEqInf ctx0 [0, -1] ⊥).den :=
  by
  have e : ctx0.limPos [0, -1] = ⊥ := by
    simp only [ctx0]
    exact if_neg (by norm_num)
  exact (C41_equality_inf ctx0_limits ⊥).1.2 (e ▸ ctx0_limits.pos)

/-- Counterexample for the default `extended=True`: `-X < oo` holds at `X = +oo`, where the polynomial is
`-oo`, but `Reals | FiniteReal(oo)` drops the infinite point. -/
theorem C41_extended_drops_infinity :
    Filter.Tendsto (fun x : ℝ => (polyVal [0, -1] x : EReal)) Filter.atTop (𝓝 ⊥) ∧
    ∃ r, solvePolyIneqInf ctx0 [0, -1] ⊤ true true = .ok r ∧ Val.num ⊤ ∉ r.den := by
  constructor
  · rw [EReal.tendsto_nhds_bot_iff_real]
    intro x
    filter_upwards [Filter.eventually_gt_atTop (-x)] with y hy
    rw [EReal.coe_lt_coe_iff, polyVal_linear]; linarith
  · refine ⟨SSet.reals, ?_, by simp [SSet.reals, SSet.den, Piece.den, Ivl.Mem]⟩
    have : polyEqInf ctx0 [0, -1] ⊥ = .pc (.fin {⊤}) := by
      simp [polyEqInf, ctx0]
    simp [solvePolyIneqInf, this, SSet.or, SSet.reals, Piece.or, finOrIvl, mkIvl, bind, Except.bind]

/-! ## An exact service exists; a correct context for polynomials of every degree -/

/-- Exact roots, listed with multiplicity. -/
noncomputable def exactSvc : NumSvc where
  nroots cs b := (toPoly cs - Polynomial.C b).roots.toList
  nonconst cs := decide ((toPoly cs).natDegree ≠ 0)

theorem exactSvc_exact : exactSvc.Exact where
  roots cs b := by simp [exactSvc]
  nonconst cs := by simp [exactSvc]

/-- The polynomial services of the event layer, answered by the numerical solver (`SPPL_NO_SYMBOLIC` set:
poly.py 40-41, 110-111); `sympy.EmptySet` is not a set of sppl, no answer is given there.  `Poly.range` is
replaced by `ExtReals`. -/
noncomputable def numCtx (c : Ctx) (v : NumSvc) : Ctx where
  σ := c.σ
  iter := c.iter
  mem_iter := c.mem_iter
  polyRange _ := extReals c
  polyIneq cs b strict := match solvePolyIneqNum c.σ v cs b strict with
    | .ok (.set r) => .ok r
    | .ok .sympyEmpty => .error .attribute
    | .error e => .error e
  polyEq cs b := if v.nonconst cs then solvePolyEqNum v cs b else .error .assertion
  limPos := c.limPos
  limNeg := c.limNeg

/-- C41: what the event layer assumes of the polynomial solver (`Ctx.Correct`) holds when the numerical
solver answers, for polynomials of every degree. -/
theorem C41_context_correct (c : Ctx) {v : NumSvc} (hv : v.Exact) : (numCtx c v).Correct where
  range cs r h := by
    obtain ⟨⟨h1, h2, h3⟩, h4⟩ := extReals_spec (c := c) h
    exact ⟨h1, h2, h3, fun x => h4 _⟩
  ineq cs b strict r h := by
    simp only [numCtx] at h
    split at h
    · rename_i r' hr
      injection h with h
      subst h
      by_cases hc : NonConst cs
      · by_cases hroot : ∃ x, polyVal cs x = b
        · by_cases hs : ∀ x, polyVal cs x = b → deriv (polyVal cs) x ≠ 0
          · obtain ⟨r, e, w⟩ := C41_exact c.σ hv cs b strict hroot hs
            rw [e] at hr
            injection hr with hr
            injection hr with hr
            subst hr
            exact w
          · push Not at hs
            obtain ⟨x, hx, hd⟩ := hs
            rw [C41_repeated_root_raises c.σ hv cs b strict hc hx hd] at hr
            cases hr
        · push Not at hroot
          rw [C41_no_root c.σ hv cs b strict hc hroot] at hr
          cases hr
      · rw [C41_constant_raises c.σ hv cs b strict hc] at hr
        cases hr
    · cases h
    · cases h
  eq cs b r h := by
    simp only [numCtx] at h
    split at h
    · rename_i hn
      have hc : NonConst cs := (nonConst_iff cs).2 ((hv.nonconst cs).1 hn)
      obtain ⟨h1, h2, h3⟩ := C41_equality hv cs b hc
      by_cases hroot : ∃ x, polyVal cs x = b
      · obtain ⟨r', e, w1, w2, w3⟩ := h2 hroot
        rw [e] at h
        injection h with h
        subst h
        exact ⟨w1, w2, w3, fun x => h1 x r' e⟩
      · push Not at hroot
        rw [h3 hroot] at h
        cases h
    · cases h

/-! ## Concrete cases -/

/-- `X**2 < 4`: two simple roots, the hypotheses of `C41_exact` hold. -/
example : ∃ r, solvePolyIneqNum ctx0.σ exactSvc [0, 0, 1] 4 true = .ok (.set r) ∧
    ∀ x : ℝ, Val.num (x : EReal) ∈ r.den ↔ -2 < x ∧ x < 2 := by
  have hv : ∀ x, polyVal [0, 0, 1] x = x ^ 2 := by intro x; simp [polyVal]; ring
  have hd : polyVal [0, 0, 1] = fun x => x ^ 2 := funext hv
  obtain ⟨r, h, -, -, -, h'⟩ := C41_exact ctx0.σ exactSvc_exact [0, 0, 1] 4 true ⟨2, by rw [hv]; norm_num⟩ (by
    intro x hx
    rw [hv] at hx
    rw [hd]
    simp only [deriv_pow_field]
    intro h
    have : x = 0 := by simpa using h
    rw [this] at hx; norm_num at hx)
  refine ⟨r, h, fun x => ?_⟩
  rw [h' x, if_pos rfl, hv]
  constructor
  · intro h; constructor <;> nlinarith
  · rintro ⟨h1, h2⟩; nlinarith

/-- `X**2 <= 0` raises: the root is double. -/
example : solvePolyIneqNum ctx0.σ exactSvc [0, 0, 1] 0 false = .error .assertion := by
  have hv : ∀ x, polyVal [0, 0, 1] x = x ^ 2 := by intro x; simp [polyVal]; ring
  have hd : polyVal [0, 0, 1] = fun x => x ^ 2 := funext hv
  exact C41_repeated_root_raises _ exactSvc_exact _ _ _ ⟨0, 1, by rw [hv, hv]; norm_num⟩ (x := 0) (by rw [hv]; norm_num)
    (by rw [hd]; simp)

end Sppl
