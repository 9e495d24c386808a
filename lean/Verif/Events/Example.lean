import Verif.Events.SubstLemmas

/-!
# A concrete context: a correct solver for linear polynomials

Used to show that the hypotheses of the theorems are met.
-/

namespace Sppl
open Classical

/-- Half line `(-oo, x)` or `(-oo, x]`. -/
noncomputable def lowerIvl (x : ℝ) (strict : Bool) : SSet EReal := .pc (.ivl ⟨⊥, (x : EReal), true, strict⟩)
/-- Half line `(x, oo)` or `[x, oo)`. -/
noncomputable def upperIvl (x : ℝ) (strict : Bool) : SSet EReal := .pc (.ivl ⟨(x : EReal), ⊤, strict, true⟩)

/-- Insertion order for frozensets, and exact answers for polynomials of degree one. -/
noncomputable def ctx0 : Ctx where
  σ := Orders.id EReal
  iter s := s.toList
  mem_iter := by simp
  polyRange cs := match cs with
    | [_, _] => .ok SSet.reals
    | _ => .error .notImplemented
  polyIneq cs y strict := match cs with
    | [b, a] => if 0 < a then .ok (lowerIvl ((y - b) / a) strict)
        else if a < 0 then .ok (upperIvl ((y - b) / a) strict) else .error .notImplemented
    | _ => .error .notImplemented
  polyEq cs y := match cs with
    | [b, a] => if a = 0 then .error .notImplemented else .ok (.pc (.fin {(((y - b) / a : ℝ) : EReal)}))
    | _ => .error .notImplemented
  limPos cs := match cs with
    | [_, a] => if 0 < a then ⊤ else ⊥
    | _ => 0
  limNeg cs := match cs with
    | [_, a] => if 0 < a then ⊥ else ⊤
    | _ => 0

theorem polyVal_linear (b a x : ℝ) : polyVal [b, a] x = b + x * a := by simp [polyVal]

/-- The context answers correctly. -/
theorem ctx0_correct : ctx0.Correct where
  range cs r h := by
    simp only [ctx0] at h
    split at h
    · cases h
      refine ⟨⟨by simp, by simp, by simp⟩, trivial, fun s => by simp [SSet.reals], fun x => ?_⟩
      simp only [SSet.reals, SSet.den_pc, Piece.mem_den_ivl, Ivl.Mem, if_true]
      exact ⟨EReal.bot_lt_coe _, EReal.coe_lt_top _⟩
    · cases h
  ineq cs y strict r h := by
    simp only [ctx0] at h
    split at h
    · rename_i b a
      split at h
      · rename_i ha
        cases h
        refine ⟨⟨EReal.bot_lt_coe _, by simp, fun h => absurd h (EReal.coe_ne_top _)⟩, trivial,
          fun s => by simp [lowerIvl], fun x => ?_⟩
        simp only [lowerIvl, SSet.den_pc, Piece.mem_den_ivl, Ivl.Mem, if_true]
        rw [polyVal_linear]
        have hb := EReal.bot_lt_coe x
        have e1 : x < (y - b) / a ↔ b + x * a < y := by rw [lt_div_iff₀ ha]; constructor <;> intro h <;> linarith
        have e2 : x ≤ (y - b) / a ↔ b + x * a ≤ y := by rw [le_div_iff₀ ha]; constructor <;> intro h <;> linarith
        cases strict
        · simp only [Bool.false_eq_true, if_false, hb, true_and]; rw [EReal.coe_le_coe_iff]; exact e2
        · simp only [if_true, hb, true_and]; rw [EReal.coe_lt_coe_iff]; exact e1
      · split at h
        · rename_i ha
          cases h
          refine ⟨⟨EReal.coe_lt_top _, fun h => absurd h (EReal.coe_ne_bot _), by simp⟩, trivial,
            fun s => by simp [upperIvl], fun x => ?_⟩
          simp only [upperIvl, SSet.den_pc, Piece.mem_den_ivl, Ivl.Mem, if_true]
          rw [polyVal_linear]
          have hb := EReal.coe_lt_top x
          have e1 : (y - b) / a < x ↔ b + x * a < y := by
            rw [div_lt_iff_of_neg ha]; constructor <;> intro h <;> linarith
          have e2 : (y - b) / a ≤ x ↔ b + x * a ≤ y := by
            rw [div_le_iff_of_neg ha]; constructor <;> intro h <;> linarith
          cases strict
          · simp only [Bool.false_eq_true, if_false, hb, and_true]; rw [EReal.coe_le_coe_iff]; exact e2
          · simp only [if_true, hb, and_true]; rw [EReal.coe_lt_coe_iff]; exact e1
        · cases h
    · cases h
  eq cs y r h := by
    simp only [ctx0] at h
    split at h
    · rename_i b a
      split at h
      · cases h
      · rename_i ha
        cases h
        refine ⟨by simp [SSet.WF, Piece.WF], trivial, fun s => by simp, fun x => ?_⟩
        simp only [SSet.den_pc, Piece.mem_den_fin, Finset.mem_singleton]
        rw [EReal.coe_eq_coe_iff, polyVal_linear, eq_div_iff ha]
        constructor <;> intro h <;> linarith
    · cases h

/-- The expression `2 X + 1`. -/
noncomputable def lin : Tr := .poly (.id "X") [1, 2]

theorem lin_made : lin.Made ctx0 := .poly (.id _) (by simp)

/-- `0 <= 2 X + 1 < 4`. -/
noncomputable def linEv : Ev := .ivl lin ⟨((0 : ℝ) : EReal), ((4 : ℝ) : EReal), false, true⟩

theorem linEv_made : linEv.Made ctx0 :=
  .ivl lin_made ⟨by simp, fun h => absurd h (EReal.coe_ne_bot _), fun h => absurd h (EReal.coe_ne_top _)⟩

@[simp] theorem ctx0_iter (x : EReal) : ctx0.iter {x} = [x] := by simp [ctx0]

theorem and_one (c : Ctx) : SSet.and c.σ (.pc (.fin {0, 1})) (.pc (.fin {1})) = .ok (.pc (.fin {(1 : EReal)})) := by
  simp only [SSet.and, Piece.and, finOrEmpty]
  have : ({0, 1} : Finset EReal) ∩ {1} = {1} := by ext; simp
  rw [this]; simp

theorem iter_one (c : Ctx) (x : EReal) : ∃ k, c.iter {x} = x :: List.replicate k x := by
  have h : ∀ y ∈ c.iter {x}, y = x := fun y hy => by simpa using (c.mem_iter _ _).1 hy
  have hx : x ∈ c.iter {x} := (c.mem_iter _ _).2 (by simp)
  obtain ⟨k, hk⟩ : ∃ k, c.iter {x} = List.replicate k x := ⟨_, List.eq_replicate_of_mem h⟩
  cases k with
  | zero => rw [hk] at hx; simp at hx
  | succ k => exact ⟨k, by rw [hk]; rfl⟩

theorem ctx0_invert_ivl (n : ℕ) (t : Tr) (i : Ivl EReal) :
    Ev.invert ctx0 (n + 1) (.ivl t i) (.pc (.fin {1})) = Tr.invert ctx0 n t (.pc (.ivl i)) := by
  simp only [Ev.invert, and_one, bind, Except.bind, Ev.invertFinite, ctx0_iter]
  simp [List.mapM_cons, Ev.finvReal, makeUnion, reduceM, bind, Except.bind, pure, Except.pure]

/-- An interval with finite end points meets the real line in itself. -/
theorem reals_and {a b : ℝ} {lo ro : Bool} :
    Ivl.and (⟨⊥, ⊤, true, true⟩ : Ivl EReal) ⟨(a : EReal), (b : EReal), lo, ro⟩ =
      .ok (.pc (.ivl ⟨(a : EReal), (b : EReal), lo, ro⟩)) := by
  unfold Ivl.and
  simp [Ivl.has]

theorem mkUnion_fin_ivl (s : Finset EReal) (i : Ivl EReal) :
    mkUnion ctx0.σ [.pc (.fin s), .pc (.ivl i)] =
      .ok (.un ⟨none, some s, [i], [.fin s, .ivl i], [.fin s, .ivl i]⟩) := by
  simp [mkUnion, SSet.isUnion, SSet.piece?, Piece.nom?, Piece.fin?, Piece.ivl?, ctx0, Orders.id, List.filterMap_cons]

theorem mkUnion_ivl_ivl (i j : Ivl EReal) (h : i ≠ j) :
    mkUnion ctx0.σ [.pc (.ivl i), .pc (.ivl j)] =
      .ok (.un ⟨none, none, [i, j], [.ivl i, .ivl j], [.ivl i, .ivl j]⟩) := by
  have h1 : [i, j].dedup = [i, j] := by rw [List.dedup_cons_of_notMem (by simpa using h)]; simp
  have h2 : [Piece.ivl i, Piece.ivl j].dedup = [Piece.ivl i, Piece.ivl j] := by
    rw [List.dedup_cons_of_notMem (by simpa using h)]; simp
  simp [mkUnion, SSet.isUnion, SSet.piece?, Piece.nom?, Piece.fin?, Piece.ivl?, ctx0, Orders.id, List.filterMap_cons, h1, h2]

theorem ctx0_id_ivl (n : ℕ) (s : String) {a b : ℝ} {lo ro : Bool} :
    Tr.invert ctx0 (n + 1) (.id s) (.pc (.ivl ⟨(a : EReal), (b : EReal), lo, ro⟩)) =
      .ok (.pc (.ivl ⟨(a : EReal), (b : EReal), lo, ro⟩)) := by
  have hr : extReals ctx0 = .ok (.un ⟨none, some {⊥, ⊤}, [⟨⊥, ⊤, true, true⟩], [.fin {⊥, ⊤}, .ivl ⟨⊥, ⊤, true, true⟩],
      [.fin {⊥, ⊤}, .ivl ⟨⊥, ⊤, true, true⟩]⟩) := by
    exact mkUnion_fin_ivl _ _
  simp only [Tr.invert, Tr.range, hr, bind, Except.bind, SSet.and, Un.andPiece, andOptFin, Piece.and,
    List.mapM_cons, List.mapM_nil, reals_and, pure, Except.pure]
  have : Finset.filter (fun v => (⟨(a : EReal), (b : EReal), lo, ro⟩ : Ivl EReal).has v) {⊥, ⊤} = ∅ := by
    rw [Finset.filter_eq_empty_iff]
    intro x hx
    simp only [Finset.mem_insert, Finset.mem_singleton] at hx
    rcases hx with rfl | rfl <;> cases lo <;> cases ro <;> simp [Ivl.has]
  simp [this, finOrEmpty, finishAnd, SSet.isEmpty, Tr.invertStep, Tr.invertInterval]

/-- Solving the event returns the interval `[-1/2, 3/2)`. -/
theorem linEv_solve : linEv.solve ctx0 5 = .ok (.pc (.ivl ⟨((-1/2 : ℝ) : EReal), ((3/2 : ℝ) : EReal), false, true⟩)) := by
  have e1 : linEv.solve ctx0 5 = Ev.invert ctx0 5 linEv (.pc (.fin {1})) := by
    simp [linEv, lin, Ev.solve, Ev.symbols, Tr.symbols]
  have e2 : polyInterval ctx0 [1, 2] ⟨((0 : ℝ) : EReal), ((4 : ℝ) : EReal), false, true⟩ =
      .ok (.pc (.ivl ⟨((-1/2 : ℝ) : EReal), ((3/2 : ℝ) : EReal), false, true⟩)) := by
    have k1 : solvePolyIneq ctx0 [1, 2] ((0 : ℝ) : EReal) true = .ok (lowerIvl (-1/2) true) := by
      unfold solvePolyIneq
      rw [if_neg (EReal.coe_ne_bot _), if_neg (EReal.coe_ne_top _)]
      simp only [ctx0, EReal.toReal_coe]
      norm_num
    have k2 : solvePolyIneq ctx0 [1, 2] ((4 : ℝ) : EReal) true = .ok (lowerIvl (3/2) true) := by
      unfold solvePolyIneq
      rw [if_neg (EReal.coe_ne_bot _), if_neg (EReal.coe_ne_top _)]
      simp only [ctx0, EReal.toReal_coe]
      norm_num
    have k3 : SSet.invert ctx0.σ (lowerIvl (-1/2) true) = .ok (upperIvl (-1/2) false) := by
      simp only [lowerIvl, upperIvl, SSet.invert, Piece.invert, Ivl.invert]
      rw [if_pos trivial, if_neg (EReal.coe_ne_top _)]
      simp only [mkIvl]
      rw [if_pos (EReal.coe_lt_top _)]
      simp [bind, Except.bind]
    have k4 : ∀ a b : ℝ, a < b → SSet.and ctx0.σ (lowerIvl b true) (upperIvl a false) =
        .ok (.pc (.ivl ⟨(a : EReal), (b : EReal), false, true⟩)) := by
      intro a b hab
      simp only [lowerIvl, upperIvl, SSet.and, Piece.and, Ivl.and]
      simp [Ivl.has, hab, hab.ne', mkIvl, bind, Except.bind]
    simp only [polyInterval, Bool.not_false, k1, k2, k3, bind, Except.bind]
    exact k4 _ _ (by norm_num)
  have hr : Tr.range ctx0 lin = .ok SSet.reals := by simp [Tr.range, lin, ctx0]
  rw [e1, linEv, ctx0_invert_ivl, Tr.invert, hr]
  simp only [SSet.reals, bind, Except.bind, SSet.and, Piece.and, reals_and]
  simp only [lin, Tr.invertStep, Tr.invertInterval, Tr.intervalPre, e2, bind, Except.bind, Tr.sub]
  exact ctx0_id_ivl 2 "X"

/-! ## An exponential with base below one -/

theorem ctx0_extRealsPos : extRealsPos ctx0 = .ok (.un ⟨none, some {⊤}, [⟨0, ⊤, false, true⟩],
    [.fin {⊤}, .ivl ⟨0, ⊤, false, true⟩], [.fin {⊤}, .ivl ⟨0, ⊤, false, true⟩]⟩) := by
  simp [extRealsPos, mkIvl, mkUnion_fin_ivl, bind, Except.bind]

theorem ctx0_extReals : extReals ctx0 = .ok (.un ⟨none, some {⊥, ⊤}, [⟨⊥, ⊤, true, true⟩],
    [.fin {⊥, ⊤}, .ivl ⟨⊥, ⊤, true, true⟩], [.fin {⊥, ⊤}, .ivl ⟨⊥, ⊤, true, true⟩]⟩) := mkUnion_fin_ivl _ _

/-- Intersecting `ExtRealsPos` or `ExtReals` with a half line `[a, oo)`. -/
theorem and_half {l : EReal} {lo : Bool} {s : Finset EReal} {a : ℝ} (hl : l < a)
    (hs : ∀ x ∈ s, x = ⊥ ∨ x = ⊤) :
    SSet.and ctx0.σ (.un ⟨none, some s, [⟨l, ⊤, lo, true⟩], [.fin s, .ivl ⟨l, ⊤, lo, true⟩],
      [.fin s, .ivl ⟨l, ⊤, lo, true⟩]⟩) (.pc (.ivl ⟨(a : EReal), ⊤, false, true⟩)) =
        .ok (.pc (.ivl ⟨(a : EReal), ⊤, false, true⟩)) := by
  have h1 : Finset.filter (fun v => (⟨(a : EReal), ⊤, false, true⟩ : Ivl EReal).has v) s = ∅ := by
    rw [Finset.filter_eq_empty_iff]
    intro x hx
    rcases hs x hx with rfl | rfl <;> simp [Ivl.has]
  have h2 : Ivl.and (⟨l, ⊤, lo, true⟩ : Ivl EReal) ⟨(a : EReal), ⊤, false, true⟩ =
      .ok (.pc (.ivl ⟨(a : EReal), ⊤, false, true⟩)) := by
    unfold Ivl.and
    have hne : (a : EReal) ≠ l := hl.ne'
    cases lo <;> simp [Ivl.has, hl, hl.le, hne, hl.not_ge, mkIvl, bind, Except.bind]
  simp only [SSet.and, Un.andPiece, andOptFin, Piece.and, h1, bind, Except.bind, List.mapM_cons, List.mapM_nil, h2,
    pure, Except.pure]
  simp [finOrEmpty, finishAnd, SSet.isEmpty]

/-- `(1/2)**X >= 2` is inverted to `X >= -1`. -/
theorem halfExp_invert : Tr.invert ctx0 3 (.exp (.id "X") (1/2)) (.pc (.ivl ⟨((2 : ℝ) : EReal), ⊤, false, true⟩)) =
    .ok (.pc (.ivl ⟨((-1 : ℝ) : EReal), ⊤, false, true⟩)) := by
  have hlog : Real.logb (1/2) 2 = -1 := by
    rw [Real.logb_eq_iff_rpow_eq (by norm_num) (by norm_num) (by norm_num)]
    rw [Real.rpow_neg_one]; norm_num
  have f2 : Tr.finv ctx0 (.exp (.id "X") (1/2)) ((2 : ℝ) : EReal) = .ok (.pc (.fin {((-1 : ℝ) : EReal)})) := by
    have h2 : ¬ ((2 : ℝ) : EReal) ≤ 0 := by
      rw [not_le]; exact EReal.coe_pos.2 (by norm_num)
    have hin : (SSet.un ⟨none, some {⊤}, [⟨0, ⊤, false, true⟩],
        [.fin {⊤}, .ivl ⟨0, ⊤, false, true⟩], [.fin {⊤}, .ivl ⟨0, ⊤, false, true⟩]⟩ : SSet EReal).contains
          (.num ((2 : ℝ) : EReal)) = .ok true := by
      have := (not_le.1 h2).le
      simp only [SSet.contains, anyContains, Piece.contains, bind, Except.bind, Ivl.has]
      rw [decide_eq_false (by simp only [Finset.mem_singleton]; exact EReal.coe_ne_top _)]
      simp [this]
    simp only [Tr.finv, ifInRange, ctx0_extRealsPos, bind, Except.bind, hin, if_true]
    rw [if_neg (EReal.coe_ne_top _), if_neg h2, if_neg (by norm_num), EReal.toReal_coe, hlog]
  have ft : Tr.finv ctx0 (.exp (.id "X") (1/2)) ⊤ = .ok (.pc (.fin {⊤})) := by
    simp [Tr.finv, ifInRange, ctx0_extRealsPos, bind, Except.bind, SSet.contains, anyContains, Piece.contains]
  have hi : injInterval ctx0 (.exp (.id "X") (1/2)) ⟨((2 : ℝ) : EReal), ⊤, false, true⟩ =
      .ok (.pc (.ivl ⟨((-1 : ℝ) : EReal), ⊤, false, true⟩)) := by
    simp only [injInterval, f2, ft, bind, Except.bind, firstElem, ctx0_iter, transformInterval, mkIvl]
    rw [if_neg (by simp), if_pos (EReal.coe_lt_top _)]
    simp only [EReal.coe_ne_bot, decide_false, Bool.or_false, Bool.true_or]
  have e1 : SSet.and ctx0.σ (.un ⟨none, some {⊤}, [⟨0, ⊤, false, true⟩], [.fin {⊤}, .ivl ⟨0, ⊤, false, true⟩],
      [.fin {⊤}, .ivl ⟨0, ⊤, false, true⟩]⟩) (.pc (.ivl ⟨((2 : ℝ) : EReal), ⊤, false, true⟩)) = _ :=
    and_half (EReal.coe_pos.2 (by norm_num)) (by simp)
  have e2 : SSet.and ctx0.σ (.un ⟨none, some {⊥, ⊤}, [⟨⊥, ⊤, true, true⟩], [.fin {⊥, ⊤}, .ivl ⟨⊥, ⊤, true, true⟩],
      [.fin {⊥, ⊤}, .ivl ⟨⊥, ⊤, true, true⟩]⟩) (.pc (.ivl ⟨((-1 : ℝ) : EReal), ⊤, false, true⟩)) = _ :=
    and_half (EReal.bot_lt_coe _) (by simp)
  simp only [Tr.invert, Tr.range, ctx0_extRealsPos, ctx0_extReals, bind, Except.bind, e1, Tr.invertStep, Tr.invertInterval,
    Tr.intervalPre, hi, Tr.sub, e2]

end Sppl
