import Verif.Events.Example

/-!
# Properties C07-C12 and C44: transforms and events (`transforms.py`)

`Tr.eval`, `Ev.holds` (`Spec.lean`) are the value of an expression and the truth of an event at an
assignment.  `c : Ctx` holds the external services (hash orders, sympy's polynomial solver); `n` bounds
the depth of the Python stack.
-/

namespace Sppl
open Classical

/-! ## C07: Boolean operators -/

/-- C07: whenever `e & f` returns, it holds exactly where both hold. -/
theorem C07_and {c : Ctx} {e f g : Ev} (he : e.Valid) (hf : f.Valid) (h : e.land c f = .ok g) :
    g.Valid ∧ ∀ ω, g.holds ω ↔ e.holds ω ∧ f.holds ω := Ev.land_spec he hf h

/-- C07: whenever `e | f` returns, it holds exactly where one of them holds. -/
theorem C07_or {c : Ctx} {e f g : Ev} (he : e.Valid) (hf : f.Valid) (h : e.lor c f = .ok g) :
    g.Valid ∧ ∀ ω, g.holds ω ↔ e.holds ω ∨ f.holds ω := Ev.lor_spec he hf h

/-- C07: whenever `~e` returns, it holds exactly where `e` does not, at every assignment where the
expressions compared in `e` are defined and of the right kind. -/
theorem C07_not {c : Ctx} {e g : Ev} (he : e.Valid) (h : e.not c = .ok g) :
    g.Valid ∧ ∀ ω, e.Typed ω → (g.holds ω ↔ ¬ e.holds ω) := Ev.not_spec e he h

/-- C07: whenever `e ^ f` returns, it holds exactly where one of the two holds and the other does
not. -/
theorem C07_xor {c : Ctx} {e f g : Ev} (he : e.Valid) (hf : f.Valid) (h : e.xor c f = .ok g) :
    g.Valid ∧ ∀ ω, e.Typed ω → f.Typed ω →
      (g.holds ω ↔ (e.holds ω ∧ ¬ f.holds ω) ∨ (¬ e.holds ω ∧ f.holds ω)) :=
  Ev.xor_spec he hf h

/-- An interval event with finite end points. -/
noncomputable def ivE (t : Tr) (a b : ℝ) (lo ro : Bool) : Ev := .ivl t ⟨(a : EReal), (b : EReal), lo, ro⟩

theorem ivE_valid {t : Tr} {a b : ℝ} {lo ro : Bool} (h : a < b) : (ivE t a b lo ro).Valid :=
  .ivl ⟨by simpa using h, fun h => absurd h (EReal.coe_ne_bot _), fun h => absurd h (EReal.coe_ne_top _)⟩

/-- C07 non-vacuity: events on different expressions combine. -/
example (c : Ctx) : (ivE (.id "X") 0 1 true false).land c (ivE (.abs (.id "X")) 2 3 true false) =
      .ok (.and [ivE (.id "X") 0 1 true false, ivE (.abs (.id "X")) 2 3 true false]) ∧
    (ivE (.id "X") 0 1 true false).Valid ∧ (ivE (.abs (.id "X")) 2 3 true false).Valid := by
  refine ⟨?_, ivE_valid (by norm_num), ivE_valid (by norm_num)⟩
  simp [Ev.land, Ev.simplify, Ev.basic?, ivE, bind, Except.bind, Ev.conjuncts]

/-- C07 non-vacuity: `&` on the same expression is simplified to one interval. -/
example (c : Ctx) : (ivE (.exp (.id "X") 2) 0 2 true false).land c (ivE (.exp (.id "X") 2) 1 3 true false) =
      .ok (ivE (.exp (.id "X") 2) 1 2 true false) := by
  have h : Ivl.and (⟨((0 : ℝ) : EReal), ((2 : ℝ) : EReal), true, false⟩ : Ivl EReal)
      ⟨((1 : ℝ) : EReal), ((3 : ℝ) : EReal), true, false⟩ =
      .ok (.pc (.ivl ⟨((1 : ℝ) : EReal), ((2 : ℝ) : EReal), true, false⟩)) := by
    have gen : ∀ a b d e : ℝ, a < b → b < d → d < e →
        Ivl.and (⟨(a : EReal), (d : EReal), true, false⟩ : Ivl EReal) ⟨(b : EReal), (e : EReal), true, false⟩ =
        .ok (.pc (.ivl ⟨(b : EReal), (d : EReal), true, false⟩)) := by
      intro a b d e h1 h2 h3
      unfold Ivl.and
      simp [Ivl.has, h1, h1.ne', h2.le, h2, h2.ne', h3.not_ge, h1.not_gt, mkIvl, bind, Except.bind]
    exact gen 0 1 2 3 (by norm_num) (by norm_num) (by norm_num)
  simp only [Ev.land, Ev.simplify, Ev.basic?, ivE, bind, Except.bind, Ev.values, SSet.and, Piece.and, if_true, h,
    Ev.ofSet, Option.getD_some]

/-- C07 non-vacuity: a negation that returns, with an assignment where the event is defined. -/
example : (ivE (.exp (.id "X") 2) 0 1 true false).not ctx0 =
      .ok (.or [.ivl (.exp (.id "X") 2) ⟨⊥, ((0 : ℝ) : EReal), true, false⟩,
        .ivl (.exp (.id "X") 2) ⟨((1 : ℝ) : EReal), ⊤, true, true⟩]) ∧
    (ivE (.exp (.id "X") 2) 0 1 true false).Typed (fun _ => some (.num 3)) := by
  have h : ∀ a b : ℝ, Ivl.invert ctx0.σ (⟨(a : EReal), (b : EReal), true, false⟩ : Ivl EReal) =
      .ok (.un ⟨none, none, [⟨⊥, (a : EReal), true, false⟩, ⟨(b : EReal), ⊤, true, true⟩],
        [.ivl ⟨⊥, (a : EReal), true, false⟩, .ivl ⟨(b : EReal), ⊤, true, true⟩],
        [.ivl ⟨⊥, (a : EReal), true, false⟩, .ivl ⟨(b : EReal), ⊤, true, true⟩]⟩) := by
    intro a b
    simp only [Ivl.invert, EReal.coe_ne_bot, EReal.coe_ne_top, if_false, mkIvl, EReal.bot_lt_coe, EReal.coe_lt_top,
      if_true, bind, Except.bind, Bool.not_true, Bool.not_false, Bool.false_or, decide_true, decide_false, Bool.or_self,
      Bool.true_or]
    exact mkUnion_ivl_ivl _ _ (by simp)
  refine ⟨?_, _, rfl⟩
  simp only [ivE, Ev.not, SSet.invert, Piece.invert, h, bind, Except.bind, notIvl]
  simp [ivlArgs, bind, Except.bind, Except.map]

/-- C07 counterexample at undefined points: where `log X` is undefined, neither `log X < 1` nor its
negation holds. -/
theorem C07_not_undefined : ∃ g, (ivE (.log (.id "X") 2) 0 1 true false).not ctx0 = .ok g ∧
    ∃ ω, ¬ g.holds ω ∧ ¬ (ivE (.log (.id "X") 2) 0 1 true false).holds ω := by
  have h : ∀ a b : ℝ, Ivl.invert ctx0.σ (⟨(a : EReal), (b : EReal), true, false⟩ : Ivl EReal) =
      .ok (.un ⟨none, none, [⟨⊥, (a : EReal), true, false⟩, ⟨(b : EReal), ⊤, true, true⟩],
        [.ivl ⟨⊥, (a : EReal), true, false⟩, .ivl ⟨(b : EReal), ⊤, true, true⟩],
        [.ivl ⟨⊥, (a : EReal), true, false⟩, .ivl ⟨(b : EReal), ⊤, true, true⟩]⟩) := by
    intro a b
    simp only [Ivl.invert, EReal.coe_ne_bot, EReal.coe_ne_top, if_false, mkIvl, EReal.bot_lt_coe, EReal.coe_lt_top,
      if_true, bind, Except.bind, Bool.not_true, Bool.not_false, Bool.false_or, decide_true, decide_false, Bool.or_self,
      Bool.true_or]
    exact mkUnion_ivl_ivl _ _ (by simp)
  refine ⟨.or [.ivl (.log (.id "X") 2) ⟨⊥, ((0 : ℝ) : EReal), true, false⟩,
        .ivl (.log (.id "X") 2) ⟨((1 : ℝ) : EReal), ⊤, true, true⟩], ?_, fun _ => some (.num (-1)), ?_, ?_⟩
  · simp only [ivE, Ev.not, SSet.invert, Piece.invert, h, bind, Except.bind, notIvl]
    simp [ivlArgs, bind, Except.bind, Except.map]
  · have : ¬ (1 : ℝ) < 0 := by norm_num
    simp [Tr.eval, onNum, logVal, this]
  · have : ¬ (1 : ℝ) < 0 := by norm_num
    simp [ivE, Tr.eval, onNum, logVal, this]

/-! ## C08: solving events -/

/-- C08: whenever `e.solve()` returns `S` for an event in one variable `s`, a value `v` of `s` is in `S`
exactly when the event holds there (at points that do not hit the singularity of a logarithm). -/
theorem C08_solve_exact {c : Ctx} (hc : c.Correct) {e : Ev} (hm : e.Made c) {n : ℕ} {S : SSet EReal}
    (h : e.solve c n = .ok S) {s : String} (hs : e.symbols = {s}) (ω : Asg) (v : Val ℝ) (hv : ω s = some v)
    (hr : e.Regular ω) : v.lift ∈ S.den ↔ e.holds ω :=
  (Ev.solve_exact hc hm h).2.2 ω s v hs hv (by simp) hr

/-- C08 at real points, for every event without exception: a number is in the solution set exactly when
the event holds there. -/
theorem C08_solve_exact_real {c : Ctx} (hc : c.Correct) {e : Ev} (hm : e.MadeG true c) {n : ℕ} {S : SSet EReal}
    (h : e.solve c n = .ok S) {s : String} (hs : e.symbols = {s}) (ω : Asg) (x : ℝ) (hv : ω s = some (.num x))
    (hr : e.Regular ω) : Val.num (x : EReal) ∈ S.den ↔ e.holds ω :=
  (Ev.solve_exact hc hm h).2.2 ω s (.num x) hs hv (by simp [Val.isNum]) hr

/-- C08: the pieces of the solution set are well formed and do not overlap. -/
theorem C08_solve_disjoint {c : Ctx} (hc : c.Correct) {e : Ev} (hm : e.Made c) {n : ℕ} {S : SSet EReal}
    (h : e.solve c n = .ok S) : S.WF ∧ S.Disj :=
  ⟨(Ev.solve_exact hc hm h).1, (Ev.solve_exact hc hm h).2.1⟩

/-- C08: an event in several variables is rejected. -/
theorem C08_solve_multivariate {c : Ctx} {e : Ev} (h : 1 < e.symbols.card) (n : ℕ) : e.solve c n = .error .value := by
  unfold Ev.solve
  split
  · simp [Ev.symbols, Tr.symbols] at h
  · simp [Ev.symbols, Tr.symbols] at h
  · simp [Ev.symbols, Tr.symbols] at h
  · simp [h]

/-- C08/C09 non-vacuity: `0 <= 2 X + 1 < 4` is solved to `[-1/2, 3/2)`. -/
example : linEv.solve ctx0 5 = .ok (.pc (.ivl ⟨((-1/2 : ℝ) : EReal), ((3/2 : ℝ) : EReal), false, true⟩)) ∧
    ctx0.Correct ∧ linEv.Made ctx0 ∧ linEv.symbols = {"X"} ∧ ∀ ω, linEv.Regular ω :=
  ⟨linEv_solve, ctx0_correct, linEv_made, by simp [linEv, lin, Ev.symbols, Tr.symbols],
    fun ω => by simp [linEv, lin, Ev.Regular, Tr.Regular]⟩

/-- C08 counterexample: a string event on a piecewise expression is solved to the empty set although
it holds for `X = 'a'` (here `X * (X << {'a'}) << {'a'}`). -/
theorem C08_nominal_piecewise_wrong (c : Ctx) :
    ∃ t, mkPiecewise c 2 [.id "X"] [.nom (.id "X") (some ⟨{"a"}, none⟩)] = .ok t ∧
      (Ev.nom t (some ⟨{"a"}, none⟩)).solve c 2 = .ok .empty ∧
      (Ev.nom t (some ⟨{"a"}, none⟩)).holds (fun _ => some (.str "a")) := by
  refine ⟨.pw [.id "X"] [.nom (.id "X") (some ⟨{"a"}, none⟩)] [.pc (.nom ⟨{"a"}, none⟩)], ?_, ?_, ?_⟩
  · simp [mkPiecewise, Tr.symbolsL, Ev.symbolsL, Tr.symbols, Ev.symbols, List.mapM_cons, Ev.solve, optNom, bind, Except.bind,
      pure, Except.pure, checkDisjoint]
  · simp only [Ev.solve, Ev.symbols, Tr.symbols, Tr.symbolsL]
    simp only [Finset.union_empty, Finset.card_singleton, lt_irrefl, if_false, Ev.invert, and_one, bind, Except.bind,
      Ev.invertFinite]
    rw [if_neg (by simp), if_pos trivial]
    simp [Ev.finvNom, Tr.isId, Nom.neg]
  · simp [Tr.eval, Tr.evalL, Ev.holdsL, Ev.holdsB, pick]

/-- C08 counterexample: a complemented nominal set on a transformed variable (`abs(X) << ~{'a'}`) is
solved to the set of all strings, although it holds for no string. -/
theorem C08_complement_wrong (c : Ctx) :
    (Ev.nom (.abs (.id "X")) (some ⟨{"a"}, some true⟩)).solve c 2 = .ok SSet.strings ∧
      (Val.str "b" : Val EReal) ∈ (SSet.strings : SSet EReal).den ∧
      ¬ (Ev.nom (.abs (.id "X")) (some ⟨{"a"}, some true⟩)).holds (fun _ => some (.str "b")) := by
  refine ⟨?_, by simp [SSet.strings, SSet.den, Piece.den], by simp [Tr.eval, onNum]⟩
  simp only [Ev.solve, Ev.symbols, Tr.symbols, Finset.card_singleton, lt_irrefl, if_false, Ev.invert, and_one, bind,
    Except.bind, Ev.invertFinite]
  rw [if_neg (by simp), if_pos trivial]
  simp [Ev.finvNom, Tr.isId, Nom.neg]

/-! ## C09: preimages -/

/-- C09: whenever `t.invert(V)` returns `S`, a value `v` of the variable of `t` is in `S` exactly when
`t` has a numeric value at `v` and this value is in `V`. Exponential bases are above one. -/
theorem C09_invert_exact {c : Ctx} (hc : c.Correct) {t : Tr} (hm : t.Made c) {n : ℕ} {V S : SSet EReal}
    (hV : V.WF) (hd : V.Disj) (h : Tr.invert c n t V = .ok S) {s : String} (hs : t.symbols = {s})
    (ω : Asg) (v : Val ℝ) (hv : ω s = some v) (hr : t.Regular ω) :
    v.lift ∈ S.den ↔ ∃ y : ℝ, t.eval ω = some (.num y) ∧ Val.num (y : EReal) ∈ V.den :=
  ((exact hc).1 t hm n V S hV hd h).2 ω s v hs hv (by simp) hr

/-- C09: a preimage never contains a string, and its pieces do not overlap. -/
theorem C09_invert_wf {c : Ctx} (hc : c.Correct) {t : Tr} (hm : t.Made c) {n : ℕ} {V S : SSet EReal}
    (hV : V.WF) (hd : V.Disj) (h : Tr.invert c n t V = .ok S) :
    S.WF ∧ S.Disj ∧ ∀ x, Val.str x ∉ S.den :=
  let g := ((exact hc).1 t hm n V S hV hd h).1
  ⟨g.wf, g.disj, g.str⟩

/-- C09 non-vacuity: inverting the identity. -/
example : Tr.invert ctx0 1 (.id "X") (.pc (.ivl ⟨((0 : ℝ) : EReal), ((1 : ℝ) : EReal), true, false⟩)) =
    .ok (.pc (.ivl ⟨((0 : ℝ) : EReal), ((1 : ℝ) : EReal), true, false⟩)) := ctx0_id_ivl 0 "X"

/-- C09 counterexample for bases below one (which `Exponential` accepts, transforms.py 443): `(1/2)**X >= 2`
is inverted to `X >= -1`, which contains `0`, where the value is `1`. -/
theorem C09_exp_small_base_wrong :
    ∃ S, Tr.invert ctx0 3 (.exp (.id "X") (1/2)) (.pc (.ivl ⟨((2 : ℝ) : EReal), ⊤, false, true⟩)) = .ok S ∧
      ∃ ω v, ω "X" = some v ∧ v.lift ∈ S.den ∧
        ∃ y : ℝ, (Tr.exp (.id "X") (1/2)).eval ω = some (.num y) ∧
          Val.num (y : EReal) ∉ (SSet.pc (.ivl ⟨((2 : ℝ) : EReal), ⊤, false, true⟩)).den := by
  refine ⟨_, halfExp_invert, fun _ => some (.num 0), .num 0, rfl, ?_, 1, ?_, ?_⟩
  · simp only [Val.lift, SSet.den_pc, Piece.mem_den_ivl, Ivl.Mem]
    refine ⟨?_, ?_⟩
    · simp only [Bool.false_eq_true, if_false]; exact EReal.coe_le_coe_iff.2 (by norm_num)
    · simp only [if_true]; exact EReal.coe_lt_top 0
  · simp [Tr.eval, onNum, expVal]
  · simp only [SSet.den_pc, Piece.mem_den_ivl, Ivl.Mem, Bool.false_eq_true, if_false, not_and]
    intro h
    exact absurd (EReal.coe_le_coe_iff.1 h) (by norm_num)

/-! ## C10: arithmetic -/

/-- Apply a real operation to two optional values. -/
def onNum2 (f : ℝ → ℝ → ℝ) : Option (Val ℝ) → Option (Val ℝ) → Option (Val ℝ)
  | some (.num x), some (.num y) => some (.num (f x y))
  | _, _ => none

/-- C10: `t + x`. -/
theorem C10_add_num {t r : Tr} {x : ℝ} (h : t.addNum x = .ok r) (ω : Asg) :
    r.eval ω = onNum (fun y => some (y + x)) (t.eval ω) := Tr.addNum_eval h ω

/-- C10: `t - x`. -/
theorem C10_sub_num {t r : Tr} {x : ℝ} (h : t.subNum x = .ok r) (ω : Asg) :
    r.eval ω = onNum (fun y => some (y - x)) (t.eval ω) := by
  rw [Tr.addNum_eval h ω]; congr 1; funext y; congr 1; ring

/-- C10: `x * t`. -/
theorem C10_mul_num {t r : Tr} {x : ℝ} (h : t.mulNum x = .ok r) (ω : Asg) :
    r.eval ω = onNum (fun y => some (x * y)) (t.eval ω) := Tr.mulNum_eval h ω

/-- C10: `t / x`. -/
theorem C10_div_num {t r : Tr} {x : ℝ} (h : t.divNum x = .ok r) (ω : Asg) :
    x ≠ 0 ∧ r.eval ω = onNum (fun y => some (y / x)) (t.eval ω) := by
  unfold Tr.divNum at h
  split at h
  · cases h
  · refine ⟨by assumption, ?_⟩
    rw [Tr.mulNum_eval h ω]; congr 1; funext y; congr 1; rw [div_eq_inv_mul]

/-- C10: `x / t`, undefined where `t` is 0. -/
theorem C10_rdiv_num {t r : Tr} {x : ℝ} (h : t.rdivNum x = .ok r) (ω : Asg) :
    r.eval ω = onNum (fun y => if y = 0 then none else some (x / y)) (t.eval ω) := by
  unfold Tr.rdivNum at h
  split at h
  · cases h
    simp only [Tr.eval]
    congr 1; funext y; simp only [recipVal]; subst x; simp
  · rw [Tr.mulNum_eval h ω, Tr.eval]
    cases t.eval ω with
    | none => rfl
    | some v =>
      cases v with
      | str => rfl
      | num y =>
        simp only [onNum, recipVal]
        by_cases hy : y = 0
        · simp [hy]
        · simp [hy, div_eq_mul_inv]

/-- C10: `-t`. -/
theorem C10_neg {t r : Tr} (h : t.neg = .ok r) (ω : Asg) :
    r.eval ω = onNum (fun y => some (-y)) (t.eval ω) := by
  have gen : ∀ t : Tr, t.mulNum (-1) = .ok r → r.eval ω = onNum (fun y => some (-y)) (t.eval ω) := by
    intro t h
    rw [Tr.mulNum_eval h ω]; congr 1; funext y; congr 1; ring
  cases t with
  | poly s cs =>
    obtain ⟨-, rfl⟩ := mkPoly_ok (by simpa only [Tr.neg] using h)
    simp only [Tr.eval]
    rw [onNum_onNum]; congr 1; funext y; rw [polyVal_map_neg]
  | _ => exact gen _ h

/-- C10: `abs(t)`. -/
theorem C10_abs (t : Tr) (ω : Asg) : t.absOp.eval ω = onNum (fun y => some |y|) (t.eval ω) := by
  have gen : ∀ t : Tr, (Tr.abs t).eval ω = onNum (fun y => some |y|) (t.eval ω) := fun t => by simp [Tr.eval]
  cases t with
  | abs t =>
    simp only [Tr.absOp, gen, onNum_onNum, abs_abs]
  | _ => exact gen _

/-- C10: `t + u` and `t * u` for polynomials of a common expression. -/
theorem C10_add_poly {t u r : Tr} (h : t.addPoly u = .ok r) (ω : Asg) :
    r.eval ω = onNum2 (· + ·) (t.eval ω) (u.eval ω) := by
  unfold Tr.addPoly at h
  simp only at h
  split at h; · cases h
  rename_i heq
  split at h; · cases h
  obtain ⟨-, rfl⟩ := mkPoly_ok h
  have ht := polyify_eval t id ω
  have hu := polyify_eval u id ω
  rw [not_not] at heq
  simp only [id, heq] at ht hu
  simp only [Tr.eval, polyVal_allCoeffs, polyVal_addCoeffs]
  have hn : ∀ v : Option (Val ℝ), ∀ o, onNum some v = o → onNum2 (· + ·) v = onNum2 (· + ·) o := by
    rintro (_ | _ | _) o rfl <;> rfl
  have hn' : ∀ v w : Option (Val ℝ), ∀ o, onNum some w = o → onNum2 (· + ·) v w = onNum2 (· + ·) v o := by
    rintro (_ | _ | _) (_ | _ | _) o rfl <;> rfl
  rw [hn _ _ ht.symm, hn' _ _ _ hu.symm]
  cases (polyify t).1.eval ω with
  | none => rfl
  | some v => cases v <;> rfl

/-- C10: `t * u` for polynomials of a common expression. -/
theorem C10_mul_poly {t u r : Tr} (h : t.mulPoly u = .ok r) (ω : Asg) :
    r.eval ω = onNum2 (· * ·) (t.eval ω) (u.eval ω) := by
  unfold Tr.mulPoly at h
  simp only at h
  split at h; · cases h
  rename_i heq
  obtain ⟨-, rfl⟩ := mkPoly_ok h
  have ht := polyify_eval t id ω
  have hu := polyify_eval u id ω
  rw [not_not] at heq
  simp only [id, heq] at ht hu
  simp only [Tr.eval, polyVal_allCoeffs, polyVal_mulCoeffs]
  have hn : ∀ v : Option (Val ℝ), ∀ o, onNum some v = o → onNum2 (· * ·) v = onNum2 (· * ·) o := by
    rintro (_ | _ | _) o rfl <;> rfl
  have hn' : ∀ v w : Option (Val ℝ), ∀ o, onNum some w = o → onNum2 (· * ·) v w = onNum2 (· * ·) v o := by
    rintro (_ | _ | _) (_ | _ | _) o rfl <;> rfl
  rw [hn _ _ ht.symm, hn' _ _ _ hu.symm]
  cases (polyify t).1.eval ω with
  | none => rfl
  | some v => cases v <;> rfl

/-- C10: `t * e` for an event has the value of `t` where `e` holds, and is undefined elsewhere. -/
theorem C10_mul_event {c : Ctx} {n : ℕ} {t r : Tr} {e : Ev} (h : t.mulEvent c n e = .ok r) (ω : Asg) :
    r.eval ω = if e.holds ω then t.eval ω else none := by
  obtain ⟨-, -, -, -, ds, -, -, rfl⟩ := mkPiecewise_ok h
  simp only [Tr.eval, Tr.evalL, Ev.holdsL, pick, Ev.holds]
  by_cases hh : Ev.holdsB ω e = true <;> simp [hh]

/-- C10: the sum of two piecewise expressions has the value of the first where one of its conditions
holds, and of the second elsewhere; no two conditions hold together. -/
theorem C10_add_piecewise {c : Ctx} (hc : c.Correct) {n : ℕ} {ts us : List Tr} {es fs : List Ev}
    {ds gs : List (SSet EReal)} {r : Tr} (hl : ts.length = es.length)
    (h : Tr.add c n (.pw ts es ds) (.pw us fs gs) = .ok r) (hm : ∀ e ∈ es ++ fs, e.Made c) (ω : Asg) :
    (r.eval ω = if ∃ e ∈ es, e.holds ω then (Tr.pw ts es ds).eval ω else (Tr.pw us fs gs).eval ω) ∧
    ((∀ e ∈ es ++ fs, e.Regular ω) → (∀ s ∈ r.symbols, (ω s).isSome) →
      ∀ e ∈ es, ∀ f ∈ fs, ¬ (e.holds ω ∧ f.holds ω)) := by
  simp only [Tr.add] at h
  obtain ⟨-, hne, h1, hsym, D, hD, hdis, rfl⟩ := mkPiecewise_ok h
  constructor
  · simp only [Tr.eval, Tr.evalL_eq, Ev.holdsL_eq, List.map_append]
    rw [pick_append _ _ _ _ (by simpa using hl)]
    congr 1
    simp only [List.any_map, List.any_eq_true, Function.comp, id, eq_iff_iff]
    rfl
  · intro hreg hdef e he f hf ⟨hh1, hh2⟩
    simp only [Tr.symbols] at hdef
    have hmem : ∀ g ∈ es ++ fs, ∃ s, g.symbols = {s} ∧ Tr.symbolsL (ts ++ us) = {s} := by
      intro g hg
      obtain ⟨s, hs⟩ := (Made.symbols_nonempty c).2 g (hm g hg)
      have hs' : s ∈ Tr.symbolsL (ts ++ us) := by rw [hsym]; exact Ev.mem_symbolsL.2 ⟨g, hg, hs⟩
      have hone : Tr.symbolsL (ts ++ us) = {s} := by
        refine Finset.eq_singleton_iff_unique_mem.2 ⟨hs', fun s'' hs'' => Finset.card_le_one.1 h1 _ hs'' _ hs'⟩
      refine ⟨s, ?_, hone⟩
      refine Finset.eq_singleton_iff_unique_mem.2 ⟨hs, fun s'' hs'' => ?_⟩
      have : s'' ∈ Tr.symbolsL (ts ++ us) := by rw [hsym]; exact Ev.mem_symbolsL.2 ⟨g, hg, hs''⟩
      rw [hone] at this; simpa using this
    obtain ⟨i, hi⟩ := List.mem_iff_getElem?.1 he
    obtain ⟨j, hj⟩ := List.mem_iff_getElem?.1 hf
    have hi' : i < es.length := (List.getElem?_eq_some_iff.1 hi).1
    have hj' : j < fs.length := (List.getElem?_eq_some_iff.1 hj).1
    have hF := mapM_ok hD
    have hlen : (es ++ fs).length = D.length := hF.length_eq
    have hlen' : es.length + fs.length = D.length := by simpa using hlen
    have ei : (es ++ fs)[i]? = some e := by rw [List.getElem?_append_left hi']; exact hi
    have ej : (es ++ fs)[es.length + j]? = some f := by
      rw [List.getElem?_append_right (by omega)]; simpa using hj
    have gi : ∃ a, D[i]? = some a ∧ e.solve c n = .ok a := by
      have hlt : i < D.length := by omega
      have hlt' : i < (es ++ fs).length := by omega
      have := hF.get hlt' hlt
      simp only [List.get_eq_getElem] at this
      refine ⟨D[i], List.getElem?_eq_getElem hlt, ?_⟩
      have e' : (es ++ fs)[i] = e := by
        rw [List.getElem?_eq_getElem hlt'] at ei; simpa using ei
      rw [← e']; exact this
    have gj : ∃ a, D[es.length + j]? = some a ∧ f.solve c n = .ok a := by
      have hlt : es.length + j < D.length := by omega
      have hlt' : es.length + j < (es ++ fs).length := by omega
      have := hF.get hlt' hlt
      simp only [List.get_eq_getElem] at this
      refine ⟨D[es.length + j], List.getElem?_eq_getElem hlt, ?_⟩
      have e' : (es ++ fs)[es.length + j] = f := by
        rw [List.getElem?_eq_getElem hlt'] at ej; simpa using ej
      rw [← e']; exact this
    obtain ⟨a, ha, sa⟩ := gi
    obtain ⟨b, hb, sb⟩ := gj
    have hand := checkDisjoint_ok hdis (by omega) ha hb
    have hme := hm e (by simp [he])
    have hmf := hm f (by simp [hf])
    obtain ⟨s, hs1, hs2⟩ := hmem e (by simp [he])
    obtain ⟨s', hs1', hs2'⟩ := hmem f (by simp [hf])
    have : s' = s := by rw [hs2] at hs2'; simpa using hs2'.symm
    subst this
    obtain ⟨v, hv⟩ := Option.isSome_iff_exists.1 (hdef s' (by rw [hs2]; simp))
    have xa := Ev.solve_exact hc hme sa
    have xb := Ev.solve_exact hc hmf sb
    have ma := (xa.2.2 ω s' v hs1 hv (by simp) (hreg e (by simp [he]))).2 hh1
    have mb := (xb.2.2 ω s' v hs1' hv (by simp) (hreg f (by simp [hf]))).2 hh2
    have hsp := SSet.and_spec c.σ _ _ xa.1 xa.2.1 xb.1 xb.2.1 hand
    have hp : v.lift.Proper := by
      cases v with
      | str => trivial
      | num x => exact coe_proper x
    simpa using hsp.sup _ hp ⟨ma, mb⟩

/-- The mathematical power `x ** q`: integer powers are undefined at 0 for negative exponents,
fractional powers are undefined for negative numbers. -/
noncomputable def powSpec (q : ℚ) (x : ℝ) : Option ℝ :=
  if q.den = 1 then (if q.num < 0 ∧ x = 0 then none else some (x ^ q.num))
  else if 0 < x ∨ (x = 0 ∧ 0 < q) then some (x ^ (q : ℝ)) else none

/-- C10: `t ** q` for an integer or rational number. -/
theorem C10_pow {t r : Tr} {q : ℚ} (h : t.powNum q = .ok r) (ω : Asg) :
    r.eval ω = onNum (powSpec q) (t.eval ω) := by
  have onN : ∀ {f g : ℝ → Option ℝ} {o : Option (Val ℝ)}, (∀ x, o = some (.num x) → f x = g x) →
      onNum f o = onNum g o := by
    intro f g o h
    rcases o with _ | _ | x
    · rfl
    · rfl
    · simp [onNum, h x rfl]
  unfold Tr.powNum at h
  by_cases hd : q.den = 1
  · rw [if_pos hd] at h
    unfold Tr.powInt at h
    split at h
    · rename_i hn
      rw [(powTr_eval h ω).2]
      apply onN
      intro x _
      have : ¬ q.num < 0 := by omega
      simp only [powSpec, hd, if_true, this, false_and, if_false]
      congr 1
      conv_rhs => rw [← Int.toNat_of_nonneg hn.le]
      rw [zpow_natCast]
    · split at h
      · rename_i hn
        simp only [bind, Except.bind] at h
        split at h; · cases h
        rename_i p hp
        simp only [Tr.rdivNum, if_true] at h
        cases h
        obtain ⟨-, he⟩ := powTr_eval hp ω
        rw [Tr.eval, he]
        rcases t.eval ω with _ | _ | x
        · rfl
        · rfl
        · simp only [onNum, Option.map_some, recipVal, powSpec, hd, if_true, hn, true_and]
          have hk : (-q.num).toNat ≠ 0 := by omega
          by_cases hx : x = 0
          · simp [hx, hk]
          · simp only [pow_eq_zero_iff hk, hx, if_false, Option.map_some]
            congr 2
            rw [← zpow_natCast, Int.toNat_of_nonneg (by omega), zpow_neg, inv_inv]
      · cases h
  · rw [if_neg hd] at h
    unfold Tr.powRat at h
    have hden : (q.den : ℝ) ≠ 0 := by exact_mod_cast q.den_nz
    have hq : (q : ℝ) = q.num / q.den := by exact_mod_cast (Rat.num_div_den q).symm
    split at h
    · rename_i hn
      cases h
      rw [Tr.eval]
      apply onN
      intro x _
      have hq0 : 0 < q := Rat.num_pos.1 (by omega)
      simp only [powSpec, hd, if_false, radicalVal, hq, hn, hq0, and_true]
      have : (0 ≤ x) ↔ (0 < x ∨ x = 0) := by rw [le_iff_lt_or_eq, eq_comm (a := x)]
      simp [this, one_div]
    · split at h
      · rename_i hn
        simp only [Tr.rdivNum, if_true] at h
        cases h
        rw [Tr.eval, Tr.eval]
        have hq0 : ¬ 0 < q := fun h => by have := Rat.num_pos.2 h; omega
        rcases t.eval ω with _ | _ | x
        · rfl
        · rfl
        · simp only [onNum, radicalVal, powSpec, hd, if_false, hq0, and_false, or_false]
          rcases lt_trichotomy x 0 with hx | hx | hx
          · simp [not_le.2 hx, not_lt.2 hx.le]
          · subst hx
            have : (0 : ℝ) ^ ((q.den : ℝ)⁻¹) = 0 := Real.zero_rpow (inv_ne_zero hden)
            simp [recipVal, this]
          · have hpos : 0 < x ^ ((q.den : ℝ)⁻¹) := Real.rpow_pos_of_pos hx _
            simp only [hx.le, hx, if_true, Option.map_some, recipVal, hpos.ne', if_false]
            congr 2
            rw [hq, hn, ← Real.rpow_neg hx.le]
            congr 1
            push_cast; ring
      · cases h

/-- C10: `x ** t` for a positive base. -/
theorem C10_rpow {t r : Tr} {x : ℝ} (h : t.rpowNum x = .ok r) (ω : Asg) :
    0 < x ∧ r.eval ω = onNum (fun y => some (x ^ y)) (t.eval ω) := by
  unfold Tr.rpowNum at h
  split at h
  · cases h
  · cases h; exact ⟨not_le.1 (by assumption), by simp only [Tr.eval]; rfl⟩

/-- C10 non-vacuity: the operators return on ordinary expressions. -/
example : (Tr.exp (.id "X") 2).addNum 3 = .ok (.poly (.exp (.id "X") 2) [0 + 3, 1]) ∧
    (Tr.abs (.id "X")).powNum (1/3) = .ok (.radical (.abs (.id "X")) 3) ∧
    (∃ r, (Tr.id "X").powNum (-2) = .ok r) ∧ (∃ r, lin.mulPoly lin = .ok r) := by
  refine ⟨by simp [Tr.addNum, polyify, mkPoly], ?_, ?_, ?_⟩
  · have h1 : (1/3 : ℚ).den = 3 := by decide +kernel
    have h2 : (1/3 : ℚ).num = 1 := by decide +kernel
    simp only [Tr.powNum, Tr.powRat, h1, h2]; simp
  · have h1 : (-2 : ℚ).den = 1 := by norm_num
    have h2 : (-2 : ℚ).num = -2 := by norm_num
    refine ⟨.recip (.poly (.id "X") [0, 0, 1]), ?_⟩
    simp only [Tr.powNum, Tr.powInt, h1, h2]
    simp [powTr, mkPoly, bind, Except.bind, Tr.rdivNum, show Int.toNat 2 = 2 from rfl, List.replicate]
  · refine ⟨.poly (.id "X") [1, 4, 4], ?_⟩
    have : mulCoeffs [1, 2] [1, 2] = [1, 4, 4] := by
      simp [mulCoeffs, addCoeffs]; norm_num
    have h2 : allCoeffs [1, 4, 4] = [1, 4, 4] := by simp [allCoeffs, trimZeros]
    simp only [lin, Tr.mulPoly, polyify, ne_eq, not_true, if_false, this, h2, mkPoly]
    simp

/-- C10 counterexample: `x - t` (`__rsub__`) computes `t - x`: `5 - X` is `-4` at `X = 1`. -/
theorem C10_rsub_wrong : ∃ r, (Tr.id "X").rsubNum 5 = .ok r ∧
    r.eval (fun _ => some (.num 1)) = some (.num (-4)) := by
  refine ⟨.poly (.id "X") [0 + (-1 * 5), 1], by simp [Tr.rsubNum, Tr.subNum, Tr.addNum, polyify, mkPoly], ?_⟩
  simp [Tr.eval, onNum, polyVal]; norm_num

/-- What `x - t` computes: always the negated difference. -/
theorem C10_rsub_partial {t r : Tr} {x : ℝ} (h : t.rsubNum x = .ok r) (ω : Asg) :
    r.eval ω = onNum (fun y => some (-(x - y))) (t.eval ω) := by
  rw [C10_sub_num h ω]; congr 1; funext y; congr 1; ring

/-- C10: `t ** (a, b)` is the power `a / b`, unless the fraction is `1` or `-1`. -/
theorem C10_pow_tuple {t r : Tr} {a b : ℤ} (h : t.powTuple a b = .ok r) (h1 : a ≠ b) (h2 : a ≠ -b) (ω : Asg) :
    b ≠ 0 ∧ r.eval ω = onNum (powSpec ((a : ℚ) / (b : ℚ))) (t.eval ω) := by
  unfold Tr.powTuple at h
  split at h
  · cases h
  rename_i hb
  refine ⟨hb, ?_⟩
  have hb' : (b : ℚ) ≠ 0 := by exact_mod_cast hb
  generalize hq : ((a : ℚ) / (b : ℚ)) = q at h
  have hq' : (a : ℚ) = q * b := by rw [← hq, div_mul_cancel₀ _ hb']
  apply C10_pow
  unfold Tr.powNum
  split
  · rename_i hd
    have e : q = q.num := (Rat.coe_int_num_of_den_eq_one hd).symm
    unfold Tr.powRat at h
    rw [if_neg (fun hn => h1 (by rw [e, hn] at hq'; push_cast at hq'; rw [one_mul] at hq'; exact_mod_cast hq')),
      if_neg (fun hn => h2 (by rw [e, hn] at hq'; push_cast at hq'; rw [neg_one_mul] at hq'; exact_mod_cast hq')),
      if_pos hd] at h
    exact h
  · exact h

/-- C10 (part): `t ** (a, a)` and `t ** (a, -a)` are `t` and `1 / t` where `t` is positive.  Missing: they are not
defined where `t` is negative (`C10_pow_tuple_one_wrong`), unlike `t ** 1` and `t ** -1`. -/
theorem C10_pow_tuple_unit_partial {t r : Tr} {a b : ℤ} (h : t.powTuple a b = .ok r) {ω : Asg} {x : ℝ} (hx : 0 < x)
    (hv : t.eval ω = some (.num x)) : (a = b → r.eval ω = some (.num x)) ∧ (a = -b → r.eval ω = some (.num x⁻¹)) := by
  unfold Tr.powTuple at h
  split at h
  · cases h
  rename_i hb
  have hb' : (b : ℚ) ≠ 0 := by exact_mod_cast hb
  constructor
  · rintro rfl
    rw [div_self hb'] at h
    simp only [Tr.powRat, Rat.num_one, if_true, Rat.den_one] at h
    cases h
    simp [Tr.eval, hv, onNum, radicalVal, hx.le]
  · rintro rfl
    rw [Int.cast_neg, neg_div, div_self hb'] at h
    have e1 : (-1 : ℚ).num = -1 := by norm_num
    have e2 : (-1 : ℚ).den = 1 := by norm_num
    simp only [Tr.powRat, e1, e2, Tr.rdivNum, if_true] at h
    simp at h
    subst h
    simp [Tr.eval, hv, onNum, radicalVal, recipVal, hx.le, hx.ne']

/-- C10 non-vacuity: `X ** (2, 6)` is the cube root. -/
example : (Tr.id "X").powTuple 2 6 = .ok (.radical (.id "X") 3) := by
  have h : (((2 : ℤ) : ℚ) / ((6 : ℤ) : ℚ)) = 1 / 3 := by norm_num
  have h1 : (1/3 : ℚ).den = 3 := by decide +kernel
  have h2 : (1/3 : ℚ).num = 1 := by decide +kernel
  simp only [Tr.powTuple, h, Tr.powRat, h1, h2]; simp

/-- C10 counterexample: `X ** (1, 1)` is undefined at `X = -1`. -/
theorem C10_pow_tuple_one_wrong : ∃ r, (Tr.id "X").powTuple 1 1 = .ok r ∧
    r.eval (fun _ => some (.num (-1))) = none := by
  refine ⟨.radical (.id "X") 1, by simp [Tr.powTuple, Tr.powRat], ?_⟩
  have : ¬ (1 : ℝ) ≤ 0 := by norm_num
  simp [Tr.eval, onNum, radicalVal, this]

/-! ## C11: comparisons -/

/-- C11: the four comparisons with a finite number return, and mean what they say. -/
theorem C11_compare (t : Tr) (x : ℝ) :
    (∃ e, t.leNum x = .ok e ∧ ∀ ω, e.holds ω ↔ ∃ y, t.eval ω = some (.num y) ∧ y ≤ x) ∧
    (∃ e, t.ltNum x = .ok e ∧ ∀ ω, e.holds ω ↔ ∃ y, t.eval ω = some (.num y) ∧ y < x) ∧
    (∃ e, t.geNum x = .ok e ∧ ∀ ω, e.holds ω ↔ ∃ y, t.eval ω = some (.num y) ∧ y ≥ x) ∧
    (∃ e, t.gtNum x = .ok e ∧ ∀ ω, e.holds ω ↔ ∃ y, t.eval ω = some (.num y) ∧ y > x) := by
  have hb := EReal.bot_lt_coe x
  have ht := EReal.coe_lt_top x
  have key : ∀ {a b : EReal} {lo ro : Bool}, a < b → ∃ e, (mkIvl a b lo ro).map (Ev.ivl t) = .ok e := by
    intro a b lo ro h; simp [mkIvl, h, Except.map]
  have hy : ∀ y : ℝ, (⊥ : EReal) ≤ y := fun y => bot_le
  have hy' : ∀ y : ℝ, (y : EReal) ≤ ⊤ := fun y => le_top
  refine ⟨?_, ?_, ?_, ?_⟩
  · obtain ⟨e, he⟩ := key (lo := false) (ro := false) hb
    refine ⟨e, he, fun ω => ?_⟩
    rw [(mkIvl_map_ok he).2]; simp
  · obtain ⟨e, he⟩ := key (lo := false) (ro := true) hb
    refine ⟨e, he, fun ω => ?_⟩
    rw [(mkIvl_map_ok he).2]; simp
  · obtain ⟨e, he⟩ := key (lo := false) (ro := false) ht
    refine ⟨e, he, fun ω => ?_⟩
    rw [(mkIvl_map_ok he).2]; simp
  · obtain ⟨e, he⟩ := key (lo := true) (ro := false) ht
    refine ⟨e, he, fun ω => ?_⟩
    rw [(mkIvl_map_ok he).2]; simp

/-- C11: `(a < t) < b` and its variants (`lo`/`ro` say which inequality is strict) return and mean the
conjunction of the two inequalities. -/
theorem C11_chain (t : Tr) (a b : ℝ) (lo ro : Bool) :
    ∃ i e, (if lo then t.gtNum a else t.geNum a) = .ok (.ivl t i) ∧ chainLt t i b ro = .ok e ∧
      ∀ ω, e.holds ω ↔ ∃ y, t.eval ω = some (.num y) ∧ (if lo then a < y else a ≤ y) ∧
        (if ro then y < b else y ≤ b) := by
  refine ⟨⟨(a : EReal), ⊤, lo, true⟩, ?_⟩
  have h0 : (if lo then t.gtNum a else t.geNum a) = .ok (.ivl t ⟨(a : EReal), ⊤, lo, true⟩) := by
    have := EReal.coe_lt_top a
    cases lo <;> simp [Tr.gtNum, Tr.geNum, mkIvl, Except.map]
  have h1 : ∃ e, chainLt t ⟨(a : EReal), ⊤, lo, true⟩ b ro = .ok e := by
    simp only [chainLt, ne_eq, not_true, if_false, sympyInterval]
    split
    · exact ⟨_, rfl⟩
    · split
      · split <;> exact ⟨_, rfl⟩
      · rename_i h2 h3
        have : (a : EReal) < b := lt_of_le_of_ne (not_lt.1 h2) h3
        simp only [mkIvl, this, if_true, Except.map]
        exact ⟨_, rfl⟩
  obtain ⟨e, he⟩ := h1
  refine ⟨e, h0, he, fun ω => ?_⟩
  simp only [chainLt, ne_eq, not_true, if_false] at he
  rw [(sympyInterval_spec he).2]
  simp only [EReal.coe_lt_coe_iff, EReal.coe_le_coe_iff]

/-- C11: `a < (t < b)` and its variants. -/
theorem C11_chain_right (t : Tr) (a b : ℝ) (lo ro : Bool) :
    ∃ i e, (if ro then t.ltNum b else t.leNum b) = .ok (.ivl t i) ∧ chainGt t i a lo = .ok e ∧
      ∀ ω, e.holds ω ↔ ∃ y, t.eval ω = some (.num y) ∧ (if lo then a < y else a ≤ y) ∧
        (if ro then y < b else y ≤ b) := by
  refine ⟨⟨⊥, (b : EReal), true, ro⟩, ?_⟩
  have h0 : (if ro then t.ltNum b else t.leNum b) = .ok (.ivl t ⟨⊥, (b : EReal), true, ro⟩) := by
    have := EReal.bot_lt_coe b
    cases ro <;> simp [Tr.ltNum, Tr.leNum, mkIvl, Except.map]
  have h1 : ∃ e, chainGt t ⟨⊥, (b : EReal), true, ro⟩ a lo = .ok e := by
    simp only [chainGt, ne_eq, not_true, if_false, sympyInterval]
    split
    · exact ⟨_, rfl⟩
    · split
      · split <;> exact ⟨_, rfl⟩
      · rename_i h2 h3
        have : (a : EReal) < b := lt_of_le_of_ne (not_lt.1 h2) h3
        simp only [mkIvl, this, if_true, Except.map]
        exact ⟨_, rfl⟩
  obtain ⟨e, he⟩ := h1
  refine ⟨e, h0, he, fun ω => ?_⟩
  simp only [chainGt, ne_eq, not_true, if_false] at he
  rw [(sympyInterval_spec he).2]
  simp only [EReal.coe_lt_coe_iff, EReal.coe_le_coe_iff]

/-- C11: `t << values` for a Python collection holds exactly when the value of `t` is listed. -/
theorem C11_in_list (t : Tr) (l : List (Val EReal)) (ω : Asg) :
    (t.inList l).holds ω ↔ ∃ v, t.eval ω = some v ∧ v.lift ∈ l := by
  have hn : ∀ x : ℝ, (x : EReal) ∈ numVals l ↔ Val.num (x : EReal) ∈ l := by
    intro x
    simp only [numVals, List.mem_toFinset, List.mem_filterMap]
    constructor
    · rintro ⟨v, hv, h⟩; cases v <;> simp at h; subst h; exact hv
    · intro h; exact ⟨_, h, rfl⟩
  have hs : ∀ x : String, x ∈ strVals l ↔ Val.str x ∈ l := by
    intro x
    simp only [strVals, List.mem_toFinset, List.mem_filterMap]
    constructor
    · rintro ⟨v, hv, h⟩; cases v <;> simp at h; subst h; exact hv
    · intro h; exact ⟨_, h, rfl⟩
  have en : ¬ (numVals l).Nonempty → ∀ x : ℝ, Val.num (x : EReal) ∉ l := by
    intro h x hx; exact h ⟨_, (hn x).2 hx⟩
  have es : ¬ (strVals l).Nonempty → ∀ x : String, Val.str x ∉ l := by
    intro h x hx; exact h ⟨_, (hs x).2 hx⟩
  have fin : (Ev.fin t (some (numVals l))).holds ω ↔ ∃ x : ℝ, t.eval ω = some (.num x) ∧ Val.num (x : EReal) ∈ l := by
    simp [hn]
  have nom : (Ev.nom t (some ⟨strVals l, none⟩)).holds ω ↔ ∃ x : String, t.eval ω = some (.str x) ∧ Val.str x ∈ l := by
    simp [hs]
  have split : (∃ v : Val ℝ, t.eval ω = some v ∧ v.lift ∈ l) ↔
      (∃ x : ℝ, t.eval ω = some (.num x) ∧ Val.num (x : EReal) ∈ l) ∨
      (∃ x : String, t.eval ω = some (.str x) ∧ Val.str x ∈ l) := by
    constructor
    · rintro ⟨v, h1, h2⟩
      cases v with
      | num x => exact Or.inl ⟨x, h1, h2⟩
      | str x => exact Or.inr ⟨x, h1, h2⟩
    · rintro (⟨x, h1, h2⟩ | ⟨x, h1, h2⟩)
      · exact ⟨_, h1, h2⟩
      · exact ⟨_, h1, h2⟩
  rw [split]
  unfold Tr.inList
  by_cases h1 : (numVals l).Nonempty <;> by_cases h2 : (strVals l).Nonempty
  · rw [if_pos ⟨h1, h2⟩, Ev.holds_or, ← fin, ← nom]; simp
  · rw [if_neg (by tauto), if_pos h1, fin]
    have := es h2
    simp [this]
  · rw [if_neg (by tauto), if_neg h1, if_pos h2, nom]
    have := en h1
    simp [this]
  · rw [if_neg (by tauto), if_neg h1, if_neg h2]
    have := en h1
    have h' := es h2
    simp [this, h']

/-- C11: `t << S` for a set holds exactly when the value of `t` is in the set. -/
theorem C11_in_set {c : Ctx} {t : Tr} {S : SSet EReal} (hS : S.WF) {e : Ev} (h : t.inSet c S = .ok e) :
    e.Valid ∧ ∀ ω, e.holds ω ↔ ∃ v, t.eval ω = some v ∧ v.lift ∈ S.den := by
  have basic : ∀ p : Piece EReal, p.WF → ∀ e : Ev, e.basic? = some t → e.values = .pc p →
      e.Valid ∧ ∀ ω, e.holds ω ↔ ∃ v, t.eval ω = some v ∧ v.lift ∈ p.den := by
    intro p hp e h1 h2
    refine ⟨(Ev.valid_basic h1).2 (by rw [h2]; exact hp), fun ω => ?_⟩
    rw [Ev.holds_basic h1, h2]; rfl
  cases S with
  | empty =>
    simp [Tr.inSet] at h; subst h
    exact ⟨.fin (by simp), fun ω => by simp⟩
  | pc p =>
    cases p with
    | fin s => simp [Tr.inSet] at h; subst h; exact basic (.fin s) hS _ rfl rfl
    | nom s => simp [Tr.inSet] at h; subst h; exact basic (.nom s) hS _ rfl rfl
    | ivl s => simp [Tr.inSet] at h; subst h; exact basic (.ivl s) hS _ rfl rfl
  | un u =>
    simp only [Tr.inSet] at h
    set f : Piece EReal → Ev := fun p => match p with
      | .fin s => .fin t (some s)
      | .nom n => .nom t (some n)
      | .ivl i => .ivl t i with hf
    have hfp : ∀ p : Piece EReal, (f p).basic? = some t ∧ (f p).values = .pc p := by
      intro p; cases p <;> exact ⟨rfl, rfl⟩
    have hw : ∀ p ∈ u.args, p.WF := fun p hp => hS.pieces p ((hS.mem_args p).1 hp)
    obtain ⟨h1, h2⟩ := reduce_lor (l := u.args.map f) (by
      intro e he
      obtain ⟨p, hp, rfl⟩ := List.mem_map.1 he
      exact (basic p (hw p hp) _ (hfp p).1 (hfp p).2).1) h
    refine ⟨h1, fun ω => ?_⟩
    rw [h2]
    constructor
    · rintro ⟨e, he, hh⟩
      obtain ⟨p, hp, rfl⟩ := List.mem_map.1 he
      obtain ⟨v, hv, hm⟩ := ((basic p (hw p hp) _ (hfp p).1 (hfp p).2).2 ω).1 hh
      exact ⟨v, hv, ⟨p, (hS.mem_args p).1 hp, hm⟩⟩
    · rintro ⟨v, hv, ⟨p, hp, hm⟩⟩
      have hp' := (hS.mem_args p).2 hp
      exact ⟨f p, List.mem_map_of_mem hp', ((basic p (hw p hp') _ (hfp p).1 (hfp p).2).2 ω).2 ⟨v, hv, hm⟩⟩

/-- C11 non-vacuity: the hypotheses are met, and the events distinguish assignments. -/
example : ∃ e, (Tr.exp (.id "X") 2).inSet ctx0 (.pc (.fin {((8 : ℝ) : EReal)})) = .ok e ∧
    e.holds (fun _ => some (.num 3)) ∧ ¬ e.holds (fun _ => some (.str "a")) := by
  refine ⟨_, rfl, ?_, ?_⟩
  · rw [Ev.holds_fin]
    refine ⟨8, _, ?_, rfl, by simp⟩
    simp only [Tr.eval, onNum, expVal, Option.map_some]
    norm_num
  · simp [Tr.eval, onNum]

/-! ## C12: substitution -/

/-- C12: in the environment of a leaf with base variable `X`, the substitution loop ends within
`len(env) - 1` rounds (a larger bound gives the same answer), and when no exception is raised the result
mentions only `X` and holds at an assignment exactly when the original event holds at the assignment
completed with the derived variables. -/
theorem C12_substitute {c : Ctx} {n : ℕ} {X : String} {env : Env} (hb : EnvBuilt X env) {e : Ev}
    (hok : e.SymOk) (he : ∀ s ∈ e.symbols, s ∈ env.keys) :
    (∀ j, Ev.substitute c n env (env.length - 1 + j) e = Ev.substitute c n env (env.length - 1) e) ∧
    ∀ r k, Ev.substitute c n env k e = .ok r → r.symbols ⊆ {X} ∧
      ∀ ω, r.holds ω ↔ e.holds (env.extend ω) := by
  refine ⟨hb.substitute_stable e he, fun r k h => ?_⟩
  obtain ⟨h1, h2, h3⟩ := hb.substitute k e he r h
  refine ⟨h1, fun ω => ?_⟩
  unfold Ev.holds
  rw [← h2 ω, eval_congr.2 r (h3 hok) fun s hs => ?_]
  have := h1 hs
  simp only [Finset.mem_singleton] at this
  subst this
  exact (hb.extend_base ω (Or.inr rfl)).symm

/-- C12: the completed assignment keeps the base variable and satisfies every defining equation. -/
theorem C12_extend {X : String} {env : Env} (hb : EnvBuilt X env) (ω : Asg) :
    env.extend ω X = ω X ∧ ∀ s f, env.lookup s = some f → env.extend ω s = f.eval (env.extend ω) := by
  refine ⟨hb.extend_base ω (Or.inr rfl), fun s f h => ?_⟩
  have := hb.extend_get ω s
  simpa [Env.get, h] using this.symm

/-- C12 non-vacuity: `Z = exp(Y)`, `Y = |X|`; the event `Z in [0,1]` becomes `exp |X| in [0,1]`. -/
example (c : Ctx) : EnvBuilt "X" [("X", .id "X"), ("Y", .abs (.id "X")), ("Z", .exp (.id "Y") 2)] ∧
    Ev.substitute c 1 [("X", .id "X"), ("Y", .abs (.id "X")), ("Z", .exp (.id "Y") 2)] 2
      (ivE (.id "Z") 0 1 false false) = .ok (ivE (.exp (.abs (.id "X")) 2) 0 1 false false) := by
  constructor
  · exact EnvBuilt.step (env := [("X", .id "X"), ("Y", .abs (.id "X"))])
      (EnvBuilt.step (env := [("X", .id "X")]) .base (by simp [Env.keys]) (by simp [Env.keys, Tr.symbols]) trivial)
      (by simp [Env.keys]) (by simp [Env.keys, Tr.symbols]) trivial
  · simp [Ev.substitute, ivE, Ev.symbols, Tr.symbols, exprInEnv, Env.get, List.lookup, Ev.subs, Tr.subs, bind, Except.bind]

/-! ## C44: evaluating events on samples -/

/-- C44: when `e.evaluate(sample)` returns, it returns the truth of `e` at the sample, provided no
logarithm is directly compared and numbers are not compared with complemented nominal sets. -/
theorem C44_evaluate {ω : Asg} {e : Ev} (he : e.Evaluable ω) {b : Bool} (h : e.evaluate ω = .ok b) :
    b = true ↔ e.holds ω := Ev.evaluate_sound e he h

/-- C44: it does return when the expressions compared are defined at the sample, of the right kind, and
contain no logarithm or piecewise part. -/
theorem C44_evaluate_total {ω : Asg} {e : Ev} (he : e.Plain) (ht : e.Typed ω) : ∃ b, e.evaluate ω = .ok b :=
  Ev.evaluate_total e he ht

/-- C44 non-vacuity. -/
example : (Ev.and [ivE (.abs (.id "X")) 0 1 true false, .nom (.id "Y") (some ⟨{"a"}, some true⟩)]).Evaluable
      (fun s => if s = "X" then some (.num 3) else some (.str "b")) ∧
    (Ev.and [ivE (.abs (.id "X")) 0 1 true false, .nom (.id "Y") (some ⟨{"a"}, some true⟩)]).Plain ∧
    (Ev.and [ivE (.abs (.id "X")) 0 1 true false, .nom (.id "Y") (some ⟨{"a"}, some true⟩)]).Typed
      (fun s => if s = "X" then some (.num 3) else some (.str "b")) := by
  refine ⟨?_, ?_, ?_⟩
  · simp [Ev.Evaluable, Ev.EvaluableL, ivE, Tr.isLog, Tr.eval]
  · simp [Ev.Plain, Ev.PlainL, ivE, Tr.Plain]
  · simp [Ev.Typed, Ev.TypedL, ivE, Tr.eval, onNum]

/-- C44 counterexample: `(log(X) << {0}).evaluate({X: 1})` is `False`, since `Logarithm.ffwd` returns a
set. -/
theorem C44_log_wrong : ∃ ω, (Ev.fin (.log (.id "X") 2) (some {0})).evaluate ω = .ok false ∧
    (Ev.fin (.log (.id "X") 2) (some {0})).holds ω := by
  refine ⟨fun _ => some (.num 1), ?_, ?_⟩
  · have : ¬ (1 : ℝ) < 0 := by norm_num
    simp [Ev.evaluate, Tr.evaluate, PyV.num, PyV.isIn, optFin, bind, Except.bind, this]
  · rw [Ev.holds_fin]
    exact ⟨0, _, by simp [Tr.eval, onNum, logVal], rfl, by simp⟩

/-- C44 counterexample: a complemented nominal event evaluates to `True` on a number. -/
theorem C44_number_in_nominal : ∃ ω, (Ev.nom (.id "X") (some ⟨{"a"}, some true⟩)).evaluate ω = .ok true ∧
    ¬ (Ev.nom (.id "X") (some ⟨{"a"}, some true⟩)).holds ω := by
  refine ⟨fun _ => some (.num 1), ?_, ?_⟩
  · simp [Ev.evaluate, Tr.evaluate, PyV.isIn, optNom, bind, Except.bind, SSet.contains, Piece.contains, Nom.neg]
  · simp [Tr.eval]

end Sppl
