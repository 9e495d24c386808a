import Verif.Events.Props

set_option linter.all false

/-!
# C10, C11, C44: differences of expressions, chained comparisons, and logarithms on samples
-/

namespace Sppl
open Classical

/-- **C10 (`t - u`).** The difference of two expressions, if it returns, has the difference of the values. -/
theorem C10_sub {c : Ctx} {n : ℕ} {t u r : Tr} (h : t.subTr c n u = .ok r) (ω : Asg) : r.eval ω = onNum2 (· - ·) (t.eval ω) (u.eval ω) := by
  unfold Tr.subTr at h
  simp only [bind, Except.bind] at h
  split at h; · cases h
  rename_i m hm
  have h1 := Tr.mulNum_eval hm ω
  obtain ⟨-, rfl⟩ := mkPoly_ok hm
  have h2 : t.addPoly (.poly (polyify u).1 ((polyify u).2.map (-1 * ·))) = .ok r := by
    cases t <;> simpa only [Tr.add] using h
  rw [C10_add_poly h2 ω, h1]
  cases ht : t.eval ω with
  | none => rfl
  | some v =>
    cases v with
    | str => rfl
    | num x =>
      cases u.eval ω with
      | none => rfl
      | some w =>
        cases w with
        | str => rfl
        | num y => show some (Val.num (x + -1 * y)) = some (Val.num (x - y)); congr 2; ring

/-- **C11 (a further bound).** `x < e` and `x <= e` for an interval event `e`, if they return, add the bound to those of the
event: an event that has a lower bound already is refused. -/
theorem C11_chain_lower {t : Tr} {i : Ivl EReal} {x : EReal} {lo : Bool} {e : Ev} (h : chainGt t i x lo = .ok e) (ω : Asg) :
    e.holds ω ↔ (Ev.ivl t i).holds ω ∧ ∃ y : ℝ, t.eval ω = some (.num y) ∧ (if lo then x < y else x ≤ y) := by
  unfold chainGt at h
  split at h; · cases h
  rename_i ha
  have ha : i.a = ⊥ := not_not.1 ha
  rw [(sympyInterval_spec h).2, Ev.holds_ivl]
  have hlow : ∀ y : ℝ, (if i.lo then i.a < y else i.a ≤ y) := by
    intro y; rw [ha]; split
    · exact EReal.bot_lt_coe y
    · exact bot_le
  constructor
  · rintro ⟨y, h1, h2, h3⟩; exact ⟨⟨y, h1, hlow y, h3⟩, y, h1, h2⟩
  · rintro ⟨⟨y, h1, -, h3⟩, z, h4, h5⟩
    rw [h1] at h4; cases h4; exact ⟨y, h1, h5, h3⟩

/-- **C11 (a further bound).** The same for `e < x` and `e <= x`. -/
theorem C11_chain_upper {t : Tr} {i : Ivl EReal} {x : EReal} {ro : Bool} {e : Ev} (h : chainLt t i x ro = .ok e) (ω : Asg) :
    e.holds ω ↔ (Ev.ivl t i).holds ω ∧ ∃ y : ℝ, t.eval ω = some (.num y) ∧ (if ro then (y : EReal) < x else (y : EReal) ≤ x) := by
  unfold chainLt at h
  split at h; · cases h
  rename_i hb
  have hb : i.b = ⊤ := not_not.1 hb
  rw [(sympyInterval_spec h).2, Ev.holds_ivl]
  have hup : ∀ y : ℝ, (if i.ro then (y : EReal) < i.b else (y : EReal) ≤ i.b) := by
    intro y; rw [hb]; split
    · exact EReal.coe_lt_top y
    · exact le_top
  constructor
  · rintro ⟨y, h1, h2, h3⟩; exact ⟨⟨y, h1, h2, hup y⟩, y, h1, h3⟩
  · rintro ⟨⟨y, h1, h2, -⟩, z, h4, h5⟩
    rw [h1] at h4; cases h4; exact ⟨y, h1, h2, h5⟩

/-- **C44 (logarithms on samples, wrong).** Wherever the argument of a logarithm is not negative, comparing the logarithm with
numbers evaluates to `False`, with an interval raises a `TypeError`, and with strings evaluates to whether they are excluded,
whatever the value of the logarithm. -/
theorem C44_log_values {ω : Asg} {t : Tr} {b x : ℝ} (h : t.evaluate ω = .ok (.val (.num x))) (hx : 0 ≤ x) :
    (∀ s, (Ev.fin (.log t b) s).evaluate ω = .ok false) ∧ (∀ i, (Ev.ivl (.log t b) i).evaluate ω = .error .type) ∧
      ∀ n : Nom, (Ev.nom (.log t b) (some n)).evaluate ω = .ok n.neg := by
  have hl : (Tr.log t b).evaluate ω = .ok .set := by simp [Tr.evaluate, h, bind, Except.bind, PyV.num, not_lt.2 hx]
  refine ⟨fun s => ?_, fun i => ?_, fun n => ?_⟩
  · simp only [Ev.evaluate, hl, bind, Except.bind, PyV.isIn]; cases s <;> rfl
  · simp only [Ev.evaluate, hl, bind, Except.bind, PyV.isIn]
  · simp only [Ev.evaluate, hl, bind, Except.bind, PyV.isIn, optNom]

/-! ## Non-vacuity -/

/-- `X**2 - X`. -/
example : (Tr.poly (.id "X") [0, 0, 1]).subTr ctx0 0 (.id "X") = .ok (.poly (.id "X") [0, -1, 1]) := by
  have h1 : allCoeffs [0, 0, 1] = [0, 0, 1] := by simp [allCoeffs, trimZeros, List.dropWhile]
  have h2 : allCoeffs [0, -1] = [0, -1] := by simp [allCoeffs, trimZeros, List.dropWhile]
  have h3 : allCoeffs [0, -1, 1] = [0, -1, 1] := by simp [allCoeffs, trimZeros, List.dropWhile]
  simp [Tr.subTr, Tr.mulNum, polyify, mkPoly, bind, Except.bind, Tr.add, Tr.addPoly, h1, h2, addCoeffs, h3]

/-- `1 < (X < 2)` returns, `0 < (1 < (X < 2))` is refused. -/
example : chainGt (.id "X") ⟨⊥, ((2 : ℝ) : EReal), true, true⟩ ((1 : ℝ) : EReal) true = .ok (.ivl (.id "X") ⟨((1 : ℝ) : EReal), ((2 : ℝ) : EReal), true, true⟩) ∧
    chainGt (.id "X") ⟨((1 : ℝ) : EReal), ((2 : ℝ) : EReal), true, true⟩ ((0 : ℝ) : EReal) true = .error .value := by
  have h : ((1 : ℝ) : EReal) < ((2 : ℝ) : EReal) := EReal.coe_lt_coe_iff.2 (by norm_num)
  refine ⟨?_, ?_⟩
  · simp only [chainGt, ne_eq, not_true, if_false, sympyInterval, if_neg (not_lt.2 h.le), if_neg h.ne, mkIvl, if_pos h, Except.map]
    simp [h]
  · simp only [chainGt, ne_eq, EReal.coe_ne_bot, not_false_eq_true, if_true]

example : (Tr.id "X").evaluate (fun _ => some (.num 4)) = .ok (.val (.num 4)) ∧ (0 : ℝ) ≤ 4 := ⟨rfl, by norm_num⟩

end Sppl
