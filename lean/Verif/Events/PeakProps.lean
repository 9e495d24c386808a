import Verif.Events.NestLemmas

/-!
# C61: solving an event with an absolute value or a reciprocal does not raise

Full claim: for every event about one variable that the operators build, `solve()` returns.  It is false of the
code (`C61_exp_set_raises`, `C61_recip_set_raises`, and below the equation `C61_abs_equation_raises` and the
conjunction `C61_nested_raises`).
-/

namespace Sppl
open Classical

/-- C61, partial: `solve()` returns on inequalities `a <= t <= b` of expressions `t` made of `abs(s)` by logarithms
and `p + q*...`, `s` increasing or decreasing, on inequalities and equations of expressions made of `1/s` by roots,
exponentials, logarithms and `p + q*...`, on the comparisons of `C61_solve_partial`, and on disjunctions of
these.  The answer contains exactly the values where the event holds.  Equations between an absolute value and a
number are missing, because they raise (`C61_abs_equation_raises`), and so are conjunctions of events whose answers
have several parts (`C61_nested_raises`). -/
theorem C61_abs_partial {c : Ctx} (hc : c.Correct) (hl : c.Linear) {k : String} {e : Ev} (he : e.PeakDnf k) :
    ∃ N S, (∀ n, N ≤ n → e.solve c n = .ok S) ∧
      ∀ (ω : Asg) (v : Val ℝ), ω k = some v → e.Regular ω → (v.lift ∈ S.den ↔ e.holds ω) := by
  obtain ⟨N, S, h⟩ := he.solve hc hl
  exact ⟨N, S, fun n hn => Ev.solve_le hn e _ h, fun ω v hv hr => (Ev.solve_exact (r0 := false) hc he.made h).2.2 ω k v he.symbols hv (by simp) hr⟩

/-- Non-vacuity: `(3 - 2*log(abs(sqrt(X) - 1)) >= 1) | (exp(X) <= 0) | (abs(X) > 1) | (exp(1/X) > 1) | (1/X == 2)`. -/
example : ctx0.Correct ∧ ctx0.Linear ∧
    (Ev.or [.ivl (.poly (.log (.abs (.poly (.radical (.id "X") 2) [-1, 1])) 2) [3, -2]) ⟨1, ⊤, false, true⟩,
      .ivl (.exp (.id "X") 2) ⟨⊥, 0, true, false⟩, .ivl (.abs (.id "X")) ⟨1, ⊤, true, true⟩,
      .ivl (.exp (.recip (.id "X")) 2) ⟨1, ⊤, true, true⟩, .fin (.recip (.id "X")) (some {2})]).PeakDnf "X" := by
  have w1 : ∀ b, (⟨1, ⊤, b, true⟩ : Ivl EReal).WF := fun b => ⟨EReal.coe_lt_top 1, fun h => by simp at h; exact absurd h (EReal.coe_ne_bot 1), by simp⟩
  have w2 : (⟨⊥, 0, true, false⟩ : Ivl EReal).WF := ⟨EReal.bot_lt_zero, by simp, by simp⟩
  refine ⟨ctx0_correct, ctx0_linear, .or (by simp) ?_⟩
  intro e he
  simp only [List.mem_cons, List.not_mem_nil, or_false] at he
  rcases he with rfl | rfl | rfl | rfl | rfl
  · exact .inl (.ivl (.poly (.log (.abs (.poly (.radical .id (by norm_num)) (by norm_num))) (by norm_num)) (by norm_num)) (w1 _))
  · exact .inr (.lit (.ivl (.exp .id (by norm_num)) w2))
  · exact .inl (.ivl (.abs .id) (w1 _))
  · exact .inl (.hyper (.exp (.recip .id) (by norm_num)) (w1 _))
  · exact .inl (.one (.recip .id))

/-- C61 counterexample: the equation `abs(exp(X) - 1) == 1` raises `AssertionError` (`exp(X) << {0, 2}` asks for
`ExtReals & {-oo, log(2)}`, a `Union` of two `FiniteReal`s), for every base above one, every iteration order and
every correct solver, although the event means that `exp(X)` is 2. -/
theorem C61_abs_equation_raises {c : Ctx} (hc : c.Correct) (hl : c.Linear) {b : ℝ} (hb : 1 < b) (n : ℕ) :
    (Ev.fin (.abs (.poly (.exp (.id "X") b) [-1, 1])) (some {1})).solve c (n + 5) = .error .assertion ∧
      ∀ x : ℝ, (Ev.fin (.abs (.poly (.exp (.id "X") b) [-1, 1])) (some {1})).holds (fun _ => some (.num x)) ↔ b ^ x = 2 := by
  refine ⟨absEq_raises hc hl hb n, fun x => ?_⟩
  have h0 : 0 < b ^ x := Real.rpow_pos_of_pos (by linarith) x
  have h1 : ((|(-1) + b ^ x| : ℝ) : EReal) = 1 ↔ b ^ x = 2 := by
    rw [show (1 : EReal) = ((1 : ℝ) : EReal) from rfl, EReal.coe_eq_coe_iff, abs_eq (by norm_num)]
    constructor
    · rintro (h | h) <;> linarith
    · intro h; left; linarith
  simp only [Ev.holds, Ev.holdsB, Tr.eval, onNum, expVal, polyVal, Option.map_some]
  simp only [decide_eq_true_eq, Option.some.injEq, Val.num.injEq, exists_eq_left', exists_and_left, Finset.mem_singleton]
  simpa [polyVal] using h1

/-- C61 counterexample: `((X <= -1) | (X >= 1)) & (-1 <= X <= 1)` raises `AssertionError` (the intersection is a
`Union` of the two `FiniteReal`s -1 and 1), for every iteration order.  The operators build the event (first part),
and it holds at -1 and 1 only. -/
theorem C61_nested_raises (c : Ctx) (n : ℕ) :
    let le1 : Ev := .ivl (.id "X") ⟨⊥, -1, true, false⟩
    let ge1 : Ev := .ivl (.id "X") ⟨1, ⊤, false, true⟩
    let unit : Ev := .ivl (.id "X") ⟨-1, 1, false, false⟩
    (Ev.lor c le1 ge1 = .ok (.or [le1, ge1]) ∧ Ev.land c (.or [le1, ge1]) unit = .ok (.and [.or [le1, ge1], unit])) ∧
      (Ev.and [.or [le1, ge1], unit]).solve c (n + 4) = .error .assertion ∧
      ∀ x : ℝ, (Ev.and [.or [le1, ge1], unit]).holds (fun _ => some (.num x)) ↔ x = -1 ∨ x = 1 := by
  refine ⟨nested_built c, nested_raises c n, fun x => ?_⟩
  have e1 : (x : EReal) ≤ -1 ↔ x ≤ -1 := by
    rw [show (-1 : EReal) = ((-1 : ℝ) : EReal) by simp, EReal.coe_le_coe_iff]
  have e2 : (1 : EReal) ≤ x ↔ 1 ≤ x := by rw [show (1 : EReal) = ((1 : ℝ) : EReal) from rfl, EReal.coe_le_coe_iff]
  have e3 : (-1 : EReal) ≤ x ↔ -1 ≤ x := by
    rw [show (-1 : EReal) = ((-1 : ℝ) : EReal) by simp, EReal.coe_le_coe_iff]
  have e4 : (x : EReal) ≤ 1 ↔ x ≤ 1 := by rw [show (1 : EReal) = ((1 : ℝ) : EReal) from rfl, EReal.coe_le_coe_iff]
  simp [Ev.holds, Ev.holdsB, Ev.holdsL, Tr.eval, Ivl.Mem, e1, e2, e3, e4]
  constructor
  · rintro ⟨h | h, h1, h2⟩
    · left; linarith
    · right; linarith
  · rintro (rfl | rfl) <;> norm_num

end Sppl
