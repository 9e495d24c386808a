import Verif.Events.Chain4Lemmas

/-!
# C61: solving an event about one variable does not raise

Full claim: for every event about one variable that the operators build, `solve()` returns.  It is false of the
code (`C61_exp_set_raises`, `C61_recip_set_raises`).
-/

namespace Sppl
open Classical

/-- C61: `t.invert(V)` returns for every composition `t` of roots, exponentials and logarithms of base above one
and `p + q*...`, and every `V` that is an interval, one number or empty.  The answer is again one interval, one
number or empty, and does not depend on the depth of the stack once it is large enough. -/
theorem C61_invert_returns {c : Ctx} (hc : c.Correct) (hl : c.Linear) {k : String} {t : Tr} (ht : t.Chain k) {V : SSet EReal} (hV : V.Flat) :
    ∃ N S, S.Flat ∧ ∀ n, N ≤ n → t.invert c n V = .ok S := by
  obtain ⟨N, S, hS, h⟩ := ht.invert hc hl V hV
  exact ⟨N, S, hS, fun n hn => Tr.invert_le hn t V _ h⟩

/-- C61, partial: `solve()` returns on comparisons of such expressions, on conjunctions of them, and on disjunctions
of these, and the answer contains exactly the values where the event holds. -/
theorem C61_solve_partial {c : Ctx} (hc : c.Correct) (hl : c.Linear) {k : String} {e : Ev} (he : e.ChainDnf k) :
    ∃ N S, (∀ n, N ≤ n → e.solve c n = .ok S) ∧
      ∀ (ω : Asg) (v : Val ℝ), ω k = some v → e.Regular ω → (v.lift ∈ S.den ↔ e.holds ω) := by
  obtain ⟨N, S, h⟩ := he.solve hc hl
  exact ⟨N, S, fun n hn => Ev.solve_le hn e _ h, fun ω v hv hr => (Ev.solve_exact (r0 := false) hc he.made h).2.2 ω k v he.symbols hv (by simp) hr⟩

/-- C61: for a conjunction of comparisons the answer is one interval, one number or empty. -/
theorem C61_conjunction_flat {c : Ctx} (hc : c.Correct) (hl : c.Linear) {k : String} {e : Ev} (he : e.ChainAnd k) :
    ∃ N S, S.Flat ∧ ∀ n, N ≤ n → e.solve c n = .ok S := by
  obtain ⟨N, S, hS, h⟩ := he.solve hc hl
  exact ⟨N, S, hS, fun n hn => Ev.solve_le hn e _ h⟩

/-- Non-vacuity: `((3 - 2*log(1 + sqrt(X)) >= 1) & (exp(X) <= 0)) | (X == 5)`. -/
example : ctx0.Correct ∧ ctx0.Linear ∧
    (Ev.or [.and [.ivl (.poly (.log (.poly (.radical (.id "X") 2) [1, 1]) 2) [3, -2]) ⟨1, ⊤, false, true⟩,
      .ivl (.exp (.id "X") 2) ⟨⊥, 0, true, false⟩], .fin (.id "X") (some {5})]).ChainDnf "X" := by
  have w1 : (⟨1, ⊤, false, true⟩ : Ivl EReal).WF := ⟨EReal.coe_lt_top 1, fun h => by simp at h; exact absurd h (EReal.coe_ne_bot 1), by simp⟩
  have w2 : (⟨⊥, 0, true, false⟩ : Ivl EReal).WF := ⟨EReal.bot_lt_zero, by simp, by simp⟩
  refine ⟨ctx0_correct, ctx0_linear, .or (by simp) ?_⟩
  intro e he
  simp only [List.mem_cons, List.not_mem_nil, or_false] at he
  rcases he with rfl | rfl
  · refine .and (by simp) ?_
    intro e he
    simp only [List.mem_cons, List.not_mem_nil, or_false] at he
    rcases he with rfl | rfl
    · exact .ivl (.poly (.log (.poly (.radical .id (by norm_num)) (by norm_num)) (by norm_num)) (by norm_num)) w1
    · exact .ivl (.exp .id (by norm_num)) w2
  · exact .lit (.one .id)

/-- C61 counterexample: `exp(X) << {0, 1}` raises `AssertionError` (`ExtReals & {-oo, 0}` builds a `Union` of two
`FiniteReal`s), for every base above one and every iteration order, although the event means `X == 0`. -/
theorem C61_exp_set_raises (c : Ctx) {b : ℝ} (hb : 1 < b) (n : ℕ) :
    (Ev.fin (.exp (.id "X") b) (some {0, 1})).solve c (n + 3) = .error .assertion ∧
      ∀ x : ℝ, (Ev.fin (.exp (.id "X") b) (some {0, 1})).holds (fun _ => some (.num x)) ↔ x = 0 := by
  refine ⟨expSet_raises c hb n, fun x => ?_⟩
  have h0 : 0 < b ^ x := Real.rpow_pos_of_pos (by linarith) x
  have h1 : ((b ^ x : ℝ) : EReal) = 1 ↔ b ^ x = 1 := by
    rw [show (1 : EReal) = ((1 : ℝ) : EReal) from rfl, EReal.coe_eq_coe_iff]
  have h2 : ((b ^ x : ℝ) : EReal) ≠ 0 := by
    rw [show (0 : EReal) = ((0 : ℝ) : EReal) from rfl, Ne, EReal.coe_eq_coe_iff]; exact h0.ne'
  have h3 : b ^ x = 1 ↔ x = 0 := by
    refine ⟨fun h => ?_, fun h => by rw [h, Real.rpow_zero]⟩
    have := congrArg (Real.logb b) h
    rwa [Real.logb_rpow (by linarith) hb.ne', Real.logb_one] at this
  simp only [Ev.holds, Ev.holdsB, Tr.eval, onNum, expVal, Option.map_some]
  simp only [decide_eq_true_eq, Option.some.injEq, Val.num.injEq, exists_eq_left', exists_and_left, Finset.mem_insert, Finset.mem_singleton, h1, h2, h3, false_or]

/-- C61 counterexample: `1/X << {-1, 1}` raises `AssertionError`, for every iteration order, although the event means
`X == -1` or `X == 1`. -/
theorem C61_recip_set_raises (c : Ctx) (n : ℕ) :
    (Ev.fin (.recip (.id "X")) (some {-1, 1})).solve c (n + 2) = .error .assertion ∧
      ∀ x : ℝ, (Ev.fin (.recip (.id "X")) (some {-1, 1})).holds (fun _ => some (.num x)) ↔ x = -1 ∨ x = 1 := by
  refine ⟨recipSet_raises c n, fun x => ?_⟩
  have hm : (-1 : EReal) = ((-1 : ℝ) : EReal) := by rw [EReal.coe_neg]; rfl
  have h1 : ((x⁻¹ : ℝ) : EReal) = 1 ↔ x = 1 := by
    rw [show (1 : EReal) = ((1 : ℝ) : EReal) from rfl, EReal.coe_eq_coe_iff, inv_eq_one]
  have h2 : ((x⁻¹ : ℝ) : EReal) = -1 ↔ x = -1 := by
    rw [hm, EReal.coe_eq_coe_iff, inv_eq_iff_eq_inv]; norm_num
  simp only [Ev.holds, Ev.holdsB, Tr.eval, onNum, recipVal]
  by_cases hx : x = 0
  · subst hx; simp
  · simp only [if_neg hx, Option.map_some]
    simp only [decide_eq_true_eq, Option.some.injEq, Val.num.injEq, exists_eq_left', exists_and_left, Finset.mem_insert, Finset.mem_singleton, h1, h2]

end Sppl
