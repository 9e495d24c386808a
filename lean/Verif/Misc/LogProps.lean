import Verif.Misc.LogSpace

set_option linter.all false

/-!
# C38: the log-space helpers
-/

namespace Sppl
open Classical
open scoped ENNReal

theorem npLog_coe (x : ℝ≥0∞) : npLog (x : EReal) = some (ENNReal.log x) := by
  unfold npLog
  rw [if_neg (by simp [EReal.coe_ennreal_nonneg])]
  simp

/-- C38: `log1mexp(x)` is `log(1 - exp(-x))`, for every positive `x` (also `inf`), in both branches. -/
theorem C38_log1mexp {x : EReal} (hx : 0 < x) : log1mexp x = some (ENNReal.log (1 - EReal.exp (-x))) := by
  have hle : EReal.exp (-x) ≤ 1 := by
    rw [EReal.exp_le_one_iff]
    rw [← neg_zero]; exact EReal.neg_le_neg_iff.2 hx.le
  have hc : ((1 - EReal.exp (-x) : ℝ≥0∞) : EReal) = 1 - (EReal.exp (-x) : EReal) := by
    have hne : EReal.exp (-x) ≠ ⊤ := ne_top_of_le_ne_top ENNReal.one_ne_top hle
    generalize EReal.exp (-x) = y at hle hne ⊢
    lift y to NNReal using hne with r
    have : (1 : ℝ≥0∞) - (r : ℝ≥0∞) = ((1 - r : NNReal) : ℝ≥0∞) := by simp
    rw [this]
    have h1 : r ≤ 1 := by exact_mod_cast hle
    have e : ((1 - r : NNReal) : ℝ) = 1 - (r : ℝ) := by rw [NNReal.coe_sub h1]; rfl
    have e1 : (((1 - r : NNReal) : ℝ≥0∞) : EReal) = (((1 - r : NNReal) : ℝ) : EReal) := rfl
    have e2 : ((r : ℝ≥0∞) : EReal) = ((r : ℝ) : EReal) := rfl
    rw [e1, e2, e]; rfl
  unfold log1mexp
  split
  · have : -npExpm1 (-x) = ((1 - EReal.exp (-x) : ℝ≥0∞) : EReal) := by
      rw [hc, npExpm1, npExp, EReal.neg_sub (.inr (by decide)) (.inr (by decide)), add_comm, sub_eq_add_neg]
    rw [this, npLog_coe]
  · have : (1 : EReal) + -npExp (-x) = ((1 - EReal.exp (-x) : ℝ≥0∞) : EReal) := by rw [hc, npExp, sub_eq_add_neg]
    rw [npLog1p, this, npLog_coe]

/-- C38: `logdiffexp` of log-probabilities is the logarithm of the difference. -/
theorem C38_logdiffexp {p q : ℝ≥0∞} (h : q ≤ p) (hp : p ≠ ⊤) : logdiffexp (ENNReal.log p) (ENNReal.log q) = .ok (some (ENNReal.log (p - q))) := by
  unfold logdiffexp
  rcases h.lt_or_eq with h | rfl
  · rw [if_pos (by simpa using h)]
    have hp0 : p ≠ 0 := fun hh => by simp [hh] at h
    have hq : q ≠ ⊤ := ne_top_of_lt h
    have e : ENNReal.log p - ENNReal.log q = - ENNReal.log (q / p) := by
      rw [div_eq_mul_inv, ENNReal.log_mul_add, ENNReal.log_inv, EReal.neg_add (by simp [hp0]) (by simp [hp])]
      rw [sub_eq_add_neg, sub_eq_add_neg, neg_neg, add_comm]
    have hpos : 0 < ENNReal.log p - ENNReal.log q := by
      rw [e, ← neg_zero, EReal.neg_lt_neg_iff, ENNReal.log_lt_zero_iff]
      exact (ENNReal.div_lt_iff (.inl hp0) (.inl hp)).2 (by simpa using h)
    rw [C38_log1mexp hpos, e, neg_neg, ENNReal.exp_log, Option.map_some, ← ENNReal.log_mul_add, ENNReal.mul_sub (by simp [hp]), mul_one,
      ENNReal.mul_div_cancel hp0 hp]
  · simp [npClose]

/-- C38: `logdiffexp(a, b)` is exact for all floats with `b <= a < inf`. -/
theorem C38_logdiffexp_exp {a b : EReal} (h : b ≤ a) (ha : a ≠ ⊤) : ∃ d, logdiffexp a b = .ok (some d) ∧ EReal.exp d = EReal.exp a - EReal.exp b := by
  have := C38_logdiffexp (p := EReal.exp a) (q := EReal.exp b) (by simpa using h) (by simpa using ha)
  rw [EReal.log_exp, EReal.log_exp] at this
  exact ⟨_, this, by simp⟩

/-- C38: a negative difference raises `ValueError`, unless it is within numpy's tolerance, where the answer is `-inf`. -/
theorem C38_logdiffexp_negative {a b : EReal} (h : a < b) : logdiffexp a b = if npClose b a then .ok (some ⊥) else .error .value := by
  unfold logdiffexp
  rw [if_neg (not_lt.2 h.le)]

/-- C38: the tolerance is not vacuous: `logdiffexp(0, 1e-9)` does not raise. -/
theorem C38_logdiffexp_tolerance_wrong : ∃ a b : EReal, a < b ∧ logdiffexp a b = .ok (some ⊥) := by
  refine ⟨((0 : ℝ) : EReal), ((1 / 10 ^ 9 : ℝ) : EReal), EReal.coe_lt_coe_iff.2 (by norm_num), ?_⟩
  rw [C38_logdiffexp_negative (EReal.coe_lt_coe_iff.2 (by norm_num)), if_pos]
  simp only [npClose, decide_eq_true_eq]
  refine .inr ⟨_, _, rfl, rfl, ?_⟩
  rw [abs_of_nonneg (by norm_num)]; norm_num

/-- C38: `logsumexp` of log-probabilities. -/
theorem C38_logsumexp (ps : List ℝ≥0∞) : logsumexp (ps.map ENNReal.log) = ENNReal.log ps.sum := by
  simp [logsumexp, Function.comp_def]

/-- C38: `lognorm` divides by the total, and the results sum to one. -/
theorem C38_lognorm {ps : List ℝ≥0∞} (h0 : ps.sum ≠ 0) (ht : ps.sum ≠ ⊤) :
    lognorm (ps.map ENNReal.log) = ps.map (fun p => some (ENNReal.log (p / ps.sum))) ∧ (ps.map (fun p => p / ps.sum)).sum = 1 := by
  constructor
  · rw [lognorm, C38_logsumexp, List.map_map]
    refine List.map_congr_left fun p hp => ?_
    have hpt : p ≠ ⊤ := fun hh => ht (top_le_iff.1 (hh ▸ List.single_le_sum (by simp) p hp))
    simp only [Function.comp_apply, fsub]
    rw [if_neg]
    · rw [div_eq_mul_inv, ENNReal.log_mul_add, ENNReal.log_inv, sub_eq_add_neg]
    · rintro ⟨h, h1 | h1⟩
      · rw [h] at h1; exact h0 (by simpa using h1)
      · exact hpt (by simpa using h1)
  · have : (ps.map (fun p => p / ps.sum)).sum = ps.sum / ps.sum := by
      simp only [div_eq_mul_inv]
      rw [List.sum_map_mul_right]; simp
    rw [this, ENNReal.div_self h0 ht]

/-- C38: `lognorm` of impossible alternatives is `nan`. -/
theorem C38_lognorm_zero {ps : List ℝ≥0∞} (h : ∀ p ∈ ps, p = 0) : lognorm (ps.map ENNReal.log) = ps.map (fun _ => none) := by
  have hs : ps.sum = 0 := List.sum_eq_zero h
  rw [lognorm, C38_logsumexp, List.map_map]
  refine List.map_congr_left fun p hp => ?_
  simp [fsub, hs, h p hp]

/-- C38: `isinf_neg` of a log-probability says whether the probability is zero. -/
theorem C38_isinf_neg (p : ℝ≥0∞) : isinfNeg (ENNReal.log p) = true ↔ p = 0 := by simp [isinfNeg]

/-- C38: `logflip` draws the index `i` with probability `p_i / sum p`. -/
theorem C38_flip {ps : List ℝ≥0∞} (h0 : ps.sum ≠ 0) (ht : ps.sum ≠ ⊤) : flipWeights (ps.map ENNReal.log) = some (ps.map (· / ps.sum)) := by
  obtain ⟨h1, h2⟩ := C38_lognorm h0 ht
  have : ∀ l : List ℝ≥0∞, (l.map (fun p => some (ENNReal.log (p / ps.sum)))).mapM (fun x => x.map EReal.exp) = some (l.map (· / ps.sum)) := by
    intro l
    induction l with
    | nil => rfl
    | cons a l ih =>
      rw [List.map_cons, List.mapM_cons, ih]
      simp
  rw [flipWeights, h1, this]
  simp only [Option.map_some, normalizeP, h2]
  simp

/-- C38: the model of `spe.py` uses probabilities; its difference is `logdiffexp` of their logarithms (up to the tolerance). -/
theorem C38_pdiff {p q : ℝ} (hp : 0 ≤ p) (hq : 0 ≤ q) :
    (∀ r, pdiff p q = .ok r → logdiffexp (ENNReal.log (.ofReal p)) (ENNReal.log (.ofReal q)) = .ok (some (ENNReal.log (.ofReal r)))) ∧
    (pdiff p q = .error .value → npClose (ENNReal.log (.ofReal q)) (ENNReal.log (.ofReal p)) = false →
      logdiffexp (ENNReal.log (.ofReal p)) (ENNReal.log (.ofReal q)) = .error .value) := by
  unfold pdiff
  constructor
  · intro r h
    have : q ≤ p ∧ r = p - q := by
      split at h
      · rename_i hl; simp at h; exact ⟨hl.le, h.symm⟩
      · split at h
        · rename_i _ he; simp at h; subst he; exact ⟨le_rfl, by simp [← h]⟩
        · cases h
    rw [C38_logdiffexp (ENNReal.ofReal_le_ofReal this.1) ENNReal.ofReal_ne_top, this.2, ENNReal.ofReal_sub _ hq]
  · intro h hc
    have hlt : p < q := by
      by_contra hh
      rcases (not_lt.1 hh).lt_or_eq with h1 | h1
      · simp [h1] at h
      · simp [h1] at h
    rw [C38_logdiffexp_negative, hc]
    · rfl
    · rw [ENNReal.log_lt_log_iff]; exact (ENNReal.ofReal_lt_ofReal_iff (lt_of_le_of_lt hp hlt)).2 hlt

example : ([1/4, 3/4] : List ℝ≥0∞).sum ≠ 0 ∧ ([1/4, 3/4] : List ℝ≥0∞).sum ≠ ⊤ ∧ (0 : EReal) < 1 ∧ (1/4 : ℝ≥0∞) ≤ 3/4 := by
  refine ⟨?_, ?_, by simp, ?_⟩
  · simp
  · simp [ENNReal.div_eq_top]
  · exact ENNReal.div_le_div_right (by norm_num) _

end Sppl
