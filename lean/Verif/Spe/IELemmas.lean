import Verif.Spe.RealLemmas

set_option linter.all false

/-!
# Inclusion-exclusion (helper lemmas)
-/

namespace Sppl
open Classical MeasureTheory
open scoped ENNReal

variable {Ω : Type} [MeasurableSpace Ω]

/-- The intersection of the sets with index in `J`. -/
def interJ (A : ℕ → Set Ω) (J : List ℕ) : Set Ω := {ω | ∀ j ∈ J, ω ∈ A j}

/-- The union of the sets with index from `i` below `m`. -/
def unionFrom (A : ℕ → Set Ω) (m i : ℕ) : Set Ω := {ω | ∃ k, i ≤ k ∧ k < m ∧ ω ∈ A k}

theorem measurable_interJ {A : ℕ → Set Ω} (hA : ∀ k, MeasurableSet (A k)) (J : List ℕ) : MeasurableSet (interJ A J) := by
  induction J with
  | nil => simp [interJ]
  | cons j J ih =>
    have : interJ A (j :: J) = A j ∩ interJ A J := by ext ω; simp [interJ]
    rw [this]; exact (hA j).inter ih

theorem measurable_unionFrom {A : ℕ → Set Ω} (hA : ∀ k, MeasurableSet (A k)) (m i : ℕ) : MeasurableSet (unionFrom A m i) := by
  have : unionFrom A m i = ⋃ k ∈ Finset.Ico i m, A k := by
    ext ω; simp [unionFrom, and_assoc]
  rw [this]
  exact Finset.measurableSet_biUnion _ (fun k _ => hA k)

theorem real_split (μ : Measure Ω) [IsFiniteMeasure μ] {A : ℕ → Set Ω} (hA : ∀ k, MeasurableSet (A k)) {B : Set Ω} (hB : MeasurableSet B) (m : ℕ) :
    ∀ d i, d = m - i → ((List.range' i d).map (fun k => μ.real ((B ∩ A k) \ unionFrom A m (k + 1)))).sum = μ.real (B ∩ unionFrom A m i) := by
  intro d
  induction d with
  | zero =>
    intro i hd
    have : unionFrom A m i = ∅ := by
      ext ω; simp only [unionFrom, Set.mem_setOf_eq, Set.mem_empty_iff_false, iff_false]
      rintro ⟨k, h1, h2, -⟩; omega
    simp [this]
  | succ d ih =>
    intro i hd
    rw [List.range'_succ, List.map_cons, List.sum_cons, ih (i + 1) (by omega)]
    have h1 : B ∩ unionFrom A m i = ((B ∩ A i) \ unionFrom A m (i + 1)) ∪ (B ∩ unionFrom A m (i + 1)) := by
      ext ω
      simp only [unionFrom, Set.mem_inter_iff, Set.mem_setOf_eq, Set.mem_union, Set.mem_diff]
      constructor
      · rintro ⟨hb, k, h1, h2, h3⟩
        by_cases h : ∃ k, i + 1 ≤ k ∧ k < m ∧ ω ∈ A k
        · exact .inr ⟨hb, h⟩
        · refine .inl ⟨⟨hb, ?_⟩, h⟩
          have : k = i := by
            by_contra hk
            exact h ⟨k, by omega, h2, h3⟩
          exact this ▸ h3
      · rintro (⟨⟨hb, h1⟩, h2⟩ | ⟨hb, k, h1, h2, h3⟩)
        · exact ⟨hb, i, le_refl _, by omega, h1⟩
        · exact ⟨hb, k, by omega, h2, h3⟩
    have hdisj : Disjoint ((B ∩ A i) \ unionFrom A m (i + 1)) (B ∩ unionFrom A m (i + 1)) := by
      rw [Set.disjoint_left]; rintro ω ⟨-, h⟩ ⟨-, h'⟩; exact h h'
    rw [h1, measureReal_union hdisj (hB.inter (measurable_unionFrom hA m _))]

/-- The sign of a subset. -/
noncomputable def sgn (J : List ℕ) : ℝ := if J.length % 2 = 1 then 1 else -1

/-- The contribution of the subsets below an entry of the stack. -/
noncomputable def ieTerm (μ : Measure Ω) (A : ℕ → Set Ω) (m : ℕ) (q : List ℕ × ℕ) : ℝ :=
  sgn q.1 * μ.real (interJ A q.1 \ unionFrom A m (q.2 + 1))

theorem sgn_append (J : List ℕ) (k : ℕ) : sgn (J ++ [k]) = - sgn J := by
  unfold sgn
  simp only [List.length_append, List.length_singleton]
  rcases Nat.mod_two_eq_zero_or_one J.length with h | h
  · simp [h, Nat.add_mod]
  · simp [h, Nat.add_mod]

theorem ieTerm_next (μ : Measure Ω) [IsFiniteMeasure μ] {A : ℕ → Set Ω} (hA : ∀ k, MeasurableSet (A k)) (m : ℕ) (J : List ℕ) (i : ℕ) :
    ieTerm μ A m (J, i) = sgn J * μ.real (interJ A J) + ((ieNext m J i).map (ieTerm μ A m)).sum := by
  have h1 : ((ieNext m J i).map (ieTerm μ A m)) = (List.range' (i + 1) (m - (i + 1))).map (fun k =>
      - sgn J * μ.real ((interJ A J ∩ A k) \ unionFrom A m (k + 1))) := by
    simp only [ieNext, List.map_map]
    refine List.map_congr_left (fun k _ => ?_)
    simp only [Function.comp, ieTerm, sgn_append]
    congr 3
    ext ω
    simp only [interJ, List.mem_append, List.mem_singleton, Set.mem_setOf_eq, Set.mem_inter_iff]
    constructor
    · exact fun h => ⟨fun j hj => h j (.inl hj), h k (.inr rfl)⟩
    · rintro ⟨h1, h2⟩ j (hj | rfl)
      · exact h1 j hj
      · exact h2
  rw [h1, List.sum_map_mul_left, real_split μ hA (measurable_interJ hA J) m _ _ rfl]
  have h2 : μ.real (interJ A J \ unionFrom A m (i + 1)) = μ.real (interJ A J) - μ.real (interJ A J ∩ unionFrom A m (i + 1)) := by
    have := measureReal_diff_add_inter (μ := μ) (s := interJ A J) (measurable_unionFrom hA m (i + 1))
    linarith
  simp only [ieTerm, h2]
  ring

theorem ieTerm_bad (μ : Measure Ω) [IsFiniteMeasure μ] {A : ℕ → Set Ω} {m : ℕ} {avoid : List (List ℕ)} (hav : ∀ b ∈ avoid, μ.real (interJ A b) = 0)
    {J : List ℕ} {i : ℕ} (h : isBad avoid J = true) : ieTerm μ A m (J, i) = 0 := by
  unfold isBad at h
  obtain ⟨b, hb, h⟩ := List.any_eq_true.1 h
  simp only [Bool.and_eq_true, List.all_eq_true, decide_eq_true_eq] at h
  have : interJ A J \ unionFrom A m (i + 1) ⊆ interJ A b := by
    rintro ω ⟨hω, -⟩ j hj
    exact hω j (h.2 j hj)
  have h0 : μ.real (interJ A J \ unionFrom A m (i + 1)) = 0 := by
    have := measureReal_mono (μ := μ) this
    rw [hav b hb] at this
    exact le_antisymm this measureReal_nonneg
  simp [ieTerm, h0]

theorem ieLoop_ok (μ : Measure Ω) [IsFiniteMeasure μ] {A : ℕ → Set Ω} (hA : ∀ k, MeasurableSet (A k)) {m : ℕ} {f : List ℕ → Res ℝ}
    (hf : ∀ J p, J ≠ [] → (∀ j ∈ J, j < m) → f J = .ok p → p = μ.real (interJ A J)) (stack : List (List ℕ × ℕ)) (avoid : List (List ℕ)) (pos neg : List ℝ) :
    (∀ q ∈ stack, q.1 ≠ [] ∧ ∀ j ∈ q.1, j < m) → (∀ b ∈ avoid, μ.real (interJ A b) = 0) → (∀ x ∈ neg, 0 ≤ x) →
    ∀ {r}, ieLoop m f stack avoid pos neg = .ok r →
      r.1.sum - r.2.sum = pos.sum - neg.sum + (stack.map (ieTerm μ A m)).sum ∧ ∀ x ∈ r.2, 0 ≤ x := by
  induction stack, avoid, pos, neg using ieLoop.induct m f with
  | case1 avoid pos neg =>
    intro _ _ hn r h
    rw [ieLoop] at h; cases h
    simpa using hn
  | case2 avoid pos neg J i rest hbad ih =>
    intro hs hav hn r h
    rw [ieLoop, if_pos hbad] at h
    obtain ⟨h1, h2⟩ := ih (fun q hq => hs q (by simp [hq])) hav hn h
    refine ⟨?_, h2⟩
    rw [h1, List.map_cons, List.sum_cons, ieTerm_bad μ hav hbad]; ring
  | case3 avoid pos neg J i rest hbad e he =>
    intro _ _ _ r h
    rw [ieLoop, if_neg hbad] at h
    simp only [he] at h
    cases h
  | case4 avoid pos neg J i rest hbad p hp ih =>
    intro hs hav hn r h
    rw [ieLoop, if_neg hbad] at h
    simp only [hp] at h
    have hJ := hs (J, i) (by simp)
    have hpe := hf J p hJ.1 hJ.2 hp
    have key := fun a b d => ih a b d h
    suffices H : _ ∧ _ ∧ _ by
      obtain ⟨h1, h2⟩ := key H.1 H.2.1 H.2.2
      refine ⟨?_, h2⟩
      rw [h1, List.map_cons, List.sum_cons, List.map_append, List.sum_append, ieTerm_next μ hA, ← hpe]
      unfold sgn
      split <;> simp <;> ring
    refine ⟨?_, ?_, ?_⟩
    · intro q hq
      rcases List.mem_append.1 hq with hq | hq
      · exact hs q (by simp [hq])
      · unfold ieNext at hq
        obtain ⟨k, hk, rfl⟩ := List.mem_map.1 hq
        rw [List.mem_range'_1] at hk
        refine ⟨by simp, fun j hj => ?_⟩
        rcases List.mem_append.1 hj with hj | hj
        · exact hJ.2 j hj
        · rw [List.mem_singleton.1 hj]; omega
    · intro b hb
      split at hb
      · rename_i h0
        rcases List.mem_append.1 hb with hb | hb
        · exact hav b hb
        · rw [List.mem_singleton.1 hb, ← hpe, h0]
      · exact hav b hb
    · intro x hx
      split at hx
      · exact hn x hx
      · rcases List.mem_append.1 hx with hx | hx
        · exact hn x hx
        · rw [List.mem_singleton.1 hx, hpe]; exact measureReal_nonneg

/-- The positive terms less the negative terms. -/
theorem ie_sum (μ : Measure Ω) [IsFiniteMeasure μ] {A : ℕ → Set Ω} (hA : ∀ k, MeasurableSet (A k)) {m : ℕ} {f : List ℕ → Res ℝ}
    (hf : ∀ J p, J ≠ [] → (∀ j ∈ J, j < m) → f J = .ok p → p = μ.real (interJ A J)) {r : List ℝ × List ℝ}
    (hr : ieLoop m f ((List.range m).map (fun i => ([i], i))) [] [] [] = .ok r) :
    r.1.sum - r.2.sum = μ.real {ω | ∃ k < m, ω ∈ A k} ∧ ∀ x ∈ r.2, 0 ≤ x := by
  obtain ⟨h1, h2⟩ := ieLoop_ok μ hA hf _ _ _ _ (by
    intro q hq
    obtain ⟨i, hi, rfl⟩ := List.mem_map.1 hq
    simpa using hi) (by simp) (by simp) hr
  refine ⟨?_, h2⟩
  rw [h1, List.map_map, List.range_eq_range']
  have := real_split μ hA MeasurableSet.univ m m 0 rfl
  have hu : Set.univ ∩ unionFrom A m 0 = {ω | ∃ k < m, ω ∈ A k} := by ext ω; simp [unionFrom]
  rw [hu] at this
  rw [← this]
  simp only [List.sum_nil, sub_zero, zero_add]
  congr 1
  refine List.map_congr_left (fun k _ => ?_)
  simp only [Function.comp, ieTerm, sgn]
  simp only [List.length_singleton, Nat.one_mod, if_true, one_mul, Set.univ_inter]
  congr 2
  ext ω; simp [interJ]

/-- `ProductSPE.logprob_mem` computes the probability of the union. -/
theorem inclExcl_ok (μ : Measure Ω) [IsFiniteMeasure μ] {A : ℕ → Set Ω} (hA : ∀ k, MeasurableSet (A k)) {m : ℕ} {f : List ℕ → Res ℝ}
    (hf : ∀ J p, J ≠ [] → (∀ j ∈ J, j < m) → f J = .ok p → p = μ.real (interJ A J)) {p : ℝ} (h : inclExcl m f = .ok p) :
    p = μ.real {ω | ∃ k < m, ω ∈ A k} := by
  unfold inclExcl at h
  simp only [bind, Except.bind] at h
  split at h; · cases h
  rename_i r hr
  obtain ⟨e, h2⟩ := ie_sum μ hA hf hr
  split at h
  · rename_i hcase
    cases h
    rcases hcase with h0 | h0
    · have hneg : 0 ≤ r.2.sum := List.sum_nonneg h2
      have hpos : 0 ≤ μ.real {ω | ∃ k < m, ω ∈ A k} := measureReal_nonneg
      linarith
    · rw [← e, h0]; simp
  · rw [(pdiff_ok h).1, e]

theorem ieLoop_total {m : ℕ} {f : List ℕ → Res ℝ} (hf : ∀ J, J ≠ [] → (∀ j ∈ J, j < m) → ∃ p, f J = .ok p) (stack : List (List ℕ × ℕ))
    (avoid : List (List ℕ)) (pos neg : List ℝ) : (∀ q ∈ stack, q.1 ≠ [] ∧ ∀ j ∈ q.1, j < m) → ∃ r, ieLoop m f stack avoid pos neg = .ok r := by
  induction stack, avoid, pos, neg using ieLoop.induct m f with
  | case1 avoid pos neg => intro _; exact ⟨_, by rw [ieLoop]⟩
  | case2 avoid pos neg J i rest hbad ih =>
    intro hs
    rw [ieLoop, if_pos hbad]
    exact ih (fun q hq => hs q (by simp [hq]))
  | case3 avoid pos neg J i rest hbad e he =>
    intro hs
    obtain ⟨p, hp⟩ := hf J (hs (J, i) (by simp)).1 (hs (J, i) (by simp)).2
    rw [hp] at he; cases he
  | case4 avoid pos neg J i rest hbad p hp ih =>
    intro hs
    rw [ieLoop, if_neg hbad]
    simp only [hp]
    refine ih ?_
    have hJ := hs (J, i) (by simp)
    intro q hq
    rcases List.mem_append.1 hq with hq | hq
    · exact hs q (by simp [hq])
    · unfold ieNext at hq
      obtain ⟨k, hk, rfl⟩ := List.mem_map.1 hq
      rw [List.mem_range'_1] at hk
      refine ⟨by simp, fun j hj => ?_⟩
      rcases List.mem_append.1 hj with hj | hj
      · exact hJ.2 j hj
      · rw [List.mem_singleton.1 hj]; omega

theorem inclExcl_total (μ : Measure Ω) [IsFiniteMeasure μ] {A : ℕ → Set Ω} (hA : ∀ k, MeasurableSet (A k)) {m : ℕ} {f : List ℕ → Res ℝ}
    (hf : ∀ J, J ≠ [] → (∀ j ∈ J, j < m) → f J = .ok (μ.real (interJ A J))) : inclExcl m f = .ok (μ.real {ω | ∃ k < m, ω ∈ A k}) := by
  have hf' : ∀ J p, J ≠ [] → (∀ j ∈ J, j < m) → f J = .ok p → p = μ.real (interJ A J) := by
    intro J p h1 h2 h3; rw [hf J h1 h2] at h3; cases h3; rfl
  obtain ⟨r, hr⟩ := ieLoop_total (fun J h1 h2 => ⟨_, hf J h1 h2⟩) ((List.range m).map (fun i => ([i], i))) [] [] [] (by
    intro q hq
    obtain ⟨i, hi, rfl⟩ := List.mem_map.1 hq
    simpa using hi)
  obtain ⟨e, h2⟩ := ie_sum μ hA hf' hr
  suffices H : ∃ p, inclExcl m f = .ok p by
    obtain ⟨p, hp⟩ := H
    rw [hp, inclExcl_ok μ hA hf' hp]
  unfold inclExcl
  simp only [bind, Except.bind, hr]
  split
  · exact ⟨_, rfl⟩
  · have hpos : 0 ≤ μ.real {ω | ∃ k < m, ω ∈ A k} := measureReal_nonneg
    unfold pdiff
    split
    · exact ⟨_, rfl⟩
    · rename_i hlt
      rw [if_pos (by linarith [not_lt.1 hlt])]
      exact ⟨_, rfl⟩

end Sppl
