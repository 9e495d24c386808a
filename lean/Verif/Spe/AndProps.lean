import Verif.Spe.ConstrainLemmas
import Verif.Spe.MixProps

set_option linter.all false

/-!
# C45: `&` makes independent products
-/

namespace Sppl
open Classical MeasureTheory
open scoped ENNReal ProbabilityTheory

section
variable {c : Ctx} {L : Lib} {μ : Dist → Measure ℝ}

theorem andFold_ok : ∀ (ss : List Spe) {s : Spe} {v : MixVal}, s.WF c L μ → (∀ t ∈ ss, t.WF c L μ) → (ss.map MixVal.spe).foldlM mixAnd (.spe s) = .ok v →
    ∃ r, v = .spe r ∧ r.WF c L μ ∧ (∀ l, (∀ q ∈ l, IsProbabilityMeasure q.2) →
        indep ((r.symbols, r.den μ) :: l) = indep (groups μ (s :: ss) ++ l)) ∧
      (ss ≠ [] → r.den μ = indep (groups μ (s :: ss))) ∧
      (∀ x, x ∈ r.symbols ↔ ∃ t ∈ s :: ss, x ∈ t.symbols) ∧ ((s :: ss).map Spe.symbols).Pairwise Disjoint
  | [], s, v, hs, _, h => by
    simp [pure, Except.pure] at h
    exact ⟨s, h.symm, hs, fun l _ => rfl, by simp, by simp, by simp⟩
  | t :: ss, s, v, hs, hss, h => by
    simp only [List.map_cons, List.foldlM_cons, mixAnd, bind, Except.bind] at h
    split at h; · cases h
    rename_i w hw
    split at hw; · cases hw
    rename_i p hp
    cases hw
    have hW : ∀ u ∈ [s, t], u.WF c L μ := by
      intro u hu
      simp at hu
      rcases hu with rfl | rfl
      · exact hs
      · exact hss _ (by simp)
    have k := mkProd_ok hW hp
    have kd := mkProd_disj hW hp
    have ksym : ∀ x, x ∈ p.symbols ↔ x ∈ s.symbols ∨ x ∈ t.symbols := by
      intro x
      rw [k.2.1, Spe.mem_symbols_prod]; simp
    obtain ⟨r, rfl, hr, hind, hden, hsym, hdis⟩ := andFold_ok ss k.1 (fun u hu => hss u (by simp [hu])) h
    have pj : ∀ u ∈ s :: t :: ss, IsProbabilityMeasure (u.den μ) := by
      intro u hu
      rcases List.mem_cons.1 hu with rfl | hu
      · exact hs.prob
      · exact (hss u hu).prob
    have hpden : p.den μ = indep (groups μ [s, t]) := by rw [k.2.2.1, den_prod]
    have hgen : ∀ l, (∀ q ∈ l, IsProbabilityMeasure q.2) → indep ((p.symbols, p.den μ) :: l) = indep (groups μ [s, t] ++ l) := by
      intro l hl
      rw [indep_append _ _ (groups_prob hW) hl, indep_cons, hpden, k.2.1, symsOf_groups]
    have hg : ∀ l, (∀ q ∈ l, IsProbabilityMeasure q.2) → indep (groups μ (p :: ss) ++ l) = indep (groups μ (s :: t :: ss) ++ l) := by
      intro l hl
      have : ∀ q ∈ groups μ ss ++ l, IsProbabilityMeasure q.2 := by
        intro q hq
        rcases List.mem_append.1 hq with hq | hq
        · exact groups_prob (fun u hu => hss u (by simp [hu])) q hq
        · exact hl q hq
      exact hgen _ this
    refine ⟨r, rfl, hr, fun l hl => (hind l hl).trans (hg l hl), fun _ => ?_, ?_, ?_⟩
    · cases ss with
      | nil =>
        simp [pure, Except.pure] at h
        subst h
        exact hpden
      | cons u us => rw [hden (by simp)]; simpa using hg [] (by simp)
    · intro x
      rw [hsym]
      simp only [List.exists_mem_cons_iff, ksym, or_assoc]
    · simp only [List.map_cons, List.pairwise_cons, List.mem_map, List.mem_cons, List.map_nil, List.Pairwise.nil, forall_eq_or_imp, forall_exists_index, and_imp, forall_apply_eq_imp_iff₂] at hdis kd ⊢
      have hd := hdis.1
      refine ⟨⟨by simpa using kd, ?_⟩, ?_, hdis.2⟩
      · intro u hu
        refine Disjoint.mono_left ?_ (hd u hu)
        intro x hx
        exact (ksym x).2 (.inl hx)
      · intro u hu
        refine Disjoint.mono_left ?_ (hd u hu)
        intro x hx
        exact (ksym x).2 (.inr hx)

/-- C45: if `s1 & s2 & ...` (at least two operands) is accepted, it is an SPE over all the variables, in whose distribution the operands are independent, each with
its own distribution; and no variable occurs in two operands. -/
theorem C45_product {ss : List Spe} (h2 : 2 ≤ ss.length) (hwf : ∀ t ∈ ss, t.WF c L μ) {v : MixVal} (h : andChain (ss.map MixVal.spe) = .ok v) :
    ∃ r, v = .spe r ∧ r.WF c L μ ∧ r.den μ = indep (ss.map (fun t => (t.symbols, t.den μ))) ∧ (∀ x, x ∈ r.symbols ↔ ∃ t ∈ ss, x ∈ t.symbols) ∧
      (ss.map Spe.symbols).Pairwise Disjoint := by
  match ss, h2 with
  | s :: t :: ss, _ =>
    obtain ⟨r, h1, h2, -, h3, h4, h5⟩ := andFold_ok (t :: ss) (hwf s (by simp)) (fun u hu => hwf u (by simp [hu])) h
    exact ⟨r, h1, h2, h3 (by simp), h4, h5⟩

/-- C45: and it is accepted whenever no variable occurs in two operands. -/
theorem C45_total {ss : List Spe} (hne : ss ≠ []) (hwf : ∀ t ∈ ss, t.WF c L μ) (hd : (ss.map Spe.symbols).Pairwise Disjoint) :
    ∃ r, andChain (ss.map MixVal.spe) = .ok (.spe r) := by
  have gen : ∀ (ss : List Spe) (s : Spe), s.WF c L μ → (∀ t ∈ ss, t.WF c L μ) → ((s :: ss).map Spe.symbols).Pairwise Disjoint →
      ∃ r, (ss.map MixVal.spe).foldlM mixAnd (.spe s) = .ok (.spe r) := by
    intro ss
    induction ss with
    | nil => intro s _ _ _; exact ⟨s, rfl⟩
    | cons t ss ih =>
      intro s hs hss hd
      simp only [List.map_cons, List.pairwise_cons, List.mem_map, List.mem_cons, forall_eq_or_imp, forall_exists_index, and_imp, forall_apply_eq_imp_iff₂] at hd
      have hW : ∀ u ∈ [s, t], u.WF c L μ := by
        intro u hu
        simp at hu
        rcases hu with rfl | rfl
        · exact hs
        · exact hss _ (by simp)
      obtain ⟨p, hp⟩ := mkProd_total hW (by simp) (by simpa using hd.1.1)
      have k := mkProd_ok hW hp
      obtain ⟨r, hr⟩ := ih p k.1 (fun u hu => hss u (by simp [hu])) (by
        simp only [List.map_cons, List.pairwise_cons, List.mem_map, forall_exists_index, and_imp, forall_apply_eq_imp_iff₂]
        refine ⟨?_, hd.2.2⟩
        intro u hu
        rw [Finset.disjoint_left]
        intro x hx hu'
        rw [k.2.1, Spe.mem_symbols_prod] at hx
        simp at hx
        rcases hx with hx | hx
        · exact Finset.disjoint_left.1 (hd.1.2 u hu) hx hu'
        · exact Finset.disjoint_left.1 (hd.2.1 u hu) hx hu')
      exact ⟨r, by simp only [List.map_cons, List.foldlM_cons, mixAnd, hp, bind, Except.bind]; exact hr⟩
  cases ss with
  | nil => exact absurd rfl hne
  | cons s ss => exact gen ss s (hwf s (by simp)) (fun t ht => hwf t (by simp [ht])) hd

/-- C45: two operands with a common variable are rejected with `ValueError`. -/
theorem C45_rejects {s t : Spe} (hs : s.WF c L μ) (ht : t.WF c L μ) (hd : ¬ Disjoint s.symbols t.symbols) : mixAnd (.spe s) (.spe t) = .error .value := by
  have hW : ∀ u ∈ [s, t], u.WF c L μ := by
    intro u hu
    simp at hu
    rcases hu with rfl | rfl
    · exact hs
    · exact ht
  have h : mkProd [s, t] = .error .value := by
    cases h : mkProd [s, t] with
    | ok r => exact absurd (by simpa using mkProd_disj hW h) hd
    | error e =>
      have h' := h
      unfold mkProd at h
      simp only at h
      split at h
      · rename_i hn
        have := (prodChildren_ok hs).2.1
        simp at hn
        exact absurd hn.1 this
      · split at h
        · cases h
        · cases h; rfl
  simp [mixAnd, h, bind, Except.bind]

end

/-- C45 non-vacuity: three coins. -/
example (c : Ctx) (L : Lib) (μ : Dist → Measure ℝ) : ∃ r, andChain ([coin "X", coin "Y", coin "Z"].map MixVal.spe) = .ok (.spe r) := by
  refine C45_total (c := c) (L := L) (μ := μ) (by simp) ?_ ?_
  · intro t ht
    simp at ht
    rcases ht with rfl | rfl | rfl <;> exact coin_wf _ _ _ _
  · simp [coin, Spe.symbols]

/-- C45 non-vacuity: two coins for one variable. -/
example (c : Ctx) (L : Lib) (μ : Dist → Measure ℝ) : mixAnd (.spe (coin "X")) (.spe (coin "X")) = .error .value :=
  C45_rejects (c := c) (L := L) (μ := μ) (coin_wf _ _ _ _) (coin_wf _ _ _ _) (by simp [coin, Spe.symbols])

end Sppl
