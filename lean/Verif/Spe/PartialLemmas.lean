import Verif.Spe.MixSpec
import Verif.Spe.BuildLemmas
import Verif.Spe.CondLeaf

set_option linter.all false

/-!
# Weighted mixtures (helper lemmas)
-/

namespace Sppl
open Classical MeasureTheory

theorem mkSum_total {c : Ctx} {L : Lib} {μ : Dist → Measure ℝ} {cs : List Spe} {ws : List ℝ} (hcs : ∀ t ∈ cs, t.WF c L μ) (hlen : cs.length = ws.length)
    (hsum : ws.sum = 1) (hsym : ∀ s ∈ cs, ∀ t ∈ cs, s.symbols = t.symbols) : ∃ s, mkSum cs ws = .ok s := by
  unfold mkSum
  rw [if_neg (by simpa using hlen)]
  simp only
  rw [if_neg (by simpa using hsum)]
  have hne : cs.flatMap Spe.sumChildren ≠ [] := by
    intro h
    rw [List.flatMap_eq_nil_iff] at h
    cases cs with
    | nil =>
      have : ws = [] := by simpa using hlen.symm
      subst this; simp at hsum
    | cons s cs => exact (sumChildren_ok (hcs s (by simp)) (le_refl (0:ℝ))).2.1 (h s (by simp))
  rw [if_neg hne, if_pos]
  · exact ⟨_, rfl⟩
  · rw [areIdentical_iff, Spe.symbolsL_eq]
    intro S hS T hT
    obtain ⟨s, hs, rfl⟩ := List.mem_map.1 hS
    obtain ⟨t, ht, rfl⟩ := List.mem_map.1 hT
    obtain ⟨s', hs', hs⟩ := List.mem_flatMap.1 hs
    obtain ⟨t', ht', ht⟩ := List.mem_flatMap.1 ht
    rw [((sumChildren_ok (hcs s' hs') (le_refl (0:ℝ))).1 s hs).2.1, ((sumChildren_ok (hcs t' ht') (le_refl (0:ℝ))).1 t ht).2.1]
    exact hsym s' hs' t' ht'

/-- One step of `mixChain`. -/
noncomputable def mixStep (acc : MixVal) (r : ℝ × Spe) : Res MixVal := do
  let x ← mixMul r.1 (.spe r.2)
  mixOr acc x

theorem mixMul_ok {w : ℝ} {s : Spe} {v : MixVal} (h : mixMul w (.spe s) = .ok v) : (0 < w ∧ w < 1) ∧ v = .psum ⟨[s], [w]⟩ := by
  unfold mixMul at h
  simp only at h
  split at h; swap; · cases h
  rename_i hw
  unfold mkPSum at h
  simp [hw.2, areIdentical, Spe.symbolsL, bind, Except.bind] at h
  exact ⟨hw, h.symm⟩

theorem mixMul_eq {w : ℝ} {s : Spe} (h0 : 0 < w) (h1 : w < 1) : mixMul w (.spe s) = .ok (.psum ⟨[s], [w]⟩) := by
  simp [mixMul, h0, h1, mkPSum, areIdentical, Spe.symbolsL, bind, Except.bind]

/-- What a chain evaluates to, from the children and weights. -/
noncomputable def MixVal.Is (cs : List Spe) (ws : List ℝ) : MixVal → Prop
  | .psum p => p = ⟨cs, ws⟩ ∧ ws.sum < 1 ∧ (∀ s ∈ cs, ∀ t ∈ cs, s.symbols = t.symbols)
  | .spe s => mkSum cs ws = .ok s ∧ ws.sum = 1

theorem mixStep_ok {acc : MixVal} {r : ℝ × Spe} {v : MixVal} {cs : List Spe} {ws : List ℝ} (ha : acc.Is cs ws) (h : mixStep acc r = .ok v) :
    (0 < r.1 ∧ r.1 < 1) ∧ v.Is (cs ++ [r.2]) (ws ++ [r.1]) := by
  unfold mixStep at h
  simp only [bind, Except.bind] at h
  split at h; · cases h
  rename_i x hx
  obtain ⟨hw, rfl⟩ := mixMul_ok hx
  refine ⟨hw, ?_⟩
  cases acc with
  | spe s => cases h
  | psum p =>
    obtain ⟨rfl, -, -⟩ := ha
    simp only [mixOr] at h
    split at h
    · rename_i h1
      simp only [bind, Except.bind] at h
      split at h; · cases h
      rename_i s hs
      cases h
      exact ⟨hs, h1⟩
    · split at h; swap; · cases h
      rename_i h1
      simp only [bind, Except.bind] at h
      split at h; · cases h
      rename_i s hs
      cases h
      unfold mkPSum at hs
      rw [if_pos h1] at hs
      split at hs; swap; · cases hs
      rename_i hi
      split at hs; · cases hs
      cases hs
      refine ⟨rfl, h1, ?_⟩
      rw [areIdentical_iff, Spe.symbolsL_eq] at hi
      intro s hs t ht
      exact hi _ (List.mem_map.2 ⟨s, hs, rfl⟩) _ (List.mem_map.2 ⟨t, ht, rfl⟩)

theorem mixFold_ok : ∀ {qs : List (ℝ × Spe)} {acc v : MixVal} {cs : List Spe} {ws : List ℝ}, acc.Is cs ws → qs.foldlM mixStep acc = .ok v →
    (∀ q ∈ qs, 0 < q.1 ∧ q.1 < 1) ∧ v.Is (cs ++ qs.map Prod.snd) (ws ++ qs.map Prod.fst)
  | [], acc, v, cs, ws, ha, h => by cases h; simpa using ha
  | q :: qs, acc, v, cs, ws, ha, h => by
    rw [List.foldlM_cons] at h
    simp only [bind, Except.bind] at h
    split at h; · cases h
    rename_i x hx
    obtain ⟨h1, h2⟩ := mixStep_ok ha hx
    obtain ⟨h3, h4⟩ := mixFold_ok h2 h
    refine ⟨?_, by simpa using h4⟩
    intro r hr
    rcases List.mem_cons.1 hr with rfl | hr
    · exact h1
    · exact h3 r hr

theorem mixChain_ok {qs : List (ℝ × Spe)} {v : MixVal} (h : mixChain qs = .ok v) :
    (∀ q ∈ qs, 0 < q.1 ∧ q.1 < 1) ∧ v.Is (qs.map Prod.snd) (qs.map Prod.fst) := by
  cases qs with
  | nil => cases h
  | cons q qs =>
    simp only [mixChain, bind, Except.bind] at h
    split at h; · cases h
    rename_i x hx
    obtain ⟨h1, rfl⟩ := mixMul_ok hx
    have := mixFold_ok (qs := qs) (cs := [q.2]) (ws := [q.1]) (acc := .psum ⟨[q.2], [q.1]⟩) ⟨rfl, by simpa using h1.2, by simp⟩ h
    refine ⟨?_, by simpa using this.2⟩
    intro r hr
    rcases List.mem_cons.1 hr with rfl | hr
    · exact h1
    · exact this.1 r hr

theorem mixFold_total {c : Ctx} {L : Lib} {μ : Dist → Measure ℝ} : ∀ {qs : List (ℝ × Spe)} {cs : List Spe} {ws : List ℝ},
    (∀ q ∈ qs, 0 < q.1 ∧ q.1 < 1) → (ws ++ qs.map Prod.fst).sum ≤ 1 → ws.sum < 1 → cs.length = ws.length → cs ≠ [] → (∀ t ∈ cs ++ qs.map Prod.snd, t.WF c L μ) →
    (∀ s ∈ cs ++ qs.map Prod.snd, ∀ t ∈ cs ++ qs.map Prod.snd, s.symbols = t.symbols) → ∃ v, qs.foldlM mixStep (.psum ⟨cs, ws⟩) = .ok v
  | [], cs, ws, _, _, _, _, _, _, _ => ⟨_, rfl⟩
  | q :: qs, cs, ws, hq, hs, hlt, hl, hne, hwf, hsym => by
    have hq1 := hq q (by simp)
    have hpos : ∀ x ∈ qs.map Prod.fst, 0 ≤ x := by
      intro x hx; obtain ⟨r, hr, rfl⟩ := List.mem_map.1 hx; exact (hq r (by simp [hr])).1.le
    have hle : (ws ++ [q.1]).sum ≤ 1 := by
      have := List.sum_nonneg hpos
      simp at hs ⊢
      linarith
    have hid : areIdentical (Spe.symbolsL (cs ++ [q.2])) = true := by
      rw [areIdentical_iff, Spe.symbolsL_eq]
      intro S hS T hT
      obtain ⟨s, hs, rfl⟩ := List.mem_map.1 hS
      obtain ⟨t, ht, rfl⟩ := List.mem_map.1 hT
      exact hsym s (by simp at hs ⊢; tauto) t (by simp at ht ⊢; tauto)
    rw [List.foldlM_cons]
    rcases hle.lt_or_eq with hlt' | heq
    · have hstep : mixStep (.psum ⟨cs, ws⟩) q = .ok (.psum ⟨cs ++ [q.2], ws ++ [q.1]⟩) := by
        simp only [mixStep, mixMul_eq hq1.1 hq1.2, bind, Except.bind, mixOr]
        rw [if_neg hlt'.ne, if_pos hlt']
        simp only [mkPSum, if_pos hlt', hid, if_true]
        simp
      rw [hstep]
      exact mixFold_total (fun r hr => hq r (by simp [hr])) (by simpa using hs) hlt' (by simp [hl]) (by simp) (by simpa using hwf) (by simpa using hsym)
    · have hnil : qs = [] := by
        cases qs with
        | nil => rfl
        | cons r qs =>
          exfalso
          have hr := (hq r (by simp)).1
          have : 0 ≤ (qs.map Prod.fst).sum := List.sum_nonneg (fun x hx => hpos x (by simp at hx ⊢; tauto))
          simp at hs heq
          linarith
      subst hnil
      obtain ⟨s, hs'⟩ := mkSum_total (c := c) (L := L) (μ := μ) (cs := cs ++ [q.2]) (ws := ws ++ [q.1]) (by simpa using hwf) (by simp [hl]) heq (by simpa using hsym)
      refine ⟨.spe s, ?_⟩
      simp only [mixStep, mixMul_eq hq1.1 hq1.2, bind, Except.bind, mixOr, heq, if_true, hs', List.foldlM_nil, pure, Except.pure]

theorem mixChain_total {c : Ctx} {L : Lib} {μ : Dist → Measure ℝ} {qs : List (ℝ × Spe)} (hne : qs ≠ []) (hq : ∀ q ∈ qs, 0 < q.1 ∧ q.1 < 1)
    (hs : (qs.map Prod.fst).sum ≤ 1) (hwf : ∀ q ∈ qs, q.2.WF c L μ) (hsym : ∀ q ∈ qs, ∀ r ∈ qs, q.2.symbols = r.2.symbols) : ∃ v, mixChain qs = .ok v := by
  cases qs with
  | nil => exact absurd rfl hne
  | cons q qs =>
    have h1 := hq q (by simp)
    simp only [mixChain, mixMul_eq h1.1 h1.2, bind, Except.bind]
    exact mixFold_total (c := c) (L := L) (μ := μ) (cs := [q.2]) (ws := [q.1]) (fun r hr => hq r (by simp [hr])) (by simpa using hs) (by simpa using h1.2) rfl (by simp)
      (by
        intro t ht
        have : t ∈ (q :: qs).map Prod.snd := by simpa using ht
        obtain ⟨r, hr, rfl⟩ := List.mem_map.1 this
        exact hwf r hr)
      (by
        intro s hs t ht
        have h1 : s ∈ (q :: qs).map Prod.snd := by simpa using hs
        have h2 : t ∈ (q :: qs).map Prod.snd := by simpa using ht
        obtain ⟨r, hr, rfl⟩ := List.mem_map.1 h1
        obtain ⟨r', hr', rfl⟩ := List.mem_map.1 h2
        exact hsym r hr r' hr')

/-! ## Mixtures of distributions -/

/-- One step of `dChain`. -/
noncomputable def dStep (acc : DMix) (r : ℝ × Distr) : Res DMix := do
  let x ← dMul r.1 r.2
  dOr acc x

theorem dFold_ok : ∀ {qs : List (ℝ × Distr)} {acc v : DMix}, qs.foldlM dStep acc = .ok v →
    (∀ q ∈ qs, 0 < q.1 ∧ q.1 < 1) ∧ v = ⟨acc.distributions ++ qs.map Prod.snd, acc.weights ++ qs.map Prod.fst⟩ ∧ (acc.weights.sum ≤ 1 → v.weights.sum ≤ 1)
  | [], acc, v, h => by cases h; simp
  | q :: qs, acc, v, h => by
    rw [List.foldlM_cons] at h
    simp only [bind, Except.bind] at h
    split at h; · cases h
    rename_i x hx
    simp only [dStep, dMul, bind, Except.bind] at hx
    by_cases hw : 0 < q.1 ∧ q.1 < 1
    · rw [if_pos hw] at hx
      simp only [dOr] at hx
      split at hx; swap; · cases hx
      rename_i hle
      cases hx
      obtain ⟨h1, h2, h3⟩ := dFold_ok h
      refine ⟨?_, by simpa using h2, fun _ => h3 hle.2⟩
      intro r hr
      rcases List.mem_cons.1 hr with rfl | hr
      · exact hw
      · exact h1 r hr
    · rw [if_neg hw] at hx; cases hx

theorem dChain_ok {qs : List (ℝ × Distr)} {v : DMix} (h : dChain qs = .ok v) :
    (∀ q ∈ qs, 0 < q.1 ∧ q.1 < 1) ∧ v = ⟨qs.map Prod.snd, qs.map Prod.fst⟩ ∧ (qs.map Prod.fst).sum ≤ 1 := by
  cases qs with
  | nil => cases h
  | cons q qs =>
    simp only [dChain, bind, Except.bind] at h
    split at h; · cases h
    rename_i x hx
    simp only [dMul] at hx
    split at hx; swap; · cases hx
    rename_i hw
    cases hx
    obtain ⟨h1, h2, h3⟩ := dFold_ok h
    refine ⟨?_, by simpa using h2, by simpa [h2] using h3 (by simpa using hw.2.le)⟩
    intro r hr
    rcases List.mem_cons.1 hr with rfl | hr
    · exact hw
    · exact h1 r hr

theorem dFold_total : ∀ {qs : List (ℝ × Distr)} {acc : DMix}, (∀ q ∈ qs, 0 < q.1 ∧ q.1 < 1) → 0 < acc.weights.sum →
    (acc.weights ++ qs.map Prod.fst).sum ≤ 1 → ∃ v, qs.foldlM dStep acc = .ok v
  | [], acc, _, _, _ => ⟨_, rfl⟩
  | q :: qs, acc, hq, h0, hs => by
    have hq1 := hq q (by simp)
    have hpos : ∀ x ∈ qs.map Prod.fst, 0 ≤ x := by
      intro x hx; obtain ⟨r, hr, rfl⟩ := List.mem_map.1 hx; exact (hq r (by simp [hr])).1.le
    have hnn := List.sum_nonneg hpos
    have h0' : 0 < (acc.weights ++ [q.1]).sum := by simp; linarith
    have h1' : (acc.weights ++ [q.1]).sum ≤ 1 := by simp at hs ⊢; linarith
    rw [List.foldlM_cons]
    have : dStep acc q = .ok ⟨acc.distributions ++ [q.2], acc.weights ++ [q.1]⟩ := by
      simp only [dStep, dMul, if_pos hq1, bind, Except.bind, dOr, if_pos (And.intro h0' h1')]
    rw [this]
    exact dFold_total (fun r hr => hq r (by simp [hr])) h0' (by simpa using hs)

theorem dChain_total {qs : List (ℝ × Distr)} (hne : qs ≠ []) (hq : ∀ q ∈ qs, 0 < q.1 ∧ q.1 < 1) (hs : (qs.map Prod.fst).sum ≤ 1) : ∃ v, dChain qs = .ok v := by
  cases qs with
  | nil => exact absurd rfl hne
  | cons q qs =>
    have h1 := hq q (by simp)
    simp only [dChain, dMul, if_pos h1, bind, Except.bind]
    exact dFold_total (acc := ⟨[q.2], [q.1]⟩) (fun r hr => hq r (by simp [hr])) (by simpa using h1.1) (by simpa using hs)

/-! ## Leaves of distributions -/

theorem extend_single (X : String) (v : Val ℝ) : Env.extend [(X, .id X)] (baseAsg X v) = baseAsg X v := by
  funext s
  simp [Env.extend, Tr.eval]
  rintro rfl; rfl

theorem call_ok {c : Ctx} {L : Lib} {μ : Dist → Measure ℝ} {X : String} {d : Distr} {s : Spe} (hd : d.WF L μ) (h : d.call L X = .ok s) :
    s.WF c L μ ∧ s.symbols = {X} ∧ s.den μ = d.law μ X ∧ s.atomSyms = ∅ ∧ ∀ E, s.Ready E := by
  cases hd with
  | @nominal dist h1 h2 =>
    simp only [Distr.call, mkNominal, bind, Except.bind] at h
    split at h; · cases h
    split at h; swap; · cases h
    rename_i hs
    cases h
    exact ⟨.nominal h1 h2 hs, rfl, rfl, rfl, fun E => .nominal⟩
  | @real k d supp hv h1 h2 h3 h4 =>
    obtain ⟨rfl, hk⟩ := mkReal_ok h
    simp only at hk
    refine ⟨.real h1 ⟨.base, by intro p hp; simp at hp; subst hp; exact .id _⟩ h2 ?_ ?_ ?_, rfl, ?_, rfl, fun E => .real hv⟩
    · exact fun hd => ⟨⟨h3 hd, (hk hd).1⟩, (hk hd).2⟩
    · simpa using h4
    · refine Filter.Eventually.of_forall (fun x p hp => ?_)
      simp at hp; subst hp; trivial
    · simp only [Spe.den, extend_single, realMeas, Bool.false_eq_true, if_false, Distr.law]

end Sppl
