import Verif.Sample.LawNode

set_option linter.all false

/-!
# The law of one or two samples of mixtures (helper lemmas)
-/

namespace Sppl
open Classical MeasureTheory
open scoped ENNReal ProbabilityTheory

section
variable {τ : Type} {R : Rand τ} {L : Lib} {μ : Dist → Measure ℝ} [MeasurableSpace τ] {U : Measure τ} {c : Ctx}

theorem sampleMany_zero {τ α : Type} {R : Rand τ} {ws : List ℝ} {func : ℕ → ℕ → τ → Res (List α × τ)} {t t1 t2 : τ} {sel : Fin 0 → ℕ} {σ : Equiv.Perm (Fin 0)}
    (h1 : R.choice (normProbs (pnorm ws)) 0 t = (sel, t1)) (h2 : R.shuffle 0 t1 = (σ, t2)) : sampleMany R ws func 0 t = .ok ([], t2) := by
  simp only [sampleMany, h1, bind, Except.bind, List.ofFn_zero, List.reverse_nil, List.dedup_nil, mapS, List.length_nil, h2, List.flatten_nil]

theorem sampleMany_one {τ α : Type} {R : Rand τ} {ws : List ℝ} {func : ℕ → ℕ → τ → Res (List α × τ)} {t t1 t2 t3 : τ} {sel : Fin 1 → ℕ} {l : List α} {σ : Equiv.Perm (Fin 1)}
    (h1 : R.choice (normProbs (pnorm ws)) 1 t = (sel, t1)) (h2 : func (sel 0) 1 t1 = .ok (l, t2)) (h3 : R.shuffle 1 t2 = (σ, t3)) :
    sampleMany R ws func 1 t = .ok (l, t3) := by
  have e : List.ofFn sel = [sel 0] := by simp
  have hm : mapS (fun i => func i ((List.ofFn sel).count i)) (List.ofFn sel).reverse.dedup.reverse t1 = .ok ([l], t2) := by
    simp [e, mapS, h2, bind, Except.bind]
  have h3' : R.shuffle [l].length t2 = (σ, t3) := h3
  simp only [sampleMany, h1, hm, bind, Except.bind]
  rw [h3']
  simp

theorem sampleMany_two_same {τ α : Type} {R : Rand τ} {ws : List ℝ} {func : ℕ → ℕ → τ → Res (List α × τ)} {t t1 t2 t3 : τ} {sel : Fin 2 → ℕ} {l : List α} {σ : Equiv.Perm (Fin 1)}
    (h1 : R.choice (normProbs (pnorm ws)) 2 t = (sel, t1)) (hs : sel 0 = sel 1) (h2 : func (sel 0) 2 t1 = .ok (l, t2)) (h3 : R.shuffle 1 t2 = (σ, t3)) :
    sampleMany R ws func 2 t = .ok (l, t3) := by
  have e : List.ofFn sel = [sel 0, sel 0] := by simp [hs]
  have hm : mapS (fun i => func i ((List.ofFn sel).count i)) (List.ofFn sel).reverse.dedup.reverse t1 = .ok ([l], t2) := by
    rw [e]
    simp [mapS, h2, bind, Except.bind]
  have h3' : R.shuffle [l].length t2 = (σ, t3) := h3
  simp only [sampleMany, h1, hm, bind, Except.bind]
  rw [h3']
  simp

theorem sampleMany_two_ne {τ α : Type} {R : Rand τ} {ws : List ℝ} {func : ℕ → ℕ → τ → Res (List α × τ)} {t t1 t2 t3 t4 : τ} {sel : Fin 2 → ℕ} {a b : α} {σ : Equiv.Perm (Fin 2)}
    (h1 : R.choice (normProbs (pnorm ws)) 2 t = (sel, t1)) (hs : sel 0 ≠ sel 1) (h2 : func (sel 0) 1 t1 = .ok ([a], t2)) (h3 : func (sel 1) 1 t2 = .ok ([b], t3))
    (h4 : R.shuffle 2 t3 = (σ, t4)) :
    sampleMany R ws func 2 t = .ok ([![a, b] (σ 0), ![a, b] (σ 1)], t4) := by
  have e : List.ofFn sel = [sel 0, sel 1] := by simp
  have hm : mapS (fun i => func i ((List.ofFn sel).count i)) (List.ofFn sel).reverse.dedup.reverse t1 = .ok ([[a], [b]], t3) := by
    rw [e]
    have : [sel 0, sel 1].reverse.dedup.reverse = [sel 0, sel 1] := by
      simp [List.dedup_cons_of_notMem, Ne.symm hs]
    rw [this]
    simp [mapS, h2, h3, bind, Except.bind, hs, Ne.symm hs]
  have h4' : R.shuffle [[a], [b]].length t3 = (σ, t4) := h4
  simp only [sampleMany, h1, hm, bind, Except.bind]
  rw [h4']
  have key : ∀ i : Fin 2, [[a], [b]].get i = [![a, b] i] := by
    intro i; fin_cases i <;> rfl
  have : (List.ofFn fun i : Fin 2 => [[a], [b]].get (σ i)) = [[![a, b] (σ 0)], [![a, b] (σ 1)]] := by
    simp
    exact ⟨key _, key _⟩
  show (Except.ok ((List.ofFn fun i : Fin 2 => [[a], [b]].get (σ i)).flatten, t4) : Res _) = _
  rw [this]; rfl

theorem getD_lt {α : Type} {l : List α} {i : ℕ} (h : i < l.length) (d : α) : l.getD i d = l[i] := by
  rw [List.getD_eq_getElem?_getD, List.getElem?_eq_getElem h]; rfl

theorem getD_ge {α : Type} {l : List α} {i : ℕ} (h : ¬ i < l.length) (d : α) : l.getD i d = d := by
  rw [List.getD_eq_getElem?_getD, List.getElem?_eq_none (by omega)]; rfl

/-- The law of the children, with a default beyond the last. -/
noncomputable def childLaw (μ : Dist → Measure ℝ) (cs : List Spe) (i : ℕ) : Measure Asg := (cs.map (fun s => s.den μ)).getD i (Measure.dirac (fun _ => none))

theorem childLaw_prob {cs : List Spe} (h : ∀ s ∈ cs, s.WF c L μ) (i : ℕ) : IsProbabilityMeasure (childLaw μ cs i) := by
  unfold childLaw
  by_cases hi : i < cs.length
  · rw [getD_lt (by simpa using hi), List.getElem_map]
    exact (h _ (List.getElem_mem _)).prob
  · rw [getD_ge (by simpa using hi)]
    infer_instance

/-- The weight of a child. -/
noncomputable def childW (ws : List ℝ) (i : ℕ) : ℝ≥0∞ := ENNReal.ofReal (ws.getD i 0)

theorem childW_ne (ws : List ℝ) (i : ℕ) : childW ws i ≠ ∞ := ENNReal.ofReal_ne_top

theorem den_sum_range {cs : List Spe} {ws : List ℝ} (hl : cs.length = ws.length) :
    (Spe.sum cs ws).den μ = ∑ i ∈ Finset.range ws.length, childW ws i • childLaw μ cs i := by
  rw [Spe.den, Spe.denL_eq, mixture_range _ _ (by simp [hl])]
  refine Finset.sum_congr rfl ?_
  intro i hi
  simp only [Finset.mem_range] at hi
  unfold childW childLaw
  congr 1
  rw [getD_lt (by simpa [hl] using hi), getD_lt (by simpa [hl] using hi)]

theorem norm_ws {ws : List ℝ} (h : ws.sum = 1) : normProbs (pnorm ws) = ws := by
  have : pnorm ws = ws := by simp [pnorm, h]
  rw [this, normProbs_one h]

theorem shuffle_prob (n : ℕ) : IsProbabilityMeasure ((n.factorial : ℝ≥0∞)⁻¹ • (Measure.count : Measure (Equiv.Perm (Fin n)))) := by
  constructor
  rw [Measure.smul_apply, Measure.count_univ]
  simp only [ENat.card_eq_coe_fintype_card, Fintype.card_perm, Fintype.card_fin, smul_eq_mul]
  exact ENNReal.inv_mul_cancel (by simp [Nat.factorial_ne_zero]) (by simp)

theorem fst_law {N : ℕ} {m : τ → Res (List Dct × τ)} {m' : τ → Res (List Dct × τ)} {ν : Measure (Fin N → Asg)} [IsProbabilityMeasure ν] (hR : R.Fair U L μ) {n : ℕ}
    (h : Law U m (fun ω : Fin N → Asg => List.ofFn (fun i => toDct (ω i))) ν)
    (hm : ∀ t l t1 σ t2, m t = .ok (l, t1) → R.shuffle n t1 = (σ, t2) → m' t = .ok (l, t2)) :
    Law U m' (fun ω : Fin N → Asg => List.ofFn (fun i => toDct (ω i))) ν := by
  have := hR.prob
  have := shuffle_prob n
  have h2 := h.seq (m'' := m') (ψ := fun p : (Fin N → Asg) × Equiv.Perm (Fin n) => List.ofFn (fun i => toDct (p.1 i))) (Law.of_draws (hR.shuffle n)) (by
    intro t b t1 σ t2 h1 h2
    exact hm _ _ _ σ _ h1 (by simpa using h2))
  have h3 := h2.post (φ' := fun ω : Fin N → Asg => List.ofFn (fun i => toDct (ω i))) (good := fun _ => True) measurable_fst (by simp) (fun t b t' _ h => h)
  rwa [← Measure.fst, Measure.fst_prod] at h3

theorem sum_iid_zero (hR : R.Fair U L μ) {cs : List Spe} {ws : List ℝ} (hs : (Spe.sum cs ws).WF c L μ) : (Spe.sum cs ws).IID R U L μ 0 := by
  have := hR.prob
  cases hs with
  | sum h1 h2 h3 h4 h5 h6 =>
  unfold Spe.IID
  have := pickLaw_prob h4 h5
  have := shuffle_prob 0
  have h := (Law.of_draws (hR.choice ws 0 h4 h5)).seq (m'' := (Spe.sum cs ws).sample R L 0) (ψ := fun _ => []) (Law.of_draws (hR.shuffle 0)) (by
    intro t b t1 σ t2 e1 e2
    simp only [Spe.sample]
    refine sampleMany_zero (sel := b) (t1 := t1) (σ := σ) ?_ (by simpa using e2)
    rw [norm_ws h5]; simpa using e1)
  have h' := h.post (φ' := fun ω : Fin 0 → Asg => List.ofFn (fun i => toDct (ω i))) (good := fun _ => True) (g := fun _ => Fin.elim0) _root_.measurable_const (by simp) (m' := (Spe.sum cs ws).sample R L 0) (fun t b t' _ h => by
    rw [h]; simp)
  rw [Measure.map_const] at h'
  simp only [measure_univ, one_smul] at h'
  have : (Measure.pi fun _ : Fin 0 => (Spe.sum cs ws).den μ) = Measure.dirac (fun i : Fin 0 => i.elim0) := Measure.pi_of_empty _
  rw [this]
  exact h'

theorem pi_one {β : Type} [MeasurableSpace β] (ν : Measure β) [IsProbabilityMeasure ν] : (Measure.pi fun _ : Fin 1 => ν) = ν.map (fun x _ => x) := by
  exact (measurePreserving_funUnique ν (Fin 1)).symm.map_eq.symm

theorem sum_iid_one (hR : R.Fair U L μ) {cs : List Spe} {ws : List ℝ} (hs : (Spe.sum cs ws).WF c L μ) (h : ∀ s ∈ cs, s.IID R U L μ 1) : (Spe.sum cs ws).IID R U L μ 1 := by
  have := hR.prob
  have hsp := hs.prob
  cases hs with
  | sum h1 h2 h3 h4 h5 h6 =>
  have hpl := pickLaw_prob h4 h5
  have hcl := childLaw_prob (c := c) (L := L) (μ := μ) h1
  have hch := (Law.of_draws (hR.choice ws 1 h4 h5)).post (φ' := fun i : ℕ => (fun _ : Fin 1 => i)) (good := fun _ => True) (g := fun b : Fin 1 → ℕ => b 0)
    (measurable_pi_apply 0) (by simp) (m' := fun t => .ok (R.choice ws 1 t)) (fun t b t' _ e => by
      rw [e]; congr 2; funext i; rw [Subsingleton.elim i 0])
  have e0 : (Measure.pi fun _ : Fin 1 => pickLaw ws).map (fun b : Fin 1 → ℕ => b 0) = pickLaw ws := (measurePreserving_eval (fun _ : Fin 1 => pickLaw ws) 0).map_eq
  rw [e0] at hch
  unfold Spe.IID
  have e1 : (Measure.pi fun _ : Fin 1 => (Spe.sum cs ws).den μ) = ∑ i ∈ Finset.range ws.length, childW ws i • (Measure.pi fun _ : Fin 1 => childLaw μ cs i) := by
    have hm : Measurable (fun (x : Asg) (_ : Fin 1) => x) := by fun_prop
    rw [pi_one, den_sum_range h3, map_finset_sum' _ _ hm]
    refine Finset.sum_congr rfl (fun i _ => ?_)
    rw [Measure.map_smul, pi_one]
  rw [e1]
  refine Law.mix (β := ℕ) (m' := fun i t => do
      let r ← Spe.sampleI R L cs i 1 t
      .ok (r.1, (R.shuffle 1 r.2).2)) (childW_ne ws) hch ?_ hpl ?_
  · intro i hi
    simp only [Finset.mem_range] at hi
    have hi' : i < cs.length := by omega
    have hc : childLaw μ cs i = (cs[i]).den μ := by
      unfold childLaw; rw [getD_lt (by simpa using hi'), List.getElem_map]
    have hIID := h _ (List.getElem_mem hi')
    unfold Spe.IID at hIID
    rw [← hc] at hIID
    refine fst_law hR (n := 1) hIID ?_
    intro t l t1 σ t2 k1 k2
    simp [sampleI_eq, List.getElem?_eq_getElem hi', k1, k2, bind, Except.bind]
  · intro t i t1 b' t2 hi k1 k2
    simp only [Spe.sample]
    simp only [bind, Except.bind] at k2
    split at k2; · cases k2
    rename_i r hr
    have k1 : R.choice ws 1 t = (fun _ => i, t1) := by simpa using k1
    injection k2 with k2
    rw [Prod.mk.injEq] at k2
    rw [← k2.1, ← k2.2]
    refine sampleMany_one (sel := fun _ => i) (t1 := t1) (t2 := r.2) (σ := (R.shuffle 1 r.2).1) ?_ hr rfl
    rw [norm_ws h5]; exact k1

/-- The law of two independent draws. -/
noncomputable def twoOf (m m' : Measure Asg) : Measure (Fin 2 → Asg) := (m.prod m').map (fun p => ![p.1, p.2])

theorem measurable_pair : Measurable (fun p : Asg × Asg => (![p.1, p.2] : Fin 2 → Asg)) := by
  refine measurable_pi_iff.2 fun i => ?_
  fin_cases i
  · exact measurable_fst
  · exact measurable_snd

instance pair_prob (m m' : Measure Asg) [IsProbabilityMeasure m] [IsProbabilityMeasure m'] : IsProbabilityMeasure (twoOf m m') :=
  Measure.isProbabilityMeasure_map measurable_pair.aemeasurable

theorem pi_two (m : Measure Asg) [IsProbabilityMeasure m] : (Measure.pi fun _ : Fin 2 => m) = twoOf m m :=
  (measurePreserving_finTwoArrow m).symm.map_eq.symm

theorem prod_sum_right' {ι β γ : Type} [MeasurableSpace β] [MeasurableSpace γ] (s : Finset ι) (c : ι → ℝ≥0∞) (hc : ∀ i, c i ≠ ∞) (V : Measure γ) [IsProbabilityMeasure V]
    (m : ι → Measure β) [∀ i, IsProbabilityMeasure (m i)] : V.prod (∑ i ∈ s, c i • m i) = ∑ i ∈ s, c i • V.prod (m i) := by
  induction s using Finset.induction_on with
  | empty => simp
  | insert a s ha ih =>
    have : IsFiniteMeasure (∑ i ∈ s, c i • m i) := by
      constructor
      rw [Measure.finset_sum_apply]
      simp only [Measure.smul_apply, measure_univ, smul_eq_mul, mul_one]
      exact ENNReal.sum_lt_top.2 (fun i _ => (hc i).lt_top)
    have : IsFiniteMeasure (c a • m a) := Measure.smul_finite _ (hc a)
    rw [Finset.sum_insert ha, Finset.sum_insert ha, Measure.prod_add, ih]
    congr 1
    refine Measure.prod_eq (fun A B _ _ => ?_)
    rw [Measure.smul_apply, Measure.prod_prod, Measure.smul_apply, smul_eq_mul, smul_eq_mul, mul_left_comm]

theorem prod_sum_sum {ι β : Type} [MeasurableSpace β] (s : Finset ι) (c : ι → ℝ≥0∞) (hc : ∀ i, c i ≠ ∞)
    (m : ι → Measure β) [∀ i, IsProbabilityMeasure (m i)] (hp : IsProbabilityMeasure (∑ i ∈ s, c i • m i)) :
    (∑ i ∈ s, c i • m i).prod (∑ i ∈ s, c i • m i) = ∑ p ∈ s ×ˢ s, (c p.1 * c p.2) • (m p.1).prod (m p.2) := by
  rw [prod_sum_left' s c hc, Finset.sum_product]
  refine Finset.sum_congr rfl (fun i _ => ?_)
  rw [prod_sum_right' s c hc, Finset.smul_sum]
  refine Finset.sum_congr rfl (fun j _ => ?_)
  rw [smul_smul]

theorem shuffle_two : (((2 : ℕ).factorial : ℝ≥0∞)⁻¹ • (Measure.count : Measure (Equiv.Perm (Fin 2)))) = ∑ σ ∈ Finset.univ, (2 : ℝ≥0∞)⁻¹ • Measure.dirac σ := by
  rw [Measure.count, Measure.sum_fintype, Finset.smul_sum]
  simp

theorem measurable_swapped : Measurable (fun p : ((Fin 1 → Asg) × (Fin 1 → Asg)) × Equiv.Perm (Fin 2) => fun i => (![p.1.1 0, p.1.2 0] : Fin 2 → Asg) (p.2 i)) := by
    refine measurable_from_prod_countable_left fun σ => measurable_pi_iff.2 fun i => ?_
    have : Measurable (fun p : (Fin 1 → Asg) × (Fin 1 → Asg) => (![p.1 0, p.2 0] : Fin 2 → Asg)) :=
      measurable_pair.comp (f := fun p : (Fin 1 → Asg) × (Fin 1 → Asg) => (p.1 0, p.2 0)) (((measurable_pi_apply 0).comp measurable_fst).prodMk ((measurable_pi_apply 0).comp measurable_snd))
    exact (measurable_pi_apply (σ i)).comp this

theorem swap_law (m m' : Measure Asg) [IsProbabilityMeasure m] [IsProbabilityMeasure m'] :
    (((Measure.pi fun _ : Fin 1 => m).prod (Measure.pi fun _ : Fin 1 => m')).prod (((2 : ℕ).factorial : ℝ≥0∞)⁻¹ • (Measure.count : Measure (Equiv.Perm (Fin 2))))).map
      (fun p : ((Fin 1 → Asg) × (Fin 1 → Asg)) × Equiv.Perm (Fin 2) => fun i => (![p.1.1 0, p.1.2 0] : Fin 2 → Asg) (p.2 i)) =
      (2 : ℝ≥0∞)⁻¹ • twoOf m m' + (2 : ℝ≥0∞)⁻¹ • twoOf m' m := by
  have hg := measurable_swapped
  have h01 : Measurable (fun p : (Fin 1 → Asg) × (Fin 1 → Asg) => (p.1 0, p.2 0)) := ((measurable_pi_apply 0).comp measurable_fst).prodMk ((measurable_pi_apply 0).comp measurable_snd)
  have hm : ((Measure.pi fun _ : Fin 1 => m).prod (Measure.pi fun _ : Fin 1 => m')).map (fun p => (p.1 0, p.2 0)) = m.prod m' := by
    have e : (fun p : (Fin 1 → Asg) × (Fin 1 → Asg) => (p.1 0, p.2 0)) = Prod.map (fun b => b 0) (fun b => b 0) := rfl
    rw [e, ← Measure.map_prod_map _ _ (measurable_pi_apply 0) (measurable_pi_apply 0), (measurePreserving_eval (fun _ : Fin 1 => m) 0).map_eq,
      (measurePreserving_eval (fun _ : Fin 1 => m') 0).map_eq]
  rw [shuffle_two, prod_sum_right' _ _ (by simp), map_finset_sum' _ _ hg]
  have hu : (Finset.univ : Finset (Equiv.Perm (Fin 2))) = {1, Equiv.swap 0 1} := by decide
  rw [hu, Finset.sum_pair (by decide)]
  congr 1
  · rw [Measure.map_smul, Measure.prod_dirac, Measure.map_map hg (by fun_prop), twoOf, ← hm, Measure.map_map measurable_pair h01]
    rfl
  · rw [Measure.map_smul, Measure.prod_dirac, Measure.map_map hg (by fun_prop), twoOf, ← Measure.prod_swap (μ := m) (ν := m'), ← hm, Measure.map_map measurable_swap h01,
      Measure.map_map measurable_pair (measurable_swap.comp h01)]
    congr 2
    funext p i
    fin_cases i <;> rfl

theorem pair_symm (s : Finset ℕ) (c : ℕ → ℝ≥0∞) (m : ℕ → Measure Asg) :
    ∑ p ∈ s ×ˢ s, (c p.1 * c p.2) • (if p.1 = p.2 then twoOf (m p.1) (m p.1) else (2 : ℝ≥0∞)⁻¹ • twoOf (m p.1) (m p.2) + (2 : ℝ≥0∞)⁻¹ • twoOf (m p.2) (m p.1)) =
      ∑ p ∈ s ×ˢ s, (c p.1 * c p.2) • twoOf (m p.1) (m p.2) := by
  have e1 : ∀ p ∈ s ×ˢ s, (c p.1 * c p.2) • (if p.1 = p.2 then twoOf (m p.1) (m p.1) else (2 : ℝ≥0∞)⁻¹ • twoOf (m p.1) (m p.2) + (2 : ℝ≥0∞)⁻¹ • twoOf (m p.2) (m p.1)) =
      (2 : ℝ≥0∞)⁻¹ • ((c p.1 * c p.2) • twoOf (m p.1) (m p.2)) + (2 : ℝ≥0∞)⁻¹ • ((c p.2 * c p.1) • twoOf (m p.2) (m p.1)) := by
    intro p _
    split
    · rename_i h
      rw [h, ← add_smul, ENNReal.inv_two_add_inv_two, one_smul]
    · rw [smul_add, mul_comm (c p.2), smul_comm, smul_comm (c p.1 * c p.2) (2 : ℝ≥0∞)⁻¹ (twoOf (m p.2) (m p.1))]
  rw [Finset.sum_congr rfl e1, Finset.sum_add_distrib, ← Finset.smul_sum, ← Finset.smul_sum]
  have e2 : ∑ p ∈ s ×ˢ s, (c p.2 * c p.1) • twoOf (m p.2) (m p.1) = ∑ p ∈ s ×ˢ s, (c p.1 * c p.2) • twoOf (m p.1) (m p.2) := by
    rw [Finset.sum_product, Finset.sum_product_right]
  rw [e2, ← add_smul, ENNReal.inv_two_add_inv_two, one_smul]

theorem sum_iid_two (hR : R.Fair U L μ) {cs : List Spe} {ws : List ℝ} (hs : (Spe.sum cs ws).WF c L μ) (h : ∀ s ∈ cs, s.IID R U L μ 1) (h' : ∀ s ∈ cs, s.IID R U L μ 2) :
    (Spe.sum cs ws).IID R U L μ 2 := by
  have := hR.prob
  have hsp := hs.prob
  cases hs with
  | sum h1 h2 h3 h4 h5 h6 =>
  have hpl := pickLaw_prob h4 h5
  have hcl := childLaw_prob (c := c) (L := L) (μ := μ) h1
  have hm2 : Measurable (fun b : Fin 2 → ℕ => (b 0, b 1)) := by fun_prop
  have hch := (Law.of_draws (hR.choice ws 2 h4 h5)).post (φ' := fun p : ℕ × ℕ => (![p.1, p.2] : Fin 2 → ℕ)) (good := fun _ => True) (g := fun b : Fin 2 → ℕ => (b 0, b 1))
    hm2 (by simp) (m' := fun t => .ok (R.choice ws 2 t)) (fun t b t' _ e => by
      rw [e]; congr 2; funext i; fin_cases i <;> rfl)
  have e0 : (Measure.pi fun _ : Fin 2 => pickLaw ws).map (fun b : Fin 2 → ℕ => (b 0, b 1)) = (pickLaw ws).prod (pickLaw ws) := (measurePreserving_finTwoArrow (pickLaw ws)).map_eq
  have e0' : (pickLaw ws).prod (pickLaw ws) = ∑ p ∈ Finset.range ws.length ×ˢ Finset.range ws.length, (childW ws p.1 * childW ws p.2) • Measure.dirac p := by
    have := prod_sum_sum (Finset.range ws.length) (childW ws) (childW_ne ws) (fun i => Measure.dirac i) hpl
    unfold pickLaw
    refine this.trans (Finset.sum_congr rfl (fun p _ => ?_))
    rw [Measure.dirac_prod_dirac]
  have hpp : IsProbabilityMeasure ((pickLaw ws).prod (pickLaw ws)) := inferInstance
  rw [e0, e0'] at hch
  rw [e0'] at hpp
  unfold Spe.IID
  have hprob : IsProbabilityMeasure (∑ i ∈ Finset.range ws.length, childW ws i • childLaw μ cs i) := by rw [← den_sum_range h3]; exact hsp
  have e1 : (Measure.pi fun _ : Fin 2 => (Spe.sum cs ws).den μ) = ∑ p ∈ Finset.range ws.length ×ˢ Finset.range ws.length, (childW ws p.1 * childW ws p.2) •
      (if p.1 = p.2 then twoOf (childLaw μ cs p.1) (childLaw μ cs p.1) else
        (2 : ℝ≥0∞)⁻¹ • twoOf (childLaw μ cs p.1) (childLaw μ cs p.2) + (2 : ℝ≥0∞)⁻¹ • twoOf (childLaw μ cs p.2) (childLaw μ cs p.1)) := by
    rw [pair_symm, pi_two, den_sum_range h3, twoOf, prod_sum_sum _ _ (childW_ne ws) _ hprob, map_finset_sum' _ _ measurable_pair]
    refine Finset.sum_congr rfl (fun p _ => ?_)
    rw [Measure.map_smul]; rfl
  rw [e1]
  have hpr : ∀ p : ℕ × ℕ, IsProbabilityMeasure (if p.1 = p.2 then twoOf (childLaw μ cs p.1) (childLaw μ cs p.1) else
        (2 : ℝ≥0∞)⁻¹ • twoOf (childLaw μ cs p.1) (childLaw μ cs p.2) + (2 : ℝ≥0∞)⁻¹ • twoOf (childLaw μ cs p.2) (childLaw μ cs p.1)) := by
    intro p
    split
    · infer_instance
    · constructor
      simp [ENNReal.inv_two_add_inv_two]
  have child : ∀ i, i < ws.length → ∃ s ∈ cs, cs[i]? = some s ∧ childLaw μ cs i = s.den μ := by
    intro i hi
    have hi' : i < cs.length := by omega
    refine ⟨cs[i], List.getElem_mem _, List.getElem?_eq_getElem hi', ?_⟩
    unfold childLaw; rw [getD_lt (by simpa using hi'), List.getElem_map]
  refine Law.mix (β := ℕ × ℕ) (m' := fun p t => if p.1 = p.2 then do
      let r ← Spe.sampleI R L cs p.1 2 t
      .ok (r.1, (R.shuffle 1 r.2).2)
    else do
      let r ← Spe.sampleI R L cs p.1 1 t
      let r' ← Spe.sampleI R L cs p.2 1 r.2
      .ok ([![r.1.headD (fun _ => none), r'.1.headD (fun _ => none)] ((R.shuffle 2 r'.2).1 0), ![r.1.headD (fun _ => none), r'.1.headD (fun _ => none)] ((R.shuffle 2 r'.2).1 1)], (R.shuffle 2 r'.2).2))
    (fun p => ENNReal.mul_ne_top (childW_ne ws _) (childW_ne ws _)) hch ?_ hpp ?_
  · rintro ⟨i, j⟩ hij
    simp only [Finset.mem_product, Finset.mem_range] at hij
    obtain ⟨s, hs, hsi, hsl⟩ := child i hij.1
    obtain ⟨s', hs', hsi', hsl'⟩ := child j hij.2
    have p1 := (h1 s hs).prob
    have p2 := (h1 s' hs').prob
    by_cases hc : i = j
    · simp only [hc, if_true]
      subst hc
      rw [hsl, ← pi_two]
      refine fst_law hR (n := 1) (h' s hs) ?_
      intro t l t1 σ t2 k1 k2
      simp [sampleI_eq, hsi, k1, k2, bind, Except.bind]
    · simp only [hc, if_false]
      have hshuf := shuffle_prob 2
      have hh := (h s hs).seq (h s' hs') (ψ := fun p : (Fin 1 → Asg) × (Fin 1 → Asg) => ([toDct (p.1 0)], [toDct (p.2 0)])) (m'' := fun t => do
          let r ← Spe.sampleI R L cs i 1 t
          let r' ← Spe.sampleI R L cs j 1 r.2
          .ok ((r.1, r'.1), r'.2)) (by
        intro t b t1 b' t2 k1 k2
        simp only [sampleI_eq, hsi, hsi', k1, k2, bind, Except.bind, List.ofFn_succ, List.ofFn_zero])
      have hh2 := hh.seq (Law.of_draws (hR.shuffle 2)) (ψ := fun q : ((Fin 1 → Asg) × (Fin 1 → Asg)) × Equiv.Perm (Fin 2) =>
        [toDct ((![q.1.1 0, q.1.2 0] : Fin 2 → Asg) (q.2 0)), toDct ((![q.1.1 0, q.1.2 0] : Fin 2 → Asg) (q.2 1))]) (m'' := fun t => do
          let r ← Spe.sampleI R L cs i 1 t
          let r' ← Spe.sampleI R L cs j 1 r.2
          .ok ([![r.1.headD (fun _ => none), r'.1.headD (fun _ => none)] ((R.shuffle 2 r'.2).1 0), ![r.1.headD (fun _ => none), r'.1.headD (fun _ => none)] ((R.shuffle 2 r'.2).1 1)], (R.shuffle 2 r'.2).2)) (by
        intro t b t1 σ t2 k1 k2
        simp only [bind, Except.bind] at k1 ⊢
        split at k1; · cases k1
        rename_i r hr
        split at k1; · cases k1
        rename_i r' hr'
        injection k1 with k1
        injection k2 with k2
        rw [Prod.mk.injEq, Prod.mk.injEq] at k1
        rw [k1.2, k2, k1.1.1, k1.1.2]
        have key : ∀ k : Fin 2, (![[toDct (b.1 0)].headD (fun _ => none), [toDct (b.2 0)].headD (fun _ => none)] : Fin 2 → Dct) k = toDct ((![b.1 0, b.2 0] : Fin 2 → Asg) k) := by
          intro k; fin_cases k <;> rfl
        rw [key, key])
      rw [hsl, hsl', ← swap_law]
      refine hh2.post (good := fun _ => True) (measurable_swapped) (by simp) ?_
      intro t b t' _ hb
      rw [hb]
      simp [List.ofFn_succ]
  · rintro t ⟨i, j⟩ t1 b' t2 hi k1 k2
    simp only [Spe.sample]
    have k1 : R.choice ws 2 t = (![i, j], t1) := by simpa using k1
    rw [← norm_ws h5] at k1
    by_cases hc : i = j
    · simp only [hc, if_true, bind, Except.bind] at k2
      split at k2; · cases k2
      rename_i r hr
      injection k2 with k2
      rw [Prod.mk.injEq] at k2
      rw [← k2.1, ← k2.2]
      exact sampleMany_two_same (t2 := r.2) (σ := (R.shuffle 1 r.2).1) k1 (by simp [hc]) (by simpa [hc] using hr) rfl
    · simp only [hc, if_false, bind, Except.bind] at k2
      split at k2; · cases k2
      rename_i r hr
      split at k2; · cases k2
      rename_i r' hr'
      injection k2 with k2
      rw [Prod.mk.injEq] at k2
      rw [← k2.1, ← k2.2]
      have single : ∀ {i : ℕ} {t : τ} {r : List Dct × τ}, Spe.sampleI R L cs i 1 t = .ok r → r.1 = [r.1.headD (fun _ => none)] := by
        intro i t r h
        rw [sampleI_eq] at h
        split at h; swap; · cases h
        rename_i s hsi
        have hl := (C34_sample (l := r.1) (t' := r.2) (h1 s (List.mem_of_getElem? hsi)) h).1
        obtain ⟨a, ha⟩ := List.length_eq_one_iff.1 hl
        rw [ha]; rfl
      have q1 := single hr
      have q2 := single hr'
      refine sampleMany_two_ne (sel := ![i, j]) (t2 := r.2) (t3 := r'.2) k1 (by simpa using hc) ?_ ?_ rfl
      · rw [← q1]; exact hr
      · rw [← q2]; exact hr'

end

end Sppl
