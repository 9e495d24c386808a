import Verif.Sample.LawSpec
import Verif.Sample.Lemmas
import Verif.Spe.MixLemmas
import Mathlib.MeasureTheory.Constructions.BorelSpace.Real

set_option linter.all false

/-!
# Lemmas about the law of samples
-/

namespace Sppl
open Classical MeasureTheory
open scoped ENNReal ProbabilityTheory

section
variable {τ α α' α'' β β' γ : Type} [MeasurableSpace τ] [MeasurableSpace β] [MeasurableSpace β'] [MeasurableSpace γ] {U : Measure τ}

theorem Draws.state {f : τ → β × τ} {ν : Measure β} [IsProbabilityMeasure ν] [IsProbabilityMeasure U] (h : Draws U f ν) : U.map (fun t => (f t).2) = U := by
  have : U.map (fun t => (f t).2) = (U.map f).map Prod.snd := (Measure.map_map measurable_snd h.1).symm
  rw [this, h.2, ← Measure.snd, Measure.snd_prod]

theorem Draws.value {f : τ → β × τ} {ν : Measure β} [SFinite ν] [IsProbabilityMeasure U] (h : Draws U f ν) : U.map (fun t => (f t).1) = ν := by
  have : U.map (fun t => (f t).1) = (U.map f).map Prod.fst := (Measure.map_map measurable_fst h.1).symm
  rw [this, h.2, ← Measure.fst, Measure.fst_prod]

theorem Draws.ae_state {f : τ → β × τ} {ν : Measure β} [IsProbabilityMeasure ν] [IsProbabilityMeasure U] (h : Draws U f ν) {p : τ → Prop} (hp : ∀ᵐ t ∂U, p t) :
    ∀ᵐ t ∂U, p (f t).2 := by
  rw [← h.state] at hp
  exact ae_of_ae_map (measurable_snd.comp h.1).aemeasurable hp

theorem Draws.ae_value {f : τ → β × τ} {ν : Measure β} [SFinite ν] [IsProbabilityMeasure U] (h : Draws U f ν) {p : β → Prop} (hp : ∀ᵐ t ∂ν, p t) :
    ∀ᵐ t ∂U, p (f t).1 := by
  rw [← h.value] at hp
  exact ae_of_ae_map (measurable_fst.comp h.1).aemeasurable hp

theorem Law.of_draws {f : τ → β × τ} {ν : Measure β} (h : Draws U f ν) : Law U (fun t => .ok (f t)) (fun b => b) ν :=
  ⟨f, h, .of_forall fun _ => rfl⟩

/-- A computation that does the same and then processes the value. -/
theorem Law.post {m : τ → Res (α × τ)} {m' : τ → Res (α' × τ)} {φ : β → α} {φ' : γ → α'} {ν : Measure β} [SFinite ν] [IsProbabilityMeasure U] (h : Law U m φ ν)
    {g : β → γ} (hg : Measurable g) {good : β → Prop} (hgood : ∀ᵐ b ∂ν, good b)
    (hm : ∀ t b t', good b → m t = .ok (φ b, t') → m' t = .ok (φ' (g b), t')) : Law U m' φ' (ν.map g) := by
  obtain ⟨f, hf, hfm⟩ := h
  refine ⟨fun t => (g (f t).1, (f t).2), ⟨(hg.comp (measurable_fst.comp hf.1)).prodMk (measurable_snd.comp hf.1), ?_⟩, ?_⟩
  · have : (fun t => (g (f t).1, (f t).2)) = (Prod.map g (id : τ → τ)) ∘ f := rfl
    rw [this, ← Measure.map_map (hg.prodMap measurable_id) hf.1, hf.2, ← Measure.map_prod_map _ _ hg measurable_id, Measure.map_id]
  · filter_upwards [hfm, hf.ae_value hgood] with t h1 h2
    exact hm _ _ _ h2 h1

/-- Two computations in sequence. -/
theorem Law.seq {m : τ → Res (α × τ)} {m' : τ → Res (α' × τ)} {m'' : τ → Res (α'' × τ)} {φ : β → α} {φ' : β' → α'} {ψ : β × β' → α''} {ν : Measure β} {ν' : Measure β'}
    [IsProbabilityMeasure ν] [SFinite ν'] [IsProbabilityMeasure U] (h : Law U m φ ν) (h' : Law U m' φ' ν')
    (hm : ∀ t b t1 b' t2, m t = .ok (φ b, t1) → m' t1 = .ok (φ' b', t2) → m'' t = .ok (ψ (b, b'), t2)) : Law U m'' ψ (ν.prod ν') := by
  obtain ⟨f, hf, hfm⟩ := h
  obtain ⟨f', hf', hfm'⟩ := h'
  have hH : Measurable (Prod.map (id : β → β) f') := measurable_id.prodMap hf'.1
  have hA : Measurable (fun p : β × β' × τ => ((p.1, p.2.1), p.2.2)) := by fun_prop
  refine ⟨(fun p : β × β' × τ => ((p.1, p.2.1), p.2.2)) ∘ (Prod.map (id : β → β) f') ∘ f, ⟨hA.comp (hH.comp hf.1), ?_⟩, ?_⟩
  · rw [← Measure.map_map hA (hH.comp hf.1), ← Measure.map_map hH hf.1, hf.2, ← Measure.map_prod_map _ _ measurable_id hf'.1, Measure.map_id, hf'.2]
    have := Measure.prodAssoc_prod (μ := ν) (ν := ν') (τ := U)
    rw [← this, Measure.map_map hA MeasurableEquiv.prodAssoc.measurable]
    exact Measure.map_id
  · filter_upwards [hfm, hf.ae_state hfm'] with t h1 h2
    exact hm _ _ _ _ _ h1 h2

theorem prod_sum_left' {ι : Type} (s : Finset ι) (c : ι → ℝ≥0∞) (hc : ∀ i, c i ≠ ∞) (m : ι → Measure β) [∀ i, IsProbabilityMeasure (m i)] [IsProbabilityMeasure U] :
    (∑ i ∈ s, c i • m i).prod U = ∑ i ∈ s, c i • (m i).prod U := by
  induction s using Finset.induction_on with
  | empty => simp
  | insert a s ha ih =>
    have : IsFiniteMeasure (∑ i ∈ s, c i • m i) := by
      constructor
      rw [Measure.finset_sum_apply]
      simp only [Measure.smul_apply, measure_univ, smul_eq_mul, mul_one]
      exact ENNReal.sum_lt_top.2 (fun i _ => (hc i).lt_top)
    have : IsFiniteMeasure (c a • m a) := Measure.smul_finite _ (hc a)
    rw [Finset.sum_insert ha, Finset.sum_insert ha, Measure.add_prod, Measure.prod_smul_left, ih]

theorem map_finset_sum' {ι : Type} (s : Finset ι) (m : ι → Measure β) {g : β → γ} (hg : Measurable g) : (∑ i ∈ s, m i).map g = ∑ i ∈ s, (m i).map g := by
  induction s using Finset.induction_on with
  | empty => simp
  | insert a s ha ih => rw [Finset.sum_insert ha, Finset.sum_insert ha, Measure.map_add _ _ hg, ih]

/-- A computation that depends on a draw from a finite set. -/
theorem Law.mix {m : τ → Res (α × τ)} {m' : β → τ → Res (α' × τ)} {m'' : τ → Res (α' × τ)} {φ : β → α} {φ' : β' → α'} [Countable β] [MeasurableSingletonClass β]
    {s : Finset β} {c : β → ℝ≥0∞} (hc : ∀ b, c b ≠ ∞) {ν' : β → Measure β'} [∀ b, IsProbabilityMeasure (ν' b)] [Inhabited β'] [IsProbabilityMeasure U]
    (h : Law U m φ (∑ b ∈ s, c b • Measure.dirac b)) (h' : ∀ b ∈ s, Law U (m' b) φ' (ν' b)) (hp : IsProbabilityMeasure (∑ b ∈ s, c b • Measure.dirac b : Measure β))
    (hm : ∀ t b t1 b' t2, b ∈ s → m t = .ok (φ b, t1) → m' b t1 = .ok (φ' b', t2) → m'' t = .ok (φ' b', t2)) : Law U m'' φ' (∑ b ∈ s, c b • ν' b) := by
  obtain ⟨f, hf, hfm⟩ := h
  have h'' : ∀ b : β, ∃ g : τ → β' × τ, Measurable g ∧ (b ∈ s → U.map g = (ν' b).prod U ∧ ∀ᵐ t ∂U, m' b t = .ok (φ' (g t).1, (g t).2)) := by
    intro b
    by_cases hb : b ∈ s
    · obtain ⟨g, h1, h2⟩ := h' b hb
      exact ⟨g, h1.1, fun _ => ⟨h1.2, h2⟩⟩
    · exact ⟨fun t => (default, t), by fun_prop, fun h => absurd h hb⟩
  choose g hg hgm using h''
  have hH : Measurable (fun p : β × τ => g p.1 p.2) := measurable_from_prod_countable_right hg
  refine ⟨(fun p : β × τ => g p.1 p.2) ∘ f, ⟨hH.comp hf.1, ?_⟩, ?_⟩
  · rw [← Measure.map_map hH hf.1, hf.2, prod_sum_left' s c hc, map_finset_sum' _ _ hH, prod_sum_left' s c hc]
    refine Finset.sum_congr rfl ?_
    intro b hb
    rw [Measure.map_smul, Measure.dirac_prod, Measure.map_map hH (by fun_prop), ← (hgm b hb).1]
    rfl
  · have h1 : ∀ᵐ t ∂U, ∀ b : β, b ∈ s → m' b t = .ok (φ' (g b t).1, (g b t).2) := by
      rw [ae_all_iff]
      intro b
      by_cases hb : b ∈ s
      · filter_upwards [(hgm b hb).2] with t ht _ using ht
      · exact .of_forall fun t h => absurd h hb
    have h2 : ∀ᵐ b ∂(∑ b ∈ s, c b • Measure.dirac b : Measure β), b ∈ s := by
      rw [ae_iff, Measure.finset_sum_apply]
      refine Finset.sum_eq_zero ?_
      intro b hb
      simp [hb]
    filter_upwards [hfm, hf.ae_state h1, hf.ae_value h2] with t k1 k2 k3
    exact hm _ _ _ _ _ k3 k1 (k2 _ k3)

end

end Sppl
