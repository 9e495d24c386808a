import Verif.Sample.UnorderedSpec
import Verif.Sample.LawProps
import Mathlib.Probability.Independence.Integration
import Mathlib.Algebra.BigOperators.Group.List.Lemmas
import Mathlib.Algebra.BigOperators.Fin

set_option linter.all false

/-!
# The law of samples up to their order (helper lemmas)
-/

namespace Sppl
open Classical MeasureTheory
open scoped ENNReal ProbabilityTheory

/-! ## Products of functions of independent draws -/

/-- The expected products are those of independent draws. -/
def ProdLaw {N : ℕ} (Λ : Measure (Fin N → Asg)) (ν : Measure Asg) : Prop :=
  ∀ φ : Asg → ℝ≥0∞, Measurable φ → ∫⁻ ω, ∏ i, φ (ω i) ∂Λ = (∫⁻ a, φ a ∂ν) ^ N

theorem measurable_prodφ {N : ℕ} {φ : Asg → ℝ≥0∞} (h : Measurable φ) : Measurable (fun ω : Fin N → Asg => ∏ i, φ (ω i)) :=
  Finset.measurable_prod _ (fun i _ => h.comp (measurable_pi_apply i))

theorem lintegral_pi_prod {N : ℕ} {ν : Measure Asg} [IsProbabilityMeasure ν] (φ : Fin N → Asg → ℝ≥0∞) (h : ∀ i, Measurable (φ i)) :
    ∫⁻ ω, ∏ i, φ i (ω i) ∂(Measure.pi fun _ : Fin N => ν) = ∏ i, ∫⁻ a, φ i a ∂ν := by
  have hi := ProbabilityTheory.iIndepFun_pi (μ := fun _ : Fin N => ν) (X := φ) (fun i => (h i).aemeasurable)
  rw [ProbabilityTheory.lintegral_prod_eq_prod_lintegral_of_indepFun Finset.univ _ hi (fun i => (h i).comp (measurable_pi_apply i))]
  refine Finset.prod_congr rfl (fun i _ => ?_)
  exact lintegral_eval_pi h i
where
  lintegral_eval_pi {N : ℕ} {ν : Measure Asg} [IsProbabilityMeasure ν] {φ : Fin N → Asg → ℝ≥0∞} (h : ∀ i, Measurable (φ i)) (i : Fin N) :
      ∫⁻ ω : Fin N → Asg, φ i (ω i) ∂(Measure.pi fun _ : Fin N => ν) = ∫⁻ a, φ i a ∂ν :=
    (measurePreserving_eval (fun _ : Fin N => ν) i).lintegral_comp (h i)

theorem ProdLaw.pi {N : ℕ} (ν : Measure Asg) [IsProbabilityMeasure ν] : ProdLaw (Measure.pi fun _ : Fin N => ν) ν := by
  intro φ h
  rw [lintegral_pi_prod (fun _ => φ) (fun _ => h)]
  simp

theorem ProdLaw.merge_left {N : ℕ} {Λ : Measure (Fin N → Asg)} {ν ν' : Measure Asg} [IsProbabilityMeasure Λ] [IsProbabilityMeasure ν] [IsProbabilityMeasure ν'] (h : ProdLaw Λ ν)
    {g : Asg × Asg → Asg} (hg : Measurable g) : ProdLaw ((Λ.prod (Measure.pi fun _ : Fin N => ν')).map (fun p i => g (p.1 i, p.2 i))) ((ν.prod ν').map g) := by
  intro φ hφ
  have hz := measurable_zip (N := N) hg
  have hz' : Measurable (fun p : (Fin N → Asg) × (Fin N → Asg) => ∏ i, φ (g (p.1 i, p.2 i))) := (measurable_prodφ hφ).comp hz
  have hg' : Measurable (fun p => φ (g p)) := hφ.comp hg
  rw [lintegral_map (measurable_prodφ hφ) hz, lintegral_map hφ hg]
  show ∫⁻ p, ∏ i, φ (g (p.1 i, p.2 i)) ∂(Λ.prod (Measure.pi fun _ : Fin N => ν')) = _
  rw [lintegral_prod _ hz'.aemeasurable, lintegral_prod _ hg'.aemeasurable]
  have hm : Measurable (fun a => ∫⁻ b, φ (g (a, b)) ∂ν') := hg'.lintegral_prod_right'
  rw [← h _ hm]
  refine lintegral_congr (fun a => ?_)
  exact lintegral_pi_prod (fun i b => φ (g (a i, b))) (fun i => (hφ.comp hg).comp measurable_prodMk_left)

theorem ProdLaw.merge_right {N : ℕ} {Λ : Measure (Fin N → Asg)} {ν ν' : Measure Asg} [IsProbabilityMeasure Λ] [IsProbabilityMeasure ν] [IsProbabilityMeasure ν'] (h : ProdLaw Λ ν')
    {g : Asg × Asg → Asg} (hg : Measurable g) : ProdLaw (((Measure.pi fun _ : Fin N => ν).prod Λ).map (fun p i => g (p.1 i, p.2 i))) ((ν.prod ν').map g) := by
  intro φ hφ
  have hz := measurable_zip (N := N) hg
  have hz' : Measurable (fun p : (Fin N → Asg) × (Fin N → Asg) => ∏ i, φ (g (p.1 i, p.2 i))) := (measurable_prodφ hφ).comp hz
  have hg' : Measurable (fun p => φ (g p)) := hφ.comp hg
  rw [lintegral_map (measurable_prodφ hφ) hz, lintegral_map hφ hg]
  show ∫⁻ p, ∏ i, φ (g (p.1 i, p.2 i)) ∂((Measure.pi fun _ : Fin N => ν).prod Λ) = _
  rw [lintegral_prod_symm _ hz'.aemeasurable, lintegral_prod_symm _ hg'.aemeasurable]
  have hm : Measurable (fun b => ∫⁻ a, φ (g (a, b)) ∂ν) := hg'.lintegral_prod_left'
  rw [← h _ hm]
  refine lintegral_congr (fun b => ?_)
  exact lintegral_pi_prod (fun i a => φ (g (a, b i))) (fun i => (hφ.comp hg).comp measurable_prodMk_right)

theorem ProdLaw.map_same {N : ℕ} {Λ : Measure (Fin N → Asg)} {ν : Measure Asg} (h : ProdLaw Λ ν) {g : Asg → Asg} (hg : Measurable g) :
    ProdLaw (Λ.map (fun b i => g (b i))) (ν.map g) := by
  intro φ hφ
  rw [lintegral_map (measurable_prodφ hφ) (measurable_pi_same hg), lintegral_map hφ hg]
  exact h _ (hφ.comp hg)

/-! ## Cutting a list into blocks -/

/-- Blocks of the given lengths. -/
def chunk {α : Type} : List ℕ → List α → List (List α)
  | [], _ => []
  | n :: ns, l => l.take n :: chunk ns (l.drop n)

theorem chunk_length {α : Type} : ∀ (ns : List ℕ) (l : List α), (chunk ns l).length = ns.length
  | [], _ => rfl
  | n :: ns, l => by simp [chunk, chunk_length ns]

theorem chunk_map {α β : Type} (f : α → β) : ∀ (ns : List ℕ) (l : List α), chunk ns (l.map f) = (chunk ns l).map (List.map f)
  | [], _ => rfl
  | n :: ns, l => by
    have := chunk_map f ns (l.drop n)
    simp only [chunk, List.map_cons, List.map_take, List.cons.injEq, true_and]
    rw [← this, List.map_drop]

theorem chunk_flatten {α : Type} : ∀ (ns : List ℕ) (l : List α), l.length = ns.sum → (chunk ns l).flatten = l
  | [], l, h => by simpa [chunk, eq_comm] using h
  | n :: ns, l, h => by
    simp only [List.sum_cons] at h
    rw [chunk, List.flatten_cons, chunk_flatten ns _ (by simp; omega), List.take_append_drop]

/-- The order after the blocks have been shuffled. -/
theorem blocks_perm {N : ℕ} {ns : List ℕ} (h : ns.sum = N) {m : ℕ} (hm : ns.length = m) (σ : Equiv.Perm (Fin m)) :
    ∃ P : Equiv.Perm (Fin N), ∀ ω : Fin N → Dct, ∀ (hl : (chunk ns (List.ofFn ω)).length = m),
      (List.ofFn (fun i : Fin m => (chunk ns (List.ofFn ω)).get ((σ i).cast hl.symm))).flatten = List.ofFn (fun i => ω (P i)) := by
  subst hm
  have hlen : ∀ {α : Type} (l : List α), (chunk ns l).length = ns.length := fun l => chunk_length ns l
  let bs := chunk ns (List.finRange N)
  let idx := (List.ofFn (fun i : Fin ns.length => bs.get ((σ i).cast (hlen _).symm))).flatten
  have hp : idx.Perm (List.finRange N) := by
    have h1 : (List.ofFn (fun i : Fin ns.length => bs.get ((σ i).cast (hlen _).symm))).Perm bs := by
      have := σ.ofFn_comp_perm (fun i => bs.get (i.cast (hlen _).symm))
      refine this.trans (List.Perm.of_eq ?_)
      refine List.ext_getElem (by simp [bs, hlen]) ?_
      intro i h1 h2
      simp
    have h2 : bs.flatten = List.finRange N := chunk_flatten ns _ (by simp [h])
    rw [← h2]
    exact h1.flatten
  have hN : idx.length = N := by rw [hp.length_eq]; simp
  have hnd : idx.Nodup := hp.nodup_iff.2 (List.nodup_finRange N)
  let P : Fin N → Fin N := fun i => idx.get (i.cast hN.symm)
  have hinj : Function.Injective P := by
    intro i j hij
    have := (List.nodup_iff_injective_get.1 hnd) hij
    simpa [Fin.ext_iff] using this
  refine ⟨Equiv.ofBijective P (Finite.injective_iff_bijective.1 hinj), ?_⟩
  intro ω hl
  have e : ∀ {l : List (List Dct)} (hl : l.length = ns.length), l = bs.map (List.map ω) →
      (List.ofFn (fun i : Fin ns.length => l.get ((σ i).cast hl.symm))).flatten = idx.map ω := by
    intro l hl e
    subst e
    simp only [idx, List.map_flatten, List.map_ofFn]
    congr 2
    funext i
    simp
  rw [e hl (by rw [← List.map_ofFn_finRange ω]; exact chunk_map ω ns _)]
  refine List.ext_getElem (by simp [hN]) ?_
  intro i h1 h2
  simp [P]
where
  List.map_ofFn_finRange {N : ℕ} (ω : Fin N → Dct) : (List.finRange N).map ω = List.ofFn ω := by
    rw [List.ofFn_eq_map]

end Sppl
