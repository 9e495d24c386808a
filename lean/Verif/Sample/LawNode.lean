import Verif.Sample.LawLeaf
import Verif.Sample.Props

set_option linter.all false

/-!
# The law of samples of products and sums (helper lemmas)
-/

namespace Sppl
open Classical MeasureTheory
open scoped ENNReal ProbabilityTheory

section
variable {τ : Type} {R : Rand τ} {L : Lib} {μ : Dist → Measure ℝ} [MeasurableSpace τ] {U : Measure τ} {c : Ctx}

theorem pi_prod_map {N : ℕ} {α β γ : Type} [MeasurableSpace α] [MeasurableSpace β] [MeasurableSpace γ] {m : Measure α} {m' : Measure β} [IsProbabilityMeasure m]
    [IsProbabilityMeasure m'] {g : α × β → γ} (hg : Measurable g) :
    ((Measure.pi fun _ : Fin N => m).prod (Measure.pi fun _ : Fin N => m')).map (fun p i => g (p.1 i, p.2 i)) = Measure.pi fun _ : Fin N => (m.prod m').map g := by
  rw [← pi_map_same hg]
  have := (measurePreserving_arrowProdEquivProdArrow α β (Fin N) (fun _ => m) (fun _ => m')).map_eq
  rw [← this, Measure.map_map _ (MeasurableEquiv.measurable _)]
  · rfl
  · refine measurable_pi_iff.2 fun i => ?_
    exact hg.comp (((measurable_pi_apply i).comp measurable_fst).prodMk ((measurable_pi_apply i).comp measurable_snd))

theorem measurable_zip {N : ℕ} {α β γ : Type} [MeasurableSpace α] [MeasurableSpace β] [MeasurableSpace γ] {g : α × β → γ} (hg : Measurable g) :
    Measurable (fun (p : (Fin N → α) × (Fin N → β)) i => g (p.1 i, p.2 i)) := by
  refine measurable_pi_iff.2 fun i => ?_
  exact hg.comp (((measurable_pi_apply i).comp measurable_fst).prodMk ((measurable_pi_apply i).comp measurable_snd))

theorem toDct_merge {S : Finset String} {a b : Asg} (h : HasKeys (toDct a) S) : (fun x => (toDct a x).or (toDct b x)) = toDct (mergeAsg S (a, b)) := by
  funext x
  have := h x
  unfold toDct mergeAsg at *
  by_cases hx : x ∈ S
  · have := this.2 hx
    simp only [hx, if_true]
    cases ha : a x with
    | none => simp [ha] at this
    | some v => simp
  · have : a x = none := by by_contra hc; exact hx (this.1 (by simpa using hc))
    simp [hx, this]

theorem toDct_merge_none {S : Finset String} {a : Asg} (h : HasKeys (toDct a) S) : mergeAsg S (a, fun _ => none) = a := by
  funext x
  have := h x
  unfold toDct mergeAsg at *
  by_cases hx : x ∈ S
  · simp [hx]
  · have : a x = none := by by_contra hc; exact hx (this.1 (by simpa using hc))
    simp [hx, this]

theorem zipWith_ofFn {N : ℕ} {α β γ : Type} (g : α → β → γ) (f : Fin N → α) (f' : Fin N → β) :
    List.zipWith g (List.ofFn f) (List.ofFn f') = List.ofFn (fun i => g (f i) (f' i)) := by
  refine List.ext_getElem (by simp) ?_
  intro i h1 h2
  simp

theorem prod_law (hR : R.Fair U L μ) {N : ℕ} : ∀ {cs : List Spe}, cs ≠ [] → (∀ s ∈ cs, s.WF c L μ) → (∀ s ∈ cs, s.IID R U L μ N) →
    Law U (fun t => do
      let r ← Spe.sampleL R L cs N t
      .ok (mergeSamples r.1, r.2)) (fun ω : Fin N → Asg => List.ofFn (fun i => toDct (ω i))) (Measure.pi fun _ => indep ((Spe.symbolsL cs).zip (Spe.denL μ cs)))
  | [], hne, _, _ => absurd rfl hne
  | [s], _, hw, h => by
    have := hR.prob
    have hs := hw s (by simp)
    have := hs.prob
    have hm := measurable_mergeAsg s.symbols
    simp only [Spe.symbolsL, Spe.denL, List.zip_cons_cons, List.zip_nil_right, indep]
    have hg : Measurable (fun ω : Asg => mergeAsg s.symbols (ω, fun _ => none)) := hm.comp (by fun_prop)
    have e : ((s.den μ).prod (Measure.dirac (fun _ => none))).map (mergeAsg s.symbols) = (s.den μ).map (fun ω : Asg => mergeAsg s.symbols (ω, fun _ => none)) := by
      rw [Measure.prod_dirac, Measure.map_map hm (by fun_prop)]; rfl
    rw [e, ← pi_map_same hg]
    refine (h s (by simp)).post (good := fun _ => True) (measurable_pi_same hg) (by simp) ?_
    intro t b t' _ hb
    have hk := (C34_sample hs hb).2
    simp only [Spe.sampleL, hb, bind, Except.bind, mergeSamples]
    congr 3
    funext i
    rw [toDct_merge_none]
    exact hk _ ((List.mem_ofFn' _ _).2 ⟨i, rfl⟩)
  | s :: s' :: cs, _, hw, h => by
    have := hR.prob
    have hs := hw s (by simp)
    have := hs.prob
    have hm := measurable_mergeAsg s.symbols
    have hl : IsProbabilityMeasure (indep ((Spe.symbolsL (s' :: cs)).zip (Spe.denL μ (s' :: cs)))) := by
      have := indep_prob (groups_prob (μ := μ) (cs := s' :: cs) (fun s hs => hw s (List.mem_cons_of_mem _ hs)))
      rwa [← den_prod, Spe.den] at this
    have ih := prod_law hR (cs := s' :: cs) (by simp) (fun s hs => hw s (by simp [hs])) (fun s hs => h s (by simp [hs]))
    rw [Spe.symbolsL, Spe.denL, List.zip_cons_cons, indep, ← pi_prod_map hm]
    have h2 := (h s (by simp)).seq (ψ := fun p : (Fin N → Asg) × (Fin N → Asg) => (List.ofFn (fun i => toDct (mergeAsg s.symbols (p.1 i, p.2 i))))) ih
      (m'' := fun t => do
        let r ← Spe.sampleL R L (s :: s' :: cs) N t
        .ok (mergeSamples r.1, r.2)) (by
      intro t b t1 b' t2 hb hb'
      have hk := (C34_sample hs hb).2
      simp only [bind, Except.bind] at hb'
      split at hb'; · cases hb'
      rename_i r hr
      rw [Spe.sampleL]
      simp only [hb, hr, bind, Except.bind]
      injection hb' with hb'
      rw [Prod.mk.injEq] at hb'
      rw [hb'.2]
      congr 2
      have hlen := (mapS_ok (r := r.1) (t' := r.2) ((sampleL_eq _ _ _).symm.trans hr)).length_eq
      obtain ⟨r1, r2⟩ := r
      cases r1 with
      | nil => simp at hlen
      | cons x xs =>
        simp only [mergeSamples] at hb' ⊢
        rw [hb'.1, zipWith_ofFn]
        congr 1
        funext i
        exact toDct_merge (hk _ ((List.mem_ofFn' _ _).2 ⟨i, rfl⟩)))
    refine h2.post (good := fun _ => True) (measurable_zip hm) (by simp) ?_
    intro t b t' _ hb
    exact hb

theorem prod_iid (hR : R.Fair U L μ) {N : ℕ} {cs : List Spe} (hs : (Spe.prod cs).WF c L μ) (h : ∀ s ∈ cs, s.IID R U L μ N) : (Spe.prod cs).IID R U L μ N := by
  cases hs with
  | prod h1 h2 h3 =>
  unfold Spe.IID
  simp only [Spe.den, Spe.sample]
  exact prod_law hR h2 h1 h

end

end Sppl
