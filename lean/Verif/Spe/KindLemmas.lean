import Verif.Spe.SimpLemmas

set_option linter.all false

/-!
# Kinds of values (helper lemmas)
-/

namespace Sppl
open Classical MeasureTheory

variable {c : Ctx} {L : Lib} {μ : Dist → Measure ℝ}

theorem measurable_kind (K : String → Bool) (S : Finset String) : MeasurableSet {ω : Asg | ∀ x ∈ S, HasKind (K x) (ω x)} := by
  have : {ω : Asg | ∀ x ∈ S, HasKind (K x) (ω x)} = ⋂ x ∈ S, {ω : Asg | HasKind (K x) (ω x)} := by ext ω; simp
  rw [this]
  refine S.measurableSet_biInter (fun x _ => ?_)
  have h1 : Measurable (fun ω : Asg => ω x) := measurable_pi_apply x
  cases K x with
  | true =>
    have := h1 (measurableSet_nums MeasurableSet.univ)
    simpa [Set.preimage, HasKind] using this
  | false =>
    have := h1 (measurableSet_strs (fun _ => True))
    simpa [Set.preimage, HasKind] using this

theorem indep_kind {K : String → Bool} : ∀ {l : List (Finset String × Measure Asg)}, (∀ q ∈ l, IsProbabilityMeasure q.2) →
    (∀ q ∈ l, ∀ᵐ ω ∂q.2, ∀ x ∈ q.1, HasKind (K x) (ω x)) → ∀ᵐ ω ∂(indep l), ∀ x ∈ symsOf l, HasKind (K x) (ω x)
  | [], _, _ => by simp [symsOf]
  | (S, m) :: l, hp, h => by
    have p1 : IsProbabilityMeasure m := hp (S, m) (by simp)
    have hl : ∀ q ∈ l, IsProbabilityMeasure q.2 := fun q hq => hp q (by simp [hq])
    have p2 := indep_prob hl
    have ih := indep_kind hl (fun q hq => h q (by simp [hq]))
    have h1 : ∀ᵐ p ∂(m.prod (indep l)), ∀ x ∈ S, HasKind (K x) (p.1 x) :=
      Measure.quasiMeasurePreserving_fst.ae (h (S, m) (by simp))
    have h2 : ∀ᵐ p ∂(m.prod (indep l)), ∀ x ∈ symsOf l, HasKind (K x) (p.2 x) :=
      Measure.quasiMeasurePreserving_snd.ae ih
    rw [indep_cons]
    rw [ae_map_iff (measurable_mergeAsg S).aemeasurable (measurable_kind K _)]
    filter_upwards [h1, h2] with p hp1 hp2 x hx
    by_cases hxS : x ∈ S
    · simp only [mergeAsg, hxS, if_true]; exact hp1 x hxS
    · have : x ∈ symsOf l := by simpa [symsOf, hxS] using hx
      simp only [mergeAsg, hxS, if_false]; exact hp2 x this

theorem Spe.WF.kind {K : String → Bool} {s : Spe} (h : s.WF c L μ) (hk : s.Kinded μ K) : ∀ᵐ ω ∂(s.den μ), ∀ x ∈ s.symbols, HasKind (K x) (ω x) := by
  induction h with
  | @real k X d supp cond env h1 h2 h3 h4 h5 h6 =>
    cases hk with
    | real hk =>
    simp only [Spe.den]
    rw [ae_map_iff (measurable_leafAsg X env).aemeasurable (measurable_kind K _)]
    filter_upwards [hk] with y hy x hx
    obtain ⟨p, hp, rfl⟩ : ∃ p ∈ env, p.1 = x := by simpa [Spe.symbols] using hx
    exact hy p hp
  | @atomic X v env h2 =>
    cases hk with
    | atomic hk =>
    simp only [Spe.den]
    rw [ae_dirac_eq]
    intro x hx
    obtain ⟨p, hp, rfl⟩ : ∃ p ∈ env, p.1 = x := by simpa [Spe.symbols] using hx
    exact hk p hp
  | @nominal X dist hn h0 h1 =>
    cases hk with
    | nominal hk =>
    simp only [Spe.den]
    refine mixture_ae ?_
    intro m hm
    obtain ⟨p, hp, rfl⟩ := List.mem_map.1 hm
    rw [ae_dirac_eq]
    intro x hx
    have : x = X := by simpa [Spe.symbols] using hx
    subst this
    rw [hk]
    exact ⟨p.1, by simp [baseAsg]⟩
  | @sum cs ws S h1 hne hl hw hs hS ih =>
    cases hk with
    | sum hk =>
    simp only [Spe.den]
    rw [Spe.denL_eq]
    refine mixture_ae ?_
    intro m hm; obtain ⟨s, hs, rfl⟩ := List.mem_map.1 hm
    have := ih s hs (hk s hs)
    rw [hS s hs] at this
    rw [Spe.symbols_sum hne hS]
    exact this
  | @prod cs h1 hne hd ih =>
    cases hk with
    | prod hk =>
    rw [den_prod, ← symsOf_groups μ]
    refine indep_kind (groups_prob h1) ?_
    intro q hq
    obtain ⟨s, hs, rfl⟩ := List.mem_map.1 hq
    exact ih s hs (hk s hs)

/-- Events that compare the variables with values of their kind. -/
theorem suits_of_kinded {K : String → Bool} {s : Spe} (h : s.WF c L μ) (hk : s.Kinded μ K) {e : Ev} (hv : e.symbols ⊆ s.symbols)
    (he : ∀ ω : Asg, (∀ x ∈ e.symbols, HasKind (K x) (ω x)) → e.Suits ω) : ∀ᵐ ω ∂(s.den μ), e.Suits ω := by
  filter_upwards [h.kind hk] with ω hω
  exact he ω (fun x hx => hω x (hv hx))

end Sppl
