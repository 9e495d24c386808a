import Verif.Interp.Spec
import Verif.Spe.PartialLemmas
import Verif.Spe.TransformLemmas
import Verif.Spe.SimpLemmas
import Verif.Spe.MixProps

set_option linter.all false

/-!
# Variables out of scope; sampling and transforming (helper lemmas)
-/

namespace Sppl
open Classical MeasureTheory
open scoped ENNReal ProbabilityTheory

theorem measurableSet_none (k : String) : MeasurableSet {ω : Asg | ω k = none} :=
  measurable_pi_apply (X := fun _ : String => Option (Val ℝ)) k (measurableSet_singleton (none : Option (Val ℝ)))

theorem indep_scope {k : String} : ∀ {l : List (Finset String × Measure Asg)}, (∀ q ∈ l, IsProbabilityMeasure q.2) → (∀ q ∈ l, k ∉ q.1) →
    ∀ᵐ ω ∂(indep l), ω k = none
  | [], _, _ => by
    unfold indep
    rw [ae_dirac_iff (measurableSet_none k)]
  | (S, m) :: l, h, hk => by
    have h1 : IsProbabilityMeasure m := h (S, m) (by simp)
    have h2 := indep_prob (l := l) (fun q hq => h q (by simp [hq]))
    have ih := indep_scope (l := l) (fun q hq => h q (by simp [hq])) (fun q hq => hk q (by simp [hq]))
    rw [indep_cons, ae_map_iff (measurable_mergeAsg S).aemeasurable (measurableSet_none k)]
    have := Measure.quasiMeasurePreserving_snd (μ := m) (ν := indep l) |>.ae ih
    filter_upwards [this] with p hp
    have : k ∉ S := hk (S, m) (by simp)
    simpa [mergeAsg, this] using hp

variable {c : Ctx} {L : Lib} {μ : Dist → Measure ℝ}

/-- A measure that only defines `X`. -/
theorem indep_one {ν : Measure Asg} [IsProbabilityMeasure ν] {X : String} (h : ∀ᵐ ω ∂ν, ∀ k, k ∉ ({X} : Finset String) → ω k = none) :
    indep [({X}, ν)] = ν := by
  rw [indep_cons]
  have e : (ν.prod (indep [])).map (mergeAsg {X}) = (ν.prod (indep [])).map Prod.fst := by
    refine Measure.map_congr ?_
    have h2 : IsProbabilityMeasure (indep []) := indep_prob (by simp)
    have h1 := Measure.quasiMeasurePreserving_fst (μ := ν) (ν := indep []) |>.ae h
    have h3 : ∀ᵐ ω ∂(indep []), ∀ k : String, ω k = none := by
      rw [ae_all_iff]; intro k; exact indep_scope (by simp) (by simp)
    have h4 := Measure.quasiMeasurePreserving_snd (μ := ν) (ν := indep []) |>.ae h3
    filter_upwards [h1, h4] with p hp hq
    funext k
    by_cases hk : k ∈ ({X} : Finset String)
    · simp [mergeAsg, hk]
    · simp only [mergeAsg, hk, if_false]; rw [hq, hp k hk]
  have h2 : IsProbabilityMeasure (indep []) := indep_prob (by simp)
  rw [e, Measure.map_fst_prod]; simp

theorem measurable_addVar (X : String) : Measurable (addVar X) := by
  refine measurable_pi_iff.2 (fun s => ?_)
  unfold addVar
  by_cases h : s = X
  · simp only [h, if_true]; exact (measurable_pi_apply X).comp measurable_snd
  · simp only [h, if_false]; exact (measurable_pi_apply s).comp measurable_fst

theorem indep_two {m ν : Measure Asg} [IsProbabilityMeasure m] [IsProbabilityMeasure ν] {S : Finset String} {X : String} (hX : X ∉ S)
    (hm : ∀ᵐ ω ∂m, ∀ k, k ∉ S → ω k = none) (h : ∀ᵐ ω ∂ν, ∀ k, k ∉ ({X} : Finset String) → ω k = none) :
    indep [(S, m), ({X}, ν)] = withIndep X ν m := by
  rw [indep_cons, indep_one h]
  refine Measure.map_congr ?_
  have h1 := Measure.quasiMeasurePreserving_fst (μ := m) (ν := ν) |>.ae hm
  have h2 := Measure.quasiMeasurePreserving_snd (μ := m) (ν := ν) |>.ae h
  filter_upwards [h1, h2] with p hp hq
  funext k
  by_cases hk : k ∈ S
  · have : k ≠ X := fun e => hX (e ▸ hk)
    simp [mergeAsg, addVar, hk, this]
  · by_cases hkX : k = X
    · simp [mergeAsg, addVar, hk, hkX, hX]
    · simp only [mergeAsg, addVar, hk, hkX, if_false]
      rw [hp k hk, hq k (by simpa using hkX)]

theorem withIndep_start {ν : Measure Asg} [IsProbabilityMeasure ν] {X : String} (h : ∀ᵐ ω ∂ν, ∀ k, k ∉ ({X} : Finset String) → ω k = none) :
    withIndep X ν start = ν := by
  have hm : ∀ᵐ ω ∂start, ∀ k : String, k ∉ (∅ : Finset String) → ω k = none := by
    rw [ae_all_iff]; intro k
    filter_upwards [indep_scope (l := []) (k := k) (by simp) (by simp)] with ω hω _ using hω
  have : IsProbabilityMeasure start := by unfold start; infer_instance
  rw [← indep_two (by simp) hm h, indep_cons, indep_one h]
  have e : (start.prod ν).map (mergeAsg ∅) = (start.prod ν).map Prod.snd := by
    congr 1
  rw [e, Measure.map_snd_prod]; simp

/-! ## Transforming -/

theorem ae_of_mixture {ws : List ℝ} {ms : List (Measure Asg)} {p : Asg → Prop} (hl : ms.length = ws.length) (hw : ∀ w ∈ ws, 0 < w)
    (h : ∀ᵐ ω ∂(mixture ws ms), p ω) : ∀ m ∈ ms, ∀ᵐ ω ∂m, p ω := by
  induction ms generalizing ws with
  | nil => simp
  | cons m ms ih =>
    cases ws with
    | nil => simp at hl
    | cons w ws =>
      rw [mixture_cons, ae_add_measure_iff] at h
      intro m' hm'
      rcases List.mem_cons.1 hm' with rfl | hm'
      · have h0 : ENNReal.ofReal w ≠ 0 := by simp [hw w (by simp)]
        have := h.1
        rw [ae_iff, Measure.smul_apply, smul_eq_mul, mul_eq_zero] at this
        rw [ae_iff]
        exact this.resolve_left h0
      · exact ih (by simpa using hl) (fun w hw' => hw w (by simp [hw'])) h.2 m' hm'

theorem canTransform {E : String → Env} {t : Tr} (ht : t.MadeG true c) {s : Spe} (hs : s.WF c L μ) : s.Ready E → s.atomSyms = ∅ → (∀ᵐ ω ∂(s.den μ), t.Regular ω) → s.CanTransform μ t := by
  have hok : t.SymOk := (Made.symOk c).1 t ht
  induction hs with
  | @real k X d supp cond env h1 h2 h3 h4 h5 h6 =>
    intro _ _ hr
    exact .real (ae_of_ae_map (measurable_leafAsg X env).aemeasurable hr)
  | @atomic X v env h2 =>
    intro _ ha _
    have : X ∈ (Spe.atomic X v env).atomSyms := by simpa [Spe.atomSyms, Env.keys] using h2.built.base_mem
    rw [ha] at this; simp at this
  | nominal => intro _ _ _; exact .nominal
  | @sum cs ws S h1 h2 h3 h4 h5 h6 ih =>
    intro hE ha hr
    cases hE with
    | sum hE hw =>
    simp only [Spe.den, Spe.denL_eq] at hr
    have := ae_of_mixture (by simp [h3]) hw hr
    exact .sum (fun s hs => ih s hs (hE s hs) (atomSymsL_empty.1 ha s hs) (this _ (List.mem_map_of_mem hs)))
  | @prod cs h1 h2 h3 ih =>
    intro hE ha hr
    cases hE with
    | prod hE =>
    refine .prod (fun s hs hsub => ih s hs (hE s hs) (atomSymsL_empty.1 ha s hs) ?_)
    obtain ⟨as, bs, rfl⟩ := List.append_of_mem hs
    have hp := groups_prob (μ := μ) h1
    have e : indep (groups μ (as ++ s :: bs)) = indep ((s.symbols, s.den μ) :: groups μ (as ++ bs)) := by
      refine indep_perm ?_ hp ?_
      · have : (s.symbols, s.den μ) :: groups μ (as ++ bs) = groups μ (s :: (as ++ bs)) := by simp [groups]
        rw [this]
        exact List.Perm.map _ List.perm_middle
      · have : (groups μ (as ++ s :: bs)).map Prod.fst = Spe.symbolsL (as ++ s :: bs) := by
          simp only [groups, Spe.symbolsL_eq, List.map_map]; rfl
        rw [this]; exact h3
    rw [den_prod, e, indep_cons] at hr
    have p1 : IsProbabilityMeasure (s.den μ) := (h1 s hs).prob
    have p2 : IsProbabilityMeasure (indep (groups μ (as ++ bs))) := indep_prob (groups_prob (fun t ht => h1 t (by simp at ht ⊢; tauto)))
    have h7 := Measure.ae_ae_of_ae_prod (ae_of_ae_map (measurable_mergeAsg s.symbols).aemeasurable hr)
    filter_upwards [h7] with x hx
    obtain ⟨y, hy⟩ := hx.exists
    refine (regular_congr.1 t hok ?_).1 hy
    intro k hk
    simp [mergeAsg, hsub hk]

end Sppl
