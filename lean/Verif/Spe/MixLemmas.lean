import Verif.Spe.ProbLemmas

set_option linter.all false

/-!
# Conditioning mixtures and products of measures (helper lemmas)
-/

namespace Sppl
open Classical MeasureTheory
open scoped ENNReal ProbabilityTheory

/-! ## Mixtures over any space -/

section
variable {α β : Type} [MeasurableSpace α] [MeasurableSpace β]

/-- The weighted mixture of measures over any space. -/
noncomputable def mixG (ws : List ℝ) (ms : List (Measure α)) : Measure α :=
  (List.zipWith (fun w m => ENNReal.ofReal w • m) ws ms).sum

theorem mixG_cons (w : ℝ) (ws : List ℝ) (m : Measure α) (ms : List (Measure α)) :
    mixG (w :: ws) (m :: ms) = ENNReal.ofReal w • m + mixG ws ms := by simp [mixG]
@[simp] theorem mixG_nil (ms : List (Measure α)) : mixG [] ms = 0 := by simp [mixG]
@[simp] theorem mixG_nil' (ws : List ℝ) : mixG ws ([] : List (Measure α)) = 0 := by simp [mixG]

theorem mixG_map {f : α → β} (hf : Measurable f) : ∀ (ws : List ℝ) (ms : List (Measure α)), (mixG ws ms).map f = mixG ws (ms.map (fun m => m.map f))
  | [], _ => by simp
  | _ :: _, [] => by simp
  | w :: ws, m :: ms => by
    rw [mixG_cons, List.map_cons, mixG_cons, Measure.map_add _ _ hf, Measure.map_smul, mixG_map hf ws ms]

theorem cond_congr {ν : Measure α} {A B : Set α} (hA : MeasurableSet A) (hB : MeasurableSet B) (h : ∀ᵐ x ∂ν, x ∈ A ↔ x ∈ B) : ν[|A] = ν[|B] := by
  have h' : A =ᵐ[ν] B := Filter.eventuallyEq_set.2 h
  unfold ProbabilityTheory.cond
  rw [measure_congr h', Measure.restrict_congr_set h']

theorem cond_univ' (ν : Measure α) [IsProbabilityMeasure ν] : ν[|Set.univ] = ν := by
  unfold ProbabilityTheory.cond; simp

theorem cond_map {f : α → β} (hf : Measurable f) (ν : Measure α) {A : Set β} (hA : MeasurableSet A) : (ν.map f)[|A] = (ν[|f ⁻¹' A]).map f := by
  unfold ProbabilityTheory.cond
  rw [Measure.map_apply hf hA, Measure.restrict_map hf hA, Measure.map_smul]

theorem measurable_exists {Bs : List (Set α)} (h : ∀ B ∈ Bs, MeasurableSet B) : MeasurableSet {x | ∃ B ∈ Bs, x ∈ B} := by
  induction Bs with
  | nil => simp
  | cons B Bs ih =>
    have : {x | ∃ C ∈ B :: Bs, x ∈ C} = B ∪ {x | ∃ C ∈ Bs, x ∈ C} := by ext; simp
    rw [this]; exact (h B (by simp)).union (ih (fun C hC => h C (by simp [hC])))

/-- Pairwise null intersections. -/
def NullDisj (ν : Measure α) (Bs : List (Set α)) : Prop := Bs.Pairwise (fun A B => ν (A ∩ B) = 0)

theorem NullDisj.head {ν : Measure α} {B : Set α} {Bs : List (Set α)} (h : NullDisj ν (B :: Bs)) : ν (B ∩ {x | ∃ C ∈ Bs, x ∈ C}) = 0 := by
  have h1 := (List.pairwise_cons.1 h).1
  clear h
  induction Bs with
  | nil => simp
  | cons C Bs ih =>
    have : B ∩ {x | ∃ D ∈ C :: Bs, x ∈ D} = (B ∩ C) ∪ (B ∩ {x | ∃ D ∈ Bs, x ∈ D}) := by ext; simp; tauto
    rw [this]
    exact measure_union_null (h1 C (by simp)) (ih (fun D hD => h1 D (by simp [hD])))

theorem restrict_sum {ν : Measure α} {Bs : List (Set α)} (hm : ∀ B ∈ Bs, MeasurableSet B) (h : NullDisj ν Bs) :
    (Bs.map (fun B => ν.restrict B)).sum = ν.restrict {x | ∃ B ∈ Bs, x ∈ B} := by
  induction Bs with
  | nil => simp
  | cons B Bs ih =>
    have hm' : ∀ B ∈ Bs, MeasurableSet B := fun C hC => hm C (by simp [hC])
    have : {x | ∃ C ∈ B :: Bs, x ∈ C} = B ∪ {x | ∃ C ∈ Bs, x ∈ C} := by ext; simp
    rw [List.map_cons, List.sum_cons, ih hm' (List.pairwise_cons.1 h).2, this,
      Measure.restrict_union₀ (show AEDisjoint ν _ _ from h.head) (measurable_exists hm').nullMeasurableSet]

theorem real_sum {ν : Measure α} [IsFiniteMeasure ν] {Bs : List (Set α)} (hm : ∀ B ∈ Bs, MeasurableSet B) (h : NullDisj ν Bs) :
    (Bs.map (fun B => ν.real B)).sum = ν.real {x | ∃ B ∈ Bs, x ∈ B} := by
  induction Bs with
  | nil => simp
  | cons B Bs ih =>
    have hm' : ∀ B ∈ Bs, MeasurableSet B := fun C hC => hm C (by simp [hC])
    have : {x | ∃ C ∈ B :: Bs, x ∈ C} = B ∪ {x | ∃ C ∈ Bs, x ∈ C} := by ext; simp
    rw [List.map_cons, List.sum_cons, ih hm' (List.pairwise_cons.1 h).2, this]
    have := measureReal_union_add_inter (μ := ν) (s := B) (measurable_exists hm')
    have h0 : ν.real (B ∩ {x | ∃ C ∈ Bs, x ∈ C}) = 0 := by rw [measureReal_def, h.head]; rfl
    linarith

/-- If the probabilities add up to the probability of the union, the sets do not overlap. -/
theorem nullDisj_of_sum {ν : Measure α} [IsFiniteMeasure ν] {Bs : List (Set α)} (hm : ∀ B ∈ Bs, MeasurableSet B)
    (h : (Bs.map (fun B => ν.real B)).sum = ν.real {x | ∃ B ∈ Bs, x ∈ B}) : NullDisj ν Bs := by
  have hle : ∀ Bs : List (Set α), (∀ B ∈ Bs, MeasurableSet B) → ν.real {x | ∃ B ∈ Bs, x ∈ B} ≤ (Bs.map (fun B => ν.real B)).sum := by
    intro Bs
    induction Bs with
    | nil => simp
    | cons B Bs ih =>
      intro hm
      have hm' : ∀ B ∈ Bs, MeasurableSet B := fun C hC => hm C (by simp [hC])
      have : {x | ∃ C ∈ B :: Bs, x ∈ C} = B ∪ {x | ∃ C ∈ Bs, x ∈ C} := by ext; simp
      rw [List.map_cons, List.sum_cons, this]
      exact (measureReal_union_le _ _).trans (by linarith [ih hm'])
  induction Bs with
  | nil => exact List.Pairwise.nil
  | cons B Bs ih =>
    have hm' : ∀ B ∈ Bs, MeasurableSet B := fun C hC => hm C (by simp [hC])
    have e : {x | ∃ C ∈ B :: Bs, x ∈ C} = B ∪ {x | ∃ C ∈ Bs, x ∈ C} := by ext; simp
    rw [List.map_cons, List.sum_cons, e] at h
    have h1 := measureReal_union_add_inter (μ := ν) (s := B) (measurable_exists hm')
    have h2 := hle Bs hm'
    have h3 : 0 ≤ ν.real (B ∩ {x | ∃ C ∈ Bs, x ∈ C}) := measureReal_nonneg
    refine List.pairwise_cons.2 ⟨fun C hC => ?_, ih hm' (by linarith)⟩
    have h4 : ν.real (B ∩ {x | ∃ C ∈ Bs, x ∈ C}) = 0 := by linarith
    have h5 : ν (B ∩ {x | ∃ C ∈ Bs, x ∈ C}) = 0 := by
      rw [measureReal_def, ENNReal.toReal_eq_zero_iff] at h4
      exact h4.resolve_right (measure_ne_top _ _)
    exact measure_mono_null (show B ∩ C ⊆ B ∩ {x | ∃ C ∈ Bs, x ∈ C} from fun x hx => ⟨hx.1, C, hC, hx.2⟩) h5

theorem real_pos {ν : Measure α} [IsFiniteMeasure ν] {A : Set α} (h : ν A ≠ 0) : 0 < ν.real A := by
  rw [measureReal_def]; exact ENNReal.toReal_pos h (measure_ne_top _ _)

theorem real_ne_zero {ν : Measure α} [IsFiniteMeasure ν] {A : Set α} : ν.real A ≠ 0 ↔ ν A ≠ 0 := by
  rw [measureReal_def, Ne, ENNReal.toReal_eq_zero_iff]
  simp [measure_ne_top]

/-- The mixture of the conditional distributions given sets that do not overlap is the conditional distribution given the union. -/
theorem mix_cond {ν : Measure α} [IsFiniteMeasure ν] {Bs : List (Set α)} (hm : ∀ B ∈ Bs, MeasurableSet B) (hd : NullDisj ν Bs) (hp : ∀ B ∈ Bs, ν B ≠ 0)
    (hne : Bs ≠ []) : mixG (pnorm (Bs.map (fun B => ν.real B))) (Bs.map (fun B => ν[|B])) = ν[|{x | ∃ B ∈ Bs, x ∈ B}] := by
  have hS := real_sum hm hd
  set U := {x | ∃ B ∈ Bs, x ∈ B} with hU
  have hUpos : ν U ≠ 0 := by
    obtain ⟨B, hB⟩ := List.exists_mem_of_ne_nil _ hne
    intro h0
    exact hp B hB (measure_mono_null (show B ⊆ U from fun x hx => ⟨B, hB, hx⟩) h0)
  have key : ∀ Cs : List (Set α), (∀ B ∈ Cs, ν B ≠ 0) →
      mixG ((Cs.map (fun B => ν.real B)).map (fun a => a / ν.real U)) (Cs.map (fun B => ν[|B])) = (ν U)⁻¹ • (Cs.map (fun B => ν.restrict B)).sum := by
    intro Cs
    induction Cs with
    | nil => simp
    | cons C Cs ih =>
      intro hC
      rw [List.map_cons, List.map_cons, List.map_cons, mixG_cons, ih (fun B hB => hC B (by simp [hB])), List.map_cons, List.sum_cons, smul_add]
      congr 1
      unfold ProbabilityTheory.cond
      rw [smul_smul]
      congr 1
      rw [ENNReal.ofReal_div_of_pos (real_pos hUpos), ofReal_measureReal, ofReal_measureReal, div_eq_mul_inv, mul_right_comm,
        ENNReal.mul_inv_cancel (hC C (by simp)) (measure_ne_top _ _), one_mul]
  have h1 : pnorm (Bs.map (fun B => ν.real B)) = (Bs.map (fun B => ν.real B)).map (fun a => a / ν.real U) := by
    unfold pnorm; rw [hS]
  rw [h1, key Bs hp, restrict_sum hm hd]
  rfl

theorem pnorm_ok {l : List ℝ} (h : ∀ x ∈ l, 0 < x) (hne : l ≠ []) : (∀ w ∈ pnorm l, 0 < w) ∧ (pnorm l).sum = 1 := by
  have hs : 0 < l.sum := by
    cases l with
    | nil => exact absurd rfl hne
    | cons a l =>
      rw [List.sum_cons]
      have : 0 ≤ l.sum := List.sum_nonneg (fun x hx => (h x (by simp [hx])).le)
      linarith [h a (by simp)]
  constructor
  · intro w hw
    unfold pnorm at hw
    obtain ⟨a, ha, rfl⟩ := List.mem_map.1 hw
    exact div_pos (h a ha) hs
  · unfold pnorm
    have : ∀ m : List ℝ, (m.map (fun a => a / l.sum)).sum = m.sum / l.sum := by
      intro m
      induction m with
      | nil => simp
      | cons a m ih => rw [List.map_cons, List.sum_cons, ih, List.sum_cons, add_div]
    rw [this, div_self hs.ne']

/-! ## Conditioning a mixture -/

theorem mixG_apply (A : Set α) : ∀ (ws : List ℝ) (ms : List (Measure α)), mixG ws ms A = (List.zipWith (fun w m => ENNReal.ofReal w * m A) ws ms).sum
  | [], _ => by simp
  | _ :: _, [] => by simp
  | w :: ws, m :: ms => by
    rw [mixG_cons, Measure.add_apply, mixG_apply A ws ms]; simp

theorem mixG_restrict {A : Set α} (hA : MeasurableSet A) : ∀ (ws : List ℝ) (ms : List (Measure α)), (mixG ws ms).restrict A = mixG ws (ms.map (fun m => m.restrict A))
  | [], _ => by simp
  | _ :: _, [] => by simp
  | w :: ws, m :: ms => by
    rw [mixG_cons, List.map_cons, mixG_cons, Measure.restrict_add, Measure.restrict_smul, mixG_restrict hA ws ms]

/-- The conditional distribution of a mixture is the mixture of the conditional distributions, with weights multiplied by the
probabilities. -/
theorem cond_mix {A : Set α} (hA : MeasurableSet A) (ts : List (ℝ × Measure α)) (hw : ∀ t ∈ ts, 0 ≤ t.1) (hf : ∀ t ∈ ts, IsFiniteMeasure t.2)
    (hpos : 0 < ((ts.filter (fun t => t.2.real A ≠ 0)).map (fun t => t.2.real A * t.1)).sum) :
    mixG (pnorm ((ts.filter (fun t => t.2.real A ≠ 0)).map (fun t => t.2.real A * t.1))) ((ts.filter (fun t => t.2.real A ≠ 0)).map (fun t => t.2[|A])) =
      (mixG (ts.map Prod.fst) (ts.map Prod.snd))[|A] := by
  set T := ((ts.filter (fun t => t.2.real A ≠ 0)).map (fun t => t.2.real A * t.1)).sum with hT
  have e1 : mixG (ts.map Prod.fst) (ts.map Prod.snd) A = ENNReal.ofReal T := by
    rw [hT]
    clear hT hpos
    induction ts with
    | nil => simp
    | cons t ts ih =>
      rw [List.map_cons, List.map_cons, mixG_cons, Measure.add_apply, ih (fun t ht => hw t (by simp [ht])) (fun t ht => hf t (by simp [ht]))]
      have := hf t (by simp)
      have h0 : 0 ≤ ((ts.filter (fun t => t.2.real A ≠ 0)).map (fun t => t.2.real A * t.1)).sum := by
        refine List.sum_nonneg ?_
        intro x hx
        obtain ⟨u, hu, rfl⟩ := List.mem_map.1 hx
        exact mul_nonneg measureReal_nonneg (hw u (by simp [(List.mem_filter.1 hu).1]))
      by_cases h : t.2.real A = 0
      · have h' : t.2 A = 0 := by by_contra h''; exact (real_ne_zero.2 h'') h
        simp [List.filter_cons, h, h']
      · simp only [List.filter_cons, h, ne_eq, not_false_eq_true, decide_true, if_true, List.map_cons, List.sum_cons]
        rw [ENNReal.ofReal_add (mul_nonneg measureReal_nonneg (hw t (by simp))) h0, ENNReal.ofReal_mul measureReal_nonneg, ofReal_measureReal]
        simp [mul_comm]
  have key : ∀ us : List (ℝ × Measure α), (∀ t ∈ us, 0 ≤ t.1) → (∀ t ∈ us, IsFiniteMeasure t.2) →
      mixG (((us.filter (fun t => t.2.real A ≠ 0)).map (fun t => t.2.real A * t.1)).map (fun a => a / T)) ((us.filter (fun t => t.2.real A ≠ 0)).map (fun t => t.2[|A])) =
        (ENNReal.ofReal T)⁻¹ • (mixG (us.map Prod.fst) (us.map Prod.snd)).restrict A := by
    intro us
    induction us with
    | nil => intro _ _; simp
    | cons t us ih =>
      intro hw hf
      have ih := ih (fun t ht => hw t (by simp [ht])) (fun t ht => hf t (by simp [ht]))
      have := hf t (by simp)
      rw [List.map_cons (f := Prod.fst), List.map_cons (f := Prod.snd), mixG_cons, Measure.restrict_add, smul_add, Measure.restrict_smul]
      by_cases h : t.2.real A = 0
      · have h' : t.2 A = 0 := by by_contra h''; exact (real_ne_zero.2 h'') h
        rw [List.filter_cons, if_neg (by simpa using h), ih, Measure.restrict_eq_zero.2 h']; simp
      · rw [List.filter_cons, if_pos (by simpa using h), List.map_cons, List.map_cons, List.map_cons, mixG_cons, ih]
        congr 1
        unfold ProbabilityTheory.cond
        rw [smul_smul, smul_smul]
        congr 1
        have h' : t.2 A ≠ 0 := real_ne_zero.1 h
        rw [ENNReal.ofReal_div_of_pos hpos, ENNReal.ofReal_mul measureReal_nonneg, ofReal_measureReal, div_eq_mul_inv, mul_right_comm, mul_right_comm (t.2 A),
          ENNReal.mul_inv_cancel h' (measure_ne_top _ _), one_mul, mul_comm]
  have h1 : ∀ l : List ℝ, l.sum = T → pnorm l = l.map (fun a => a / T) := by intro l hl; unfold pnorm; rw [hl]
  rw [h1 _ rfl, key ts hw hf]
  unfold ProbabilityTheory.cond
  rw [e1]

end

/-! ## Independent groups of variables -/

/-- All the variables of the groups. -/
def symsOf (l : List (Finset String × Measure Asg)) : Finset String := (l.map Prod.fst).foldr (· ∪ ·) ∅

theorem indep_cons (S : Finset String) (m : Measure Asg) (l : List (Finset String × Measure Asg)) : indep ((S, m) :: l) = (m.prod (indep l)).map (mergeAsg S) := rfl

theorem mergeAsg_assoc (S T : Finset String) (a b d : Asg) : mergeAsg S (a, mergeAsg T (b, d)) = mergeAsg (S ∪ T) (mergeAsg S (a, b), d) := by
  funext s
  simp only [mergeAsg, Finset.mem_union]
  by_cases h1 : s ∈ S <;> by_cases h2 : s ∈ T <;> simp [h1, h2]

theorem mergeAsg_comm {S T : Finset String} (h : Disjoint S T) (a b d : Asg) : mergeAsg S (a, mergeAsg T (b, d)) = mergeAsg T (b, mergeAsg S (a, d)) := by
  funext s
  simp only [mergeAsg]
  by_cases h1 : s ∈ S <;> by_cases h2 : s ∈ T <;> simp [h1, h2]
  exact absurd h2 (Finset.disjoint_left.1 h h1)

theorem indep_append : ∀ (l l' : List (Finset String × Measure Asg)), (∀ q ∈ l, IsProbabilityMeasure q.2) → (∀ q ∈ l', IsProbabilityMeasure q.2) →
    indep (l ++ l') = ((indep l).prod (indep l')).map (mergeAsg (symsOf l))
  | [], l', _, h' => by
    have := indep_prob h'
    have e : mergeAsg (symsOf []) = Prod.snd := by funext p; funext s; simp [mergeAsg, symsOf]
    simp only [List.nil_append, indep, e]
    rw [Measure.map_snd_prod]; simp
  | (S, m) :: l, l', h, h' => by
    have p1 := indep_prob h'
    have hl : ∀ q ∈ l, IsProbabilityMeasure q.2 := fun q hq => h q (by simp [hq])
    have p2 := indep_prob hl
    have p3 : IsProbabilityMeasure m := h (S, m) (by simp)
    rw [List.cons_append, indep_cons, indep_append l l' hl h', indep_cons]
    have e1 : m.prod (((indep l).prod (indep l')).map (mergeAsg (symsOf l))) = (m.prod ((indep l).prod (indep l'))).map (Prod.map id (mergeAsg (symsOf l))) := by
      rw [← Measure.map_prod_map _ _ measurable_id (measurable_mergeAsg _), Measure.map_id]
    have e2 : ((m.prod (indep l)).map (mergeAsg S)).prod (indep l') = ((m.prod (indep l)).prod (indep l')).map (Prod.map (mergeAsg S) id) := by
      rw [← Measure.map_prod_map _ _ (measurable_mergeAsg _) measurable_id, Measure.map_id]
    rw [e1, e2, Measure.map_map (measurable_mergeAsg _) (measurable_id.prodMap (measurable_mergeAsg _)),
      Measure.map_map (measurable_mergeAsg _) ((measurable_mergeAsg _).prodMap measurable_id), ← Measure.prodAssoc_prod,
      Measure.map_map ((measurable_mergeAsg _).comp (measurable_id.prodMap (measurable_mergeAsg _))) MeasurableEquiv.prodAssoc.measurable]
    congr 1
    funext p
    obtain ⟨⟨a, b⟩, d⟩ := p
    simp only [Function.comp, Prod.map, id]
    show mergeAsg S (a, mergeAsg (symsOf l) (b, d)) = _
    rw [mergeAsg_assoc]; rfl

theorem indep_swap {S T : Finset String} (h : Disjoint S T) {m m' : Measure Asg} [IsProbabilityMeasure m] [IsProbabilityMeasure m']
    {l : List (Finset String × Measure Asg)} (hl : ∀ q ∈ l, IsProbabilityMeasure q.2) : indep ((S, m) :: (T, m') :: l) = indep ((T, m') :: (S, m) :: l) := by
  have p := indep_prob hl
  have gen : ∀ (S T : Finset String) (m m' : Measure Asg) [IsProbabilityMeasure m] [IsProbabilityMeasure m'],
      indep ((S, m) :: (T, m') :: l) = (m.prod (m'.prod (indep l))).map (fun q => mergeAsg S (q.1, mergeAsg T (q.2.1, q.2.2))) := by
    intro S T m m' _ _
    rw [indep_cons, indep_cons]
    have e1 : m.prod ((m'.prod (indep l)).map (mergeAsg T)) = (m.prod (m'.prod (indep l))).map (Prod.map id (mergeAsg T)) := by
      rw [← Measure.map_prod_map _ _ measurable_id (measurable_mergeAsg _), Measure.map_id]
    rw [e1, Measure.map_map (measurable_mergeAsg _) (measurable_id.prodMap (measurable_mergeAsg _))]
    rfl
  rw [gen S T m m', gen T S m' m]
  have e : (m'.prod (m.prod (indep l))) = (m.prod (m'.prod (indep l))).map (fun q => (q.2.1, (q.1, q.2.2))) := by
    have e1 : ((m'.prod m).prod (indep l)) = ((m.prod m').prod (indep l)).map (Prod.map Prod.swap id) := by
      rw [← Measure.map_prod_map _ _ measurable_swap measurable_id, Measure.map_id, Measure.prod_swap]
    rw [← Measure.prodAssoc_prod, e1, ← Measure.prodAssoc_prod, Measure.map_map MeasurableEquiv.prodAssoc.measurable (measurable_swap.prodMap measurable_id),
      Measure.map_map (by fun_prop) MeasurableEquiv.prodAssoc.measurable]
    rfl
  have hm : ∀ S T : Finset String, Measurable (fun q : Asg × Asg × Asg => mergeAsg S (q.1, mergeAsg T (q.2.1, q.2.2))) := by
    intro S T
    exact (measurable_mergeAsg S).comp (measurable_fst.prodMk ((measurable_mergeAsg T).comp measurable_snd))
  rw [e, Measure.map_map (hm _ _) (by fun_prop)]
  congr 1
  funext q
  exact mergeAsg_comm h _ _ _

/-- The order of the groups does not matter. -/
theorem indep_perm {l l' : List (Finset String × Measure Asg)} (h : l.Perm l') (hp : ∀ q ∈ l, IsProbabilityMeasure q.2) (hd : (l.map Prod.fst).Pairwise Disjoint) :
    indep l = indep l' := by
  induction h with
  | nil => rfl
  | cons q _ ih =>
    obtain ⟨S, m⟩ := q
    rw [indep_cons, indep_cons, ih (fun q hq => hp q (by simp [hq])) (List.pairwise_cons.1 hd).2]
  | swap q r l =>
    obtain ⟨S, m⟩ := q
    obtain ⟨T, m'⟩ := r
    have h1 : IsProbabilityMeasure m := hp (S, m) (by simp)
    have h2 : IsProbabilityMeasure m' := hp (T, m') (by simp)
    refine indep_swap ?_ (fun q hq => hp q (by simp [hq]))
    have := (List.pairwise_cons.1 hd).1
    exact this S (by simp)
  | trans h1 h2 ih1 ih2 =>
    rw [ih1 hp hd]
    refine ih2 (fun q hq => hp q (h1.mem_iff.2 hq)) ?_
    exact (List.Perm.pairwise_iff (fun {a b} h => h.symm) (h1.map Prod.fst)).1 hd

/-- Conditioning each group separately. -/
theorem indep_cond : ∀ {l : List (Finset String × Measure Asg)} {Bs : List (Set Asg)}, (∀ q ∈ l, IsProbabilityMeasure q.2) →
    (l.map Prod.fst).Pairwise Disjoint → List.Forall₂ (fun q B => MeasurableSet B ∧ DepOn q.1 B ∧ q.2 B ≠ 0) l Bs →
    (indep l)[|{ω | ∀ B ∈ Bs, ω ∈ B}] = indep (List.zipWith (fun q B => (q.1, q.2[|B])) l Bs)
  | [], _, _, _, .nil => by
    have := indep_prob (l := []) (by simp)
    simp only [List.not_mem_nil, false_implies, implies_true, List.zipWith_nil_left]
    exact cond_univ' (indep [])
  | (S, m) :: l, B :: Bs, hp, hd, .cons hB hBs => by
    have hl : ∀ q ∈ l, IsProbabilityMeasure q.2 := fun q hq => hp q (by simp [hq])
    have p1 := indep_prob hl
    have p2 : IsProbabilityMeasure m := hp (S, m) (by simp)
    rw [List.map_cons, List.pairwise_cons] at hd
    have ih := indep_cond hl hd.2 hBs
    rw [List.zipWith_cons_cons, indep_cons S m, indep_cons S (m[|B]), ← ih]
    have hmB : ∀ C ∈ Bs, MeasurableSet C := fun C hC => (forall₂_mem_right hBs hC).choose_spec.2.1
    have hm : MeasurableSet {ω | ∀ B ∈ Bs, ω ∈ B} := measurable_all hmB
    have hset : MeasurableSet {ω | ∀ C ∈ B :: Bs, ω ∈ C} := measurable_all (by
      intro C hC; rcases List.mem_cons.1 hC with rfl | hC
      · exact hB.1
      · exact hmB C hC)
    rw [cond_map (measurable_mergeAsg S) _ hset]
    have e : mergeAsg S ⁻¹' {ω | ∀ C ∈ B :: Bs, ω ∈ C} = B ×ˢ {ω | ∀ C ∈ Bs, ω ∈ C} := by
      ext p
      simp only [Set.mem_preimage, Set.mem_setOf_eq, List.forall_mem_cons, Set.mem_prod]
      refine and_congr ?_ ?_
      · exact hB.2.1 _ _ (fun s hs => by simp only [mergeAsg, if_pos hs])
      · refine forall₂_congr (fun C hC => ?_)
        obtain ⟨q, hq, hC'⟩ := forall₂_mem_right hBs hC
        refine hC'.2.1 _ _ (fun s hs => ?_)
        have : s ∉ S := fun h => Finset.disjoint_left.1 (hd.1 q.1 (List.mem_map.2 ⟨q, hq, rfl⟩)) h hs
        simp only [mergeAsg, if_neg this]
    rw [e]
    congr 1
    have p3 : IsProbabilityMeasure (m[|B]) := ProbabilityTheory.cond_isProbabilityMeasure hB.2.2
    have p4 : IsProbabilityMeasure ((indep l)[|{ω | ∀ C ∈ Bs, ω ∈ C}]) := by
      rw [ih]
      refine indep_prob ?_
      clear ih hm e hset hmB p1 p3 hd hp
      induction hBs with
      | nil => simp
      | @cons q B' l Bs h1 h2 ih =>
        intro r hr
        rcases List.mem_cons.1 hr with rfl | hr
        · have := hl q (by simp)
          exact ProbabilityTheory.cond_isProbabilityMeasure h1.2.2
        · exact ih (fun q hq => hl q (by simp [hq])) r hr
    symm
    refine Measure.prod_eq (fun s t hs ht => ?_)
    rw [ProbabilityTheory.cond_apply (hB.1.prod hm), ProbabilityTheory.cond_apply hB.1, ProbabilityTheory.cond_apply hm, Set.prod_inter_prod,
      Measure.prod_prod, Measure.prod_prod, ENNReal.mul_inv (.inl hB.2.2) (.inl (measure_ne_top _ _))]
    ring

end Sppl
