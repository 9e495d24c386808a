import Verif.Comp.RenderTop
import Verif.Comp.SemLemmas
import Mathlib.MeasureTheory.Measure.GiryMonad

set_option linter.all false

/-!
# Lemmas on `render_sppl`: what the commands mean
-/

namespace Sppl
open Classical MeasureTheory
open scoped ENNReal ProbabilityTheory

/-! ## Measures -/

section
variable {α β γ : Type} [MeasurableSpace α] [MeasurableSpace β] [MeasurableSpace γ]

theorem bind_add_left {m m' : Measure α} {κ : α → Measure β} (hκ : Measurable κ) : (m + m').bind κ = m.bind κ + m'.bind κ := by
  ext A hA
  rw [Measure.bind_apply hA hκ.aemeasurable, Measure.add_apply, Measure.bind_apply hA hκ.aemeasurable, Measure.bind_apply hA hκ.aemeasurable, lintegral_add_measure]

theorem bind_map_left {m : Measure α} {f : α → β} (hf : Measurable f) {κ : β → Measure γ} (hκ : Measurable κ) : (m.map f).bind κ = m.bind (fun x => κ (f x)) := by
  ext A hA
  have h2 : Measurable (fun x => κ (f x)) := hκ.comp hf
  rw [Measure.bind_apply hA hκ.aemeasurable, Measure.bind_apply hA h2.aemeasurable]
  exact lintegral_map (Measure.measurable_coe hA |>.comp hκ) hf

theorem measurable_map_right {m' : Measure β} [SFinite m'] {f : α × β → γ} (hf : Measurable f) : Measurable (fun x => m'.map (fun y => f (x, y))) := by
  have h1 : Measurable (fun x : α => m'.map (Prod.mk x) ) := Measurable.map_prodMk_left
  have h2 := (Measure.measurable_map f hf).comp h1
  convert h2 using 2 with x
  simp only [Function.comp]
  rw [Measure.map_map hf measurable_prodMk_left]
  rfl

theorem map_prod_bind {m : Measure α} {m' : Measure β} [SFinite m'] {f : α × β → γ} (hf : Measurable f) : (m.prod m').map f = m.bind (fun x => m'.map (fun y => f (x, y))) := by
  ext A hA
  rw [Measure.map_apply hf hA, Measure.prod_apply (hf hA), Measure.bind_apply hA (measurable_map_right hf).aemeasurable]
  refine lintegral_congr (fun x => ?_)
  have h2 : Measurable (fun y => f (x, y)) := hf.comp measurable_prodMk_left
  rw [Measure.map_apply h2 hA]
  rfl

theorem cond_bind {m : Measure α} [IsFiniteMeasure m] {A : Set α} {κ : α → Measure β} : m A • (m[|A]).bind κ = (m.restrict A).bind κ := by
  by_cases h : m A = 0
  · rw [h, zero_smul, Measure.restrict_eq_zero.2 h, Measure.bind_zero_left]
  · unfold ProbabilityTheory.cond
    rw [Measure.bind_smul, smul_smul, ENNReal.mul_inv_cancel h (measure_ne_top _ _), one_smul]

end

/-! ## The values of the branch variables -/

/-- The branch variables have values that choose a branch. -/
def Valid : ℕ → List (List ℝ) → Asg → Prop
  | _, [], _ => True
  | k, ws :: W, ω => (∃ i < ws.length, ω (branchVar k) = some (.str (toString i))) ∧ Valid (k + 1) W ω

/-- They have these values. -/
def Det : ℕ → List ℕ → Asg → Prop
  | _, [], _ => True
  | k, i :: l, ω => ω (branchVar k) = some (.str (toString i)) ∧ Det (k + 1) l ω

/-- Numbers of branches. -/
def Index (l : List ℕ) (W : List (List ℝ)) : Prop := List.Forall₂ (fun i ws => i < ws.length) l W

theorem valid_append {k : ℕ} {W V : List (List ℝ)} {ω : Asg} : Valid k (W ++ V) ω ↔ Valid k W ω ∧ Valid (k + W.length) V ω := by
  induction W generalizing k with
  | nil => simp [Valid]
  | cons ws W ih => simp only [List.cons_append, Valid, ih, List.length_cons, and_assoc, show k + 1 + W.length = k + (W.length + 1) by omega]

theorem det_append {k : ℕ} {l l' : List ℕ} {ω : Asg} : Det k (l ++ l') ω ↔ Det k l ω ∧ Det (k + l.length) l' ω := by
  induction l generalizing k with
  | nil => simp [Det]
  | cons i l ih => simp only [List.cons_append, Det, ih, List.length_cons, and_assoc, show k + 1 + l.length = k + (l.length + 1) by omega]

theorem valid_det {k : ℕ} {W : List (List ℝ)} {ω : Asg} (h : Valid k W ω) : ∃ l, Index l W ∧ Det k l ω := by
  induction W generalizing k with
  | nil => exact ⟨[], .nil, trivial⟩
  | cons ws W ih =>
    obtain ⟨⟨i, hi, e⟩, h2⟩ := h
    obtain ⟨l, h3, h4⟩ := ih h2
    exact ⟨i :: l, .cons hi h3, e, h4⟩

theorem det_valid {k : ℕ} {W : List (List ℝ)} {l : List ℕ} {ω : Asg} (hl : Index l W) (h : Det k l ω) : Valid k W ω := by
  induction hl generalizing k with
  | nil => trivial
  | cons hi _ ih => exact ⟨⟨_, hi, h.1⟩, ih h.2⟩

theorem index_append {l : List ℕ} {W V : List (List ℝ)} (h : Index l (W ++ V)) : Index (l.take W.length) W ∧ Index (l.drop W.length) V :=
  ⟨List.forall₂_take_append _ _ _ h, List.forall₂_drop_append _ _ _ h⟩

theorem det_take {k : ℕ} {l : List ℕ} {W V : List (List ℝ)} {ω : Asg} (hi : Index l (W ++ V)) (h : Det k l ω) : Det k (l.take W.length) ω ∧ Det (k + W.length) (l.drop W.length) ω := by
  rw [← List.take_append_drop W.length l, det_append] at h
  have hlen : (l.take W.length).length = W.length := (index_append hi).1.length_eq
  rw [hlen] at h
  exact h

theorem measurable_branch (b : String) (p : String → Prop) : MeasurableSet {ω : Asg | ∃ x, ω b = some (.str x) ∧ p x} :=
  measurableSet_strs p |>.preimage (measurable_pi_apply b)

theorem measurable_valid (k : ℕ) (W : List (List ℝ)) : MeasurableSet {ω : Asg | Valid k W ω} := by
  induction W generalizing k with
  | nil => simp [Valid]
  | cons ws W ih =>
    have h1 := measurable_branch (branchVar k) (fun x => ∃ i < ws.length, x = toString i)
    have : {ω : Asg | Valid k (ws :: W) ω} = {ω : Asg | ∃ x, ω (branchVar k) = some (.str x) ∧ ∃ i < ws.length, x = toString i} ∩ {ω : Asg | Valid (k + 1) W ω} := by
      ext ω
      simp only [Valid, Set.mem_inter_iff, Set.mem_ofPred_eq]
      refine and_congr_left (fun _ => ?_)
      constructor
      · rintro ⟨i, hi, e⟩; exact ⟨_, e, i, hi, rfl⟩
      · rintro ⟨x, e, i, hi, rfl⟩; exact ⟨i, hi, e⟩
    rw [this]
    exact h1.inter (ih _)

theorem valid_merge {S : Finset String} (hS : ∀ n, branchVar n ∉ S) {k : ℕ} {W : List (List ℝ)} {η ω : Asg} : Valid k W (mergeAsg S (η, ω)) ↔ Valid k W ω := by
  induction W generalizing k with
  | nil => simp [Valid]
  | cons ws W ih => simp only [Valid, ih]; simp [mergeAsg, hS]

theorem det_merge {S : Finset String} (hS : ∀ n, branchVar n ∉ S) {k : ℕ} {l : List ℕ} {η ω : Asg} : Det k l (mergeAsg S (η, ω)) ↔ Det k l ω := by
  induction l generalizing k with
  | nil => simp [Det]
  | cons i l ih => simp only [Det, ih]; simp [mergeAsg, hS]

mutual
/-- The distribution of an SPE when the branches are chosen. -/
noncomputable def Spe.given (μ : Dist → Measure ℝ) : Spe → List ℕ → Measure Asg
  | .nominal X dist, _ => (Spe.nominal X dist).den μ
  | .real k X d supp cond env, _ => (Spe.real k X d supp cond env).den μ
  | .atomic X v env, _ => (Spe.atomic X v env).den μ
  | .prod cs, l => indep ((Spe.symbolsL cs).zip (Spe.givenL μ cs l))
  | .sum [] _, _ => 0
  | .sum [s] _, l => s.given μ l
  | .sum (s :: t :: cs) _, [] => 0
  | .sum (s :: t :: cs) _, i :: l => (s.given μ (l.take s.wss.length) :: Spe.givenL μ (t :: cs) (l.drop s.wss.length)).getD i 0
/-- See `Spe.given`. -/
noncomputable def Spe.givenL (μ : Dist → Measure ℝ) : List Spe → List ℕ → List (Measure Asg)
  | [], _ => []
  | s :: ss, l => s.given μ (l.take s.wss.length) :: Spe.givenL μ ss (l.drop s.wss.length)
end

/-! ## The meaning of commands by kernels -/

section
variable {c : Ctx} {L : Lib} {μ : Dist → Measure ℝ}

/-- One command after the other. -/
noncomputable def semS (μ : Dist → Measure ℝ) : List Cmd → Measure Asg → Measure Asg
  | [], m => m
  | p :: ps, m => semS μ ps (p.sem μ m)

theorem sem_seq (ps : List Cmd) (m : Measure Asg) : (Cmd.seq ps).sem μ m = semS μ ps m := by
  rw [Cmd.sem]
  induction ps generalizing m with
  | nil => rfl
  | cons p ps ih => simp only [Cmd.semL, List.foldl_cons, semS]; exact ih _

theorem sem_block (ps : List Cmd) (m : Measure Asg) : (block ps).sem μ m = semS μ ps m := by
  unfold block
  split
  · rfl
  · exact sem_seq ps m

theorem safe_block (ps : List Cmd) (m : Measure Asg) : (block ps).Safe c L μ m ↔ Cmd.SafeS c L μ ps m := by
  unfold block
  split
  · simp [Cmd.SafeS]
  · rw [Cmd.Safe]

theorem semS_append (ps qs : List Cmd) (m : Measure Asg) : semS μ (ps ++ qs) m = semS μ qs (semS μ ps m) := by
  induction ps generalizing m with
  | nil => rfl
  | cons p ps ih => exact ih _

theorem safeS_append (ps qs : List Cmd) (m : Measure Asg) : Cmd.SafeS c L μ (ps ++ qs) m ↔ Cmd.SafeS c L μ ps m ∧ Cmd.SafeS c L μ qs (semS μ ps m) := by
  induction ps generalizing m with
  | nil => simp [Cmd.SafeS, semS]
  | cons p ps ih => simp only [List.cons_append, Cmd.SafeS, semS, ih, and_assoc]

/-- The commands can be run, and give each assignment, independently, the variables in `S`, with the distribution `g` that its branch variables say. -/
structure Acts (c : Ctx) (L : Lib) (μ : Dist → Measure ℝ) (k : ℕ) (W : List (List ℝ)) (S : Finset String) (ps : List Cmd) (g : List ℕ → Measure Asg) : Prop where
  prob : ∀ l, Index l W → IsProbabilityMeasure (g l)
  kernel : ∃ κ : Asg → Measure Asg, Measurable κ ∧ (∀ l ω, Index l W → Det k l ω → κ ω = (g l).map (fun η => mergeAsg S (η, ω))) ∧
    ∀ m : Measure Asg, IsProbabilityMeasure m → (∀ᵐ ω ∂m, Valid k W ω) → Cmd.SafeS c L μ ps m ∧ semS μ ps m = m.bind κ

theorem measurable_merge_left (S : Finset String) (ω : Asg) : Measurable (fun η : Asg => mergeAsg S (η, ω)) := (measurable_mergeAsg S).comp measurable_prodMk_right

/-- What such a kernel keeps. -/
theorem kernel_keep {k : ℕ} {W : List (List ℝ)} {S : Finset String} {g : List ℕ → Measure Asg} (hg : ∀ l, Index l W → IsProbabilityMeasure (g l)) {κ : Asg → Measure Asg} (hκ : Measurable κ)
    (hk : ∀ l ω, Index l W → Det k l ω → κ ω = (g l).map (fun η => mergeAsg S (η, ω))) {m : Measure Asg} [IsProbabilityMeasure m] (hv : ∀ᵐ ω ∂m, Valid k W ω) :
    IsProbabilityMeasure (m.bind κ) ∧ ∀ p : Asg → Prop, MeasurableSet {ω | p ω} → (∀ η ω, p (mergeAsg S (η, ω)) ↔ p ω) → (∀ᵐ ω ∂m, p ω) → ∀ᵐ ω ∂(m.bind κ), p ω := by
  constructor
  · constructor
    rw [Measure.bind_apply .univ hκ.aemeasurable]
    have : ∀ᵐ ω ∂m, κ ω Set.univ = 1 := by
      filter_upwards [hv] with ω hω
      obtain ⟨l, h1, h2⟩ := valid_det hω
      have := hg l h1
      rw [hk l ω h1 h2, Measure.map_apply (measurable_merge_left S ω) .univ]
      simp
    rw [lintegral_congr_ae this]
    simp
  · intro p hp hS hm
    rw [ae_iff]
    have hA : MeasurableSet {ω | ¬ p ω} := hp.compl
    rw [Measure.bind_apply hA hκ.aemeasurable]
    have : ∀ᵐ ω ∂m, κ ω {ω | ¬ p ω} = 0 := by
      filter_upwards [hv, hm] with ω hω hpω
      obtain ⟨l, h1, h2⟩ := valid_det hω
      rw [hk l ω h1 h2, Measure.map_apply (measurable_merge_left S ω) hA]
      have : (fun η => mergeAsg S (η, ω)) ⁻¹' {ω | ¬ p ω} = ∅ := by
        ext η; simp [hS, hpω]
      rw [this, measure_empty]
    rw [lintegral_congr_ae this]
    simp

theorem merge_merge {S T : Finset String} (hd : Disjoint S T) (η₁ η₂ ω : Asg) : mergeAsg T (η₂, mergeAsg S (η₁, ω)) = mergeAsg (S ∪ T) (mergeAsg S (η₁, η₂), ω) := by
  funext x
  simp only [mergeAsg, Finset.mem_union]
  by_cases h1 : x ∈ S
  · have h2 : x ∉ T := fun h => Finset.disjoint_left.1 hd h1 h
    simp [h1, h2]
  · by_cases h2 : x ∈ T <;> simp [h1, h2]

theorem acts_nil {k : ℕ} : Acts c L μ k [] ∅ [] (fun _ => indep []) := by
  refine ⟨fun l _ => by simp only [indep]; infer_instance, fun ω => Measure.dirac ω, Measure.measurable_dirac, ?_, ?_⟩
  · intro l ω _ _
    simp only [indep]
    rw [Measure.map_dirac' (measurable_merge_left ∅ ω)]
    congr 1
  · intro m _ _
    exact ⟨trivial, by rw [Measure.bind_dirac]; rfl⟩

theorem acts_append {k : ℕ} {W V : List (List ℝ)} {S T : Finset String} {ps qs : List Cmd} {g h : List ℕ → Measure Asg} (hS : ∀ n, branchVar n ∉ S) (hd : Disjoint S T)
    (h1 : Acts c L μ k W S ps g) (h2 : Acts c L μ (k + W.length) V T qs h) :
    Acts c L μ k (W ++ V) (S ∪ T) (ps ++ qs) (fun l => ((g (l.take W.length)).prod (h (l.drop W.length))).map (mergeAsg S)) := by
  obtain ⟨p1, κ1, m1, e1, s1⟩ := h1
  obtain ⟨p2, κ2, m2, e2, s2⟩ := h2
  refine ⟨?_, fun ω => (κ1 ω).bind κ2, (Measure.measurable_bind' m2).comp m1, ?_, ?_⟩
  · intro l hl
    have := p1 _ (index_append hl).1
    have := p2 _ (index_append hl).2
    exact Measure.isProbabilityMeasure_map (measurable_mergeAsg S).aemeasurable
  · intro l ω hl hdet
    obtain ⟨i1, i2⟩ := index_append hl
    obtain ⟨d1, d2⟩ := det_take hl hdet
    have := p1 _ i1
    have := p2 _ i2
    simp only
    rw [e1 _ ω i1 d1, bind_map_left (measurable_merge_left S ω) m2, Measure.map_map (measurable_merge_left _ ω) (measurable_mergeAsg S),
      map_prod_bind ((measurable_merge_left _ ω).comp (measurable_mergeAsg S))]
    congr 1
    funext η
    rw [e2 _ _ i2 ((det_merge hS).2 d2)]
    congr 1
    funext η'
    exact merge_merge hd η η' ω
  · intro m hm hv
    have hv1 : ∀ᵐ ω ∂m, Valid k W ω := by filter_upwards [hv] with ω h using (valid_append.1 h).1
    have hv2 : ∀ᵐ ω ∂m, Valid (k + W.length) V ω := by filter_upwards [hv] with ω h using (valid_append.1 h).2
    obtain ⟨a1, a2⟩ := s1 m hm hv1
    obtain ⟨b1, b2⟩ := kernel_keep p1 m1 e1 hv1
    have b3 := b2 (fun ω => Valid (k + W.length) V ω) (measurable_valid _ _) (fun η ω => valid_merge hS) hv2
    obtain ⟨c1, c2⟩ := s2 _ b1 b3
    rw [safeS_append, semS_append, a2]
    exact ⟨⟨a1, c1⟩, by rw [c2, Measure.bind_bind m1.aemeasurable m2.aemeasurable]⟩

end

end Sppl
