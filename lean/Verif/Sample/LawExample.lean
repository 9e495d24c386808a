import Verif.Sample.LawProps
import Mathlib.Probability.ProductMeasure
import Mathlib.Probability.CDF

set_option linter.all false

/-!
# C35: generators with the assumed laws exist (non-vacuity)
-/

namespace Sppl
open Classical MeasureTheory
open scoped ENNReal ProbabilityTheory

/-! ## Quantiles -/

/-- The quantile function of a distribution. -/
noncomputable def quantile (m : Measure ℝ) (q : ℝ) : ℝ := if 0 < q ∧ q < 1 then sInf {x | q ≤ m.real (Set.Iic x)} else 0

theorem quantile_le {m : Measure ℝ} [IsProbabilityMeasure m] {q : ℝ} (h0 : 0 < q) (h1 : q < 1) (x : ℝ) : quantile m q ≤ x ↔ q ≤ m.real (Set.Iic x) := by
  have hF : ∀ x, m.real (Set.Iic x) = ProbabilityTheory.cdf m x := fun x => (ProbabilityTheory.cdf_eq_real m x).symm
  have hmono := ProbabilityTheory.monotone_cdf m
  unfold quantile
  rw [if_pos ⟨h0, h1⟩]
  simp only [hF]
  have hne : {x | q ≤ ProbabilityTheory.cdf m x}.Nonempty := by
    obtain ⟨x, hx⟩ := ((ProbabilityTheory.tendsto_cdf_atTop m).eventually (lt_mem_nhds h1)).exists
    exact ⟨x, le_of_lt hx⟩
  have hbd : BddBelow {x | q ≤ ProbabilityTheory.cdf m x} := by
    obtain ⟨x, hx⟩ := ((ProbabilityTheory.tendsto_cdf_atBot m).eventually (gt_mem_nhds h0)).exists
    refine ⟨x, fun y hy => ?_⟩
    by_contra hc
    exact absurd (hmono (not_le.1 hc).le) (not_le.2 (lt_of_lt_of_le hx hy))
  constructor
  · intro h
    have hev : ∀ y, x < y → q ≤ ProbabilityTheory.cdf m y := by
      intro y hy
      obtain ⟨z, hz, hzy⟩ := (csInf_lt_iff hbd hne).1 (lt_of_le_of_lt h hy)
      exact le_trans hz (hmono hzy.le)
    have hr : Filter.Tendsto (ProbabilityTheory.cdf m) (nhdsWithin x (Set.Ioi x)) (nhds (ProbabilityTheory.cdf m x)) :=
      ((ProbabilityTheory.cdf m).right_continuous x).mono_left (nhdsWithin_mono x Set.Ioi_subset_Ici_self)
    refine ge_of_tendsto hr ?_
    filter_upwards [self_mem_nhdsWithin] with y hy using hev y hy
  · intro h
    exact csInf_le hbd h

theorem measurable_quantile {m : Measure ℝ} [IsProbabilityMeasure m] : Measurable (quantile m) := by
  refine measurable_of_Iic (fun x => ?_)
  have : quantile m ⁻¹' Set.Iic x = (Set.Ioo 0 1 ∩ Set.Iic (m.real (Set.Iic x))) ∪ ((Set.Ioo 0 1)ᶜ ∩ {_q | 0 ≤ x}) := by
    ext q
    simp only [Set.mem_preimage, Set.mem_Iic, Set.mem_union, Set.mem_inter_iff, Set.mem_Ioo, Set.mem_compl_iff, Set.mem_setOf_eq]
    by_cases h : 0 < q ∧ q < 1
    · rw [quantile_le h.1 h.2]; simp [h]
    · simp [quantile, h]
  rw [this]
  exact (measurableSet_Ioo.inter measurableSet_Iic).union (measurableSet_Ioo.compl.inter (MeasurableSet.const _))

/-! ## Infinitely many independent draws of everything -/

theorem infinitePi_reindex {I J : Type} {X : I → Type} [∀ i, MeasurableSpace (X i)] (m : ∀ i, Measure (X i)) [∀ i, IsProbabilityMeasure (m i)] {σ : J → I}
    (hσ : Function.Injective σ) : (Measure.infinitePi m).map (fun t j => t (σ j)) = Measure.infinitePi (fun j => m (σ j)) := by
  refine Measure.eq_infinitePi _ (fun s T hT => ?_)
  have hme : Measurable (fun (t : ∀ i, X i) j => t (σ j)) := measurable_pi_iff.2 fun j => measurable_pi_apply (σ j)
  rw [Measure.map_apply hme (MeasurableSet.pi s.countable_toSet (fun i _ => hT i))]
  let T' : ∀ i, Set (X i) := fun i => {x | ∀ j (h : i = σ j), (h ▸ x : X (σ j)) ∈ T j}
  have hT' : ∀ j, T' (σ j) = T j := by
    intro j
    ext x
    constructor
    · intro h; exact h j rfl
    · intro h j' hj
      have := hσ hj
      subst this
      exact h
  have e : (fun (t : ∀ i, X i) j => t (σ j)) ⁻¹' (s : Set J).pi T = ((s.image σ : Finset I) : Set I).pi T' := by
    ext t
    simp only [Set.mem_preimage, Set.mem_pi, Finset.coe_image, Set.mem_image, Finset.mem_coe, forall_exists_index, and_imp, forall_apply_eq_imp_iff₂, hT']
  rw [e, Measure.infinitePi_pi, Finset.prod_image (fun a _ b _ h => hσ h)]
  · refine Finset.prod_congr rfl (fun j _ => ?_)
    rw [hT']
  · intro i hi
    obtain ⟨j, -, rfl⟩ := Finset.mem_image.1 hi
    rw [hT']; exact hT j

/-- What can be asked of the generator. -/
inductive Req
  | uniform (N : ℕ)
  | choice (p : List ℝ) (N : ℕ)
  | shuffle (n : ℕ)
  | rvs (d : Dist) (N : ℕ)

/-- What it answers. -/
def Req.Out : Req → Type
  | .uniform N => Fin N → ℝ
  | .choice _ N => Fin N → ℕ
  | .shuffle n => Equiv.Perm (Fin n)
  | .rvs _ N => Fin N → ℝ

instance Req.instMeasurableSpace : ∀ q : Req, MeasurableSpace q.Out
  | .uniform N => (inferInstance : MeasurableSpace (Fin N → ℝ))
  | .choice _ N => (inferInstance : MeasurableSpace (Fin N → ℕ))
  | .shuffle n => (inferInstance : MeasurableSpace (Equiv.Perm (Fin n)))
  | .rvs _ N => (inferInstance : MeasurableSpace (Fin N → ℝ))

/-- The law of the answers. -/
noncomputable def Req.law (L : Lib) (μ : Dist → Measure ℝ) : ∀ q : Req, Measure q.Out
  | .uniform N => (Measure.pi fun _ : Fin N => volume.restrict (Set.Ico (0 : ℝ) 1))
  | .choice p N => (Measure.pi fun _ : Fin N => if (∀ w ∈ p, 0 ≤ w) ∧ p.sum = 1 then pickLaw p else Measure.dirac 0)
  | .shuffle n => ((n.factorial : ℝ≥0∞)⁻¹ • Measure.count : Measure (Equiv.Perm (Fin n)))
  | .rvs d N => (Measure.pi fun _ : Fin N => if ∃ k, DistOK L μ k d then μ d else Measure.dirac 0)

instance Req.law_prob (L : Lib) (μ : Dist → Measure ℝ) : ∀ q : Req, IsProbabilityMeasure (q.law L μ)
  | .uniform N => by
    have : IsProbabilityMeasure (volume.restrict (Set.Ico (0 : ℝ) 1)) := ⟨by simp⟩
    exact (inferInstance : IsProbabilityMeasure (Measure.pi fun _ : Fin N => volume.restrict (Set.Ico (0 : ℝ) 1)))
  | .choice p N => by
    have : IsProbabilityMeasure (if (∀ w ∈ p, 0 ≤ w) ∧ p.sum = 1 then pickLaw p else Measure.dirac 0) := by
      split
      · rename_i h; exact pickLaw_prob h.1 h.2
      · infer_instance
    exact (inferInstance : IsProbabilityMeasure (Measure.pi fun _ : Fin N => if (∀ w ∈ p, 0 ≤ w) ∧ p.sum = 1 then pickLaw p else Measure.dirac 0))
  | .shuffle n => shuffle_prob n
  | .rvs d N => by
    have : IsProbabilityMeasure (if ∃ k, DistOK L μ k d then μ d else Measure.dirac 0) := by
      split
      · rename_i h; obtain ⟨k, h⟩ := h; exact h.prob
      · infer_instance
    exact (inferInstance : IsProbabilityMeasure (Measure.pi fun _ : Fin N => if ∃ k, DistOK L μ k d then μ d else Measure.dirac 0))

/-- The state: an answer to every request at every step. -/
abbrev Tape := (i : ℕ × Req) → i.2.Out

/-- Independent answers. -/
noncomputable def tapeLaw (L : Lib) (μ : Dist → Measure ℝ) : Measure Tape := Measure.infinitePi (fun i : ℕ × Req => i.2.law L μ)

/-- Read the answer and move to the next step. -/
def tapeDraw (q : Req) (t : Tape) : q.Out × Tape := (t (0, q), fun i => t (i.1 + 1, i.2))

/-- The positions of the answer and of the rest of the tape. -/
def tapePos (q : Req) : Option (ℕ × Req) → ℕ × Req
  | none => (0, q)
  | some i => (i.1 + 1, i.2)

theorem tapePos_inj (q : Req) : Function.Injective (tapePos q) := by
  rintro (_ | ⟨a, b⟩) (_ | ⟨a', b'⟩) h <;> simp_all [tapePos]

/-- A first component and the rest, as a family. -/
def consPi {I : Type} {Y : Option I → Type} (p : Y none × ((i : I) → Y (some i))) : (o : Option I) → Y o
  | none => p.1
  | some i => p.2 i

/-- Its inverse. -/
def unconsPi {I : Type} {Y : Option I → Type} (t : (o : Option I) → Y o) : Y none × ((i : I) → Y (some i)) := (t none, fun i => t (some i))

theorem measurable_consPi {I : Type} {Y : Option I → Type} [∀ o, MeasurableSpace (Y o)] : Measurable (consPi (Y := Y)) := by
  refine measurable_pi_iff.2 fun o => ?_
  cases o with
  | none => exact measurable_fst
  | some i => exact (measurable_pi_apply i).comp measurable_snd

theorem measurable_unconsPi {I : Type} {Y : Option I → Type} [∀ o, MeasurableSpace (Y o)] : Measurable (unconsPi (Y := Y)) :=
  (measurable_pi_apply none).prodMk (measurable_pi_iff.2 fun i => measurable_pi_apply (some i))

theorem consPi_law {I : Type} {Y : Option I → Type} [∀ o, MeasurableSpace (Y o)] (m : ∀ o, Measure (Y o)) [∀ o, IsProbabilityMeasure (m o)] :
    ((m none).prod (Measure.infinitePi fun i => m (some i))).map consPi = Measure.infinitePi m := by
  refine Measure.eq_infinitePi _ (fun s T hT => ?_)
  rw [Measure.map_apply measurable_consPi (MeasurableSet.pi s.countable_toSet (fun i _ => hT i))]
  have e : consPi ⁻¹' (s : Set (Option I)).pi T = (if none ∈ s then T none else Set.univ) ×ˢ ((s.eraseNone : Finset I) : Set I).pi (fun i => T (some i)) := by
    ext p
    simp only [Set.mem_preimage, Set.mem_pi, Set.mem_prod, Finset.mem_coe, Finset.mem_eraseNone]
    constructor
    · intro h
      refine ⟨?_, fun i hi => h _ hi⟩
      split
      · rename_i hn; exact h none hn
      · trivial
    · rintro ⟨h1, h2⟩ (_ | i) hi
      · rw [if_pos hi] at h1; exact h1
      · exact h2 i hi
  rw [e, Measure.prod_prod, Measure.infinitePi_pi _ (fun i _ => hT (some i))]
  by_cases hn : none ∈ s
  · rw [if_pos hn]
    have hs : s = insert none (s.eraseNone.map Function.Embedding.some) := by
      ext o; cases o <;> simp [hn]
    conv_rhs => rw [hs, Finset.prod_insert (by simp), Finset.prod_map]
    rfl
  · rw [if_neg hn, measure_univ, one_mul]
    have hs : s = s.eraseNone.map Function.Embedding.some := by
      ext o; cases o <;> simp [hn]
    conv_rhs => rw [hs, Finset.prod_map]
    rfl

theorem infinitePi_uncons {I K : Type} {X : K → Type} [∀ i, MeasurableSpace (X i)] (m : ∀ i, Measure (X i)) [∀ i, IsProbabilityMeasure (m i)] {σ : Option I → K}
    (hσ : Function.Injective σ) : (Measure.infinitePi m).map (fun t => (t (σ none), fun i => t (σ (some i)))) = (m (σ none)).prod (Measure.infinitePi fun i => m (σ (some i))) := by
  have h1 := infinitePi_reindex m hσ
  have h2 := consPi_law (fun o => m (σ o))
  have h3 : (Measure.infinitePi m).map (fun t => (t (σ none), fun i => t (σ (some i)))) = ((Measure.infinitePi m).map (fun t o => t (σ o))).map (unconsPi (Y := fun o => X (σ o))) := by
    rw [Measure.map_map measurable_unconsPi (measurable_pi_iff.2 fun j => measurable_pi_apply _)]
    rfl
  rw [h3, h1, ← h2, Measure.map_map measurable_unconsPi measurable_consPi]
  exact Measure.map_id

theorem tapeDraw_draws (L : Lib) (μ : Dist → Measure ℝ) (q : Req) : Draws (tapeLaw L μ) (tapeDraw q) (q.law L μ) := by
  have hme : Measurable (tapeDraw q) := (measurable_pi_apply (0, q)).prodMk (measurable_pi_iff.2 fun i => measurable_pi_apply (i.1 + 1, i.2))
  exact ⟨hme, infinitePi_uncons (fun i : ℕ × Req => i.2.law L μ) (tapePos_inj q)⟩

/-- A generator that reads its answers off the tape. -/
noncomputable def tapeRand (μ : Dist → Measure ℝ) : Rand Tape where
  uniform N := tapeDraw (.uniform N)
  choice p N := tapeDraw (.choice p N)
  shuffle n := tapeDraw (.shuffle n)
  rvs d N := tapeDraw (.rvs d N)
  ppf d := quantile (μ d)

/-- C35 non-vacuity: whatever the distributions are, there are generators that satisfy the assumptions. -/
theorem tapeRand_fair (L : Lib) (μ : Dist → Measure ℝ) : (tapeRand μ).Fair (tapeLaw L μ) L μ where
  prob := by unfold tapeLaw; infer_instance
  uniform N := tapeDraw_draws L μ (.uniform N)
  choice p N h0 h1 := by
    have h := tapeDraw_draws L μ (.choice p N)
    simp only [Req.law] at h
    rw [if_pos ⟨h0, h1⟩] at h
    exact h
  shuffle n := tapeDraw_draws L μ (.shuffle n)
  rvs k d N hd := by
    have h := tapeDraw_draws L μ (.rvs d N)
    simp only [Req.law] at h
    rw [if_pos ⟨k, hd⟩] at h
    exact h
  ppf_measurable k d hd := by have := hd.prob; exact measurable_quantile
  ppf k d hd q h0 h1 x := by have := hd.prob; exact quantile_le h0 h1 x

/-- A uniform number and a coin. -/
noncomputable def numCoin : Spe := .prod [leafX "X", coin "Y"]

theorem numCoin_wf (c : Ctx) : numCoin.WF c (libOf muU) muU := by
  refine .prod ?_ (by simp) ?_
  · intro s hs; simp at hs
    rcases hs with rfl | rfl
    · exact leafX_wf c "X"
    · exact coin_wf _ _ _ _
  · simp [Spe.symbolsL, Spe.symbols, coin, leafX]

theorem leafX_sampled (X : String) : (leafX X).Sampled muU :=
  .real (by simp [Tr.Plain]) (Filter.Eventually.of_forall fun x p hp => by simp at hp; subst hp; simp [Env.extend, Tr.eval, baseAsg])

theorem numCoin_sampled : numCoin.Sampled muU := by
  refine .prod ?_
  intro s hs; simp at hs
  rcases hs with rfl | rfl
  · exact leafX_sampled _
  · exact .nominal

/-- C35 non-vacuity: any number of samples of a uniform number and a coin. -/
example (N : ℕ) : numCoin.IID (tapeRand muU) (tapeLaw (libOf muU) muU) (libOf muU) muU N :=
  C35_iid_partial (c := ctx0) (tapeRand_fair _ _) (numCoin_wf _) numCoin_sampled (.inr (.prod (by
    intro s hs; simp at hs
    rcases hs with rfl | rfl
    · exact .real
    · exact .nominal)))

/-- C35 non-vacuity: two samples of a mixture. -/
example : zeroOne.IID (tapeRand muU) (tapeLaw (libOf muU) muU) (libOf muU) muU 2 :=
  C35_iid_partial (c := ctx0) (tapeRand_fair _ _) (zeroOne_wf _ _ _) (zeroOne_sampled _) (.inl le_rfl)

/-- C35 non-vacuity: one sample of two coins satisfies `Y == 'a' | Z == 'a'` with probability 3/4. -/
example : (tapeLaw (libOf muU) muU).real {t | ∃ ω t', coins.sample (tapeRand muU) (libOf muU) 1 t = .ok ([toDct ω], t') ∧ coinsEv.holds ω} = 3/4 := by
  refine C35_prob_partial (c := ctx0) (n := 5) (tapeRand_fair _ _) ctx0_correct (coins_wf _ _ _) ?_ ⟨coinsEv_made _, ?_⟩ (by decide) ?_ (coins_prob _ 4)
  · exact .prod (by intro s hs; simp at hs; rcases hs with rfl | rfl <;> exact .nominal)
  · simp [coin, Spe.atomSymsL, Spe.atomSyms, coinsEv, strEv, Ev.NomFree, Ev.NomFreeL]
  · exact Filter.Eventually.of_forall fun ω => by simp [coinsEv, strEv, Ev.Regular, Ev.RegularL, Tr.Regular]

end Sppl
