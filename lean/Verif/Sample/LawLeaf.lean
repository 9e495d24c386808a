import Verif.Sample.LawLemmas

set_option linter.all false

/-!
# The law of samples of leaves (helper lemmas)
-/

namespace Sppl
open Classical MeasureTheory
open scoped ENNReal ProbabilityTheory

section
variable {τ : Type} {R : Rand τ} {L : Lib} {μ : Dist → Measure ℝ}

theorem leafSample_eq {s : Spe} {X : String} {env : Env} (hs : s.leafEnv = some (X, env)) (hb : EnvBuilt X env) (hp : ∀ p ∈ env, p.2.Plain) {N : ℕ} {t t' : τ}
    {vs : List (Val ℝ)} (hd : ∀ v ∈ vs, ∀ p ∈ env, env.extend (baseAsg X v) p.1 ≠ none)
    (h : leafDraws R L s N t = .ok (vs.map (fun v => Dct.single X (.val v)), t')) :
    leafSampleSubset R L s true (env.map Prod.fst) N t = .ok (vs.map (fun v => toDct (env.extend (baseAsg X v))), t') := by
  simp only [leafSampleSubset, hs, h, bind, Except.bind]
  rw [if_pos (fun x hx => hx)]
  split
  · rename_i hX
    congr 2
    refine List.map_congr_left ?_
    intro v hv
    rw [single_toDct]
    congr 1
    funext x
    by_cases hx : x ∈ env.map Prod.fst
    · have : x ∈ (env.map Prod.fst).toFinset := by simpa using hx
      rw [hX.2] at this
      simp at this
      subst this
      exact (hb.extend_base _ (.inr rfl)).symm
    · exact (extend_notMem hx).symm
  · have : (vs.map (fun v => Dct.single X (.val v))).mapM (fun d => envLoop (env.map Prod.fst) env d (fun _ => none)) =
        .ok (vs.map (fun v => toDct (env.extend (baseAsg X v)))) := by
      clear h
      induction vs with
      | nil => rfl
      | cons v vs ih =>
        have ih := ih (fun v hv => hd v (by simp [hv]))
        have h1 := envLoop_eq (syms := env.map Prod.fst) (ω := baseAsg X v) (sim := fun _ => none) hb.nodup hp (hd v (by simp))
        rw [← single_toDct] at h1
        rw [List.map_cons, List.mapM_cons, h1]
        simp only [bind, Except.bind]
        rw [ih]
        simp only [pure, Except.pure, List.map_cons]
        congr 2
        funext x
        by_cases hx : x ∈ env.map Prod.fst
        · rw [if_pos ⟨hx, hx⟩]
        · rw [if_neg (fun h => hx h.1)]
          have : x ≠ X := fun h => hx (h ▸ hb.base_mem)
          unfold toDct
          rw [extend_notMem hx]
          simp [baseAsg, this]
    rw [this]

theorem real_inter_Iic {m : Measure ℝ} [IsProbabilityMeasure m] {lo hi : EReal} {x : ℝ} (hle : lo ≤ hi) :
    m.real (IocE lo hi ∩ Set.Iic x) = max 0 (min (m.real (IicE hi)) (m.real (Set.Iic x)) - m.real (IicE lo)) := by
  have hx : Set.Iic x = IicE (x : EReal) := by ext y; simp [IicE]
  have mono : ∀ {a b : EReal}, a ≤ b → m.real (IicE a) ≤ m.real (IicE b) := fun h => measureReal_mono (fun y hy => le_trans hy h)
  rw [hx]
  have e : IocE lo hi ∩ IicE (x : EReal) = IocE lo (min hi x) := by
    ext y; simp only [IocE, IicE, Set.mem_inter_iff, Set.mem_setOf_eq, le_min_iff]; tauto
  rw [e]
  have hmin : min (m.real (IicE hi)) (m.real (IicE (x : EReal))) = m.real (IicE (min hi x)) := by
    rcases le_total hi (x : EReal) with h | h
    · rw [min_eq_left h, min_eq_left (mono h)]
    · rw [min_eq_right h, min_eq_right (mono h)]
  rw [hmin]
  rcases le_total lo (min hi x) with h | h
  · rw [real_IocE _ h, max_eq_right (sub_nonneg.2 (mono h))]
  · have : IocE lo (min hi x) = ∅ := by
      ext y; simp only [IocE, Set.mem_setOf_eq, Set.mem_empty_iff_false, iff_false, not_and, not_le]
      intro h1; exact lt_of_le_of_lt h h1
    rw [this, max_eq_left (sub_nonpos.2 (mono h))]; simp

/-- The quantile function of the restricted range turns uniform draws into draws from the conditioned distribution. -/
theorem ppf_law [MeasurableSpace τ] {U : Measure τ} (hR : R.Fair U L μ) {l : RLeaf} (h : RLeafOK L μ l) (hc : l.cond = true) :
    Measurable (fun u : ℝ => R.ppf l.d (u * l.Fl L + (1 - u) * L.cdf l.d l.xu)) ∧
    (volume.restrict (Set.Ico (0 : ℝ) 1)).map (fun u => R.ppf l.d (u * l.Fl L + (1 - u) * L.cdf l.d l.xu)) = l.meas μ := by
  have hP := h.dist.prob
  have hP' := h.prob
  have hmeas : Measurable (fun u : ℝ => R.ppf l.d (u * l.Fl L + (1 - u) * L.cdf l.d l.xu)) :=
    (hR.ppf_measurable _ _ h.dist).comp (by fun_prop)
  refine ⟨hmeas, ?_⟩
  have hm := h.mass
  rw [if_pos hc] at hm
  have hsupp : (μ l.d).real l.supp.reals = (μ l.d).real (IocE l.low l.xu) := measureReal_congr' h.supp_ae
  have hpos : 0 < (μ l.d).real l.supp.reals := by
    rw [Measure.real, ENNReal.toReal_pos_iff]; exact ⟨pos_iff_ne_zero.2 hm, measure_lt_top _ _⟩
  have hle : l.low ≤ l.xu := by
    by_contra hcon
    rw [hsupp] at hpos
    have : IocE l.low l.xu = ∅ := by
      ext y; simp only [IocE, Set.mem_setOf_eq, Set.mem_empty_iff_false, iff_false, not_and, not_le]
      intro h1; exact (not_le.1 hcon).trans h1
    rw [this] at hpos; simp at hpos
  have hu : l.Fl L = (μ l.d).real (IicE l.low) := by rw [RLeaf.Fl_eq, h.dist.cdf]; rfl
  have hv : L.cdf l.d l.xu = (μ l.d).real (IicE l.xu) := by rw [h.dist.cdf]; rfl
  have hab : (μ l.d).real l.supp.reals = L.cdf l.d l.xu - l.Fl L := by rw [hsupp, hu, hv, real_IocE _ hle]
  have ha : 0 ≤ l.Fl L := by rw [hu]; exact measureReal_nonneg
  have hb : L.cdf l.d l.xu ≤ 1 := by rw [hv]; exact measureReal_le_one
  have hprob : IsProbabilityMeasure ((volume.restrict (Set.Ico (0 : ℝ) 1)).map (fun u => R.ppf l.d (u * l.Fl L + (1 - u) * L.cdf l.d l.xu))) := by
    constructor
    rw [Measure.map_apply hmeas .univ]; simp
  refine Measure.ext_of_Iic _ _ ?_
  intro x
  have key : ((volume.restrict (Set.Ico (0 : ℝ) 1)).map (fun u => R.ppf l.d (u * l.Fl L + (1 - u) * L.cdf l.d l.xu))) (Set.Iic x) =
      ENNReal.ofReal ((l.meas μ).real (Set.Iic x)) := by
    rw [Measure.map_apply hmeas measurableSet_Iic, Measure.restrict_apply (hmeas measurableSet_Iic)]
    rw [l.meas_cond hc, measureReal_congr' (s := l.supp.reals ∩ Set.Iic x) (t := IocE l.low l.xu ∩ Set.Iic x)
      (by filter_upwards [h.supp_ae] with y hy; rw [Set.mem_inter_iff, Set.mem_inter_iff, hy]), real_inter_Iic hle, ← hu, ← hv, hab]
    rw [hab] at hpos
    generalize l.Fl L = a at *
    generalize L.cdf l.d l.xu = b at *
    generalize hF : (μ l.d).real (Set.Iic x) = F
    have hvol : volume ((fun u => R.ppf l.d (u * a + (1 - u) * b)) ⁻¹' Set.Iic x ∩ Set.Ico (0 : ℝ) 1) = volume (Set.Ioo (max 0 ((b - F) / (b - a))) 1) := by
      refine measure_congr (Filter.eventuallyEq_set.2 ?_)
      have h0 : ∀ᵐ u : ℝ, u ≠ 0 := by simp [ae_iff]
      have h1 : ∀ᵐ u : ℝ, u ≠ (b - F) / (b - a) := by simp [ae_iff]
      filter_upwards [h0, h1] with u h0 h1
      simp only [Set.mem_inter_iff, Set.mem_preimage, Set.mem_Iic, Set.mem_Ico, Set.mem_Ioo, max_lt_iff]
      constructor
      · rintro ⟨k1, k2, k3⟩
        have k2 : 0 < u := lt_of_le_of_ne k2 (Ne.symm h0)
        rw [hR.ppf _ _ h.dist _ (by nlinarith) (by nlinarith), hF] at k1
        refine ⟨⟨k2, lt_of_le_of_ne ?_ (Ne.symm h1)⟩, k3⟩
        rw [div_le_iff₀ hpos]; nlinarith
      · rintro ⟨⟨k2, k1⟩, k3⟩
        refine ⟨?_, k2.le, k3⟩
        rw [hR.ppf _ _ h.dist _ (by nlinarith) (by nlinarith), hF]
        rw [div_lt_iff₀ hpos] at k1; nlinarith
    rw [hvol, Real.volume_Ioo]
    rcases le_total b F with hbF | hbF
    · rw [min_eq_left hbF, max_eq_left (div_nonpos_of_nonpos_of_nonneg (by linarith) hpos.le), max_eq_right hpos.le, div_self hpos.ne']
      simp
    · rw [min_eq_right hbF, max_eq_right (div_nonneg (by linarith) hpos.le)]
      rcases le_total F a with hFa | hFa
      · rw [max_eq_left (by linarith), zero_div]
        rw [ENNReal.ofReal_of_nonpos, ENNReal.ofReal_zero]
        rw [sub_nonpos, one_le_div hpos]; linarith
      · rw [max_eq_right (by linarith)]
        congr 1
        field_simp
        ring
  rw [key]; exact ENNReal.ofReal_toReal (measure_ne_top _ _)

theorem ofFn_map {N : ℕ} {α β : Type} (g : α → β) (f : Fin N → α) : (List.ofFn f).map g = List.ofFn (fun i => g (f i)) := by
  rw [List.map_ofFn]; rfl

theorem pi_ae {N : ℕ} {β : Type} [MeasurableSpace β] {ν : Measure β} [IsProbabilityMeasure ν] {p : β → Prop} (h : ∀ᵐ b ∂ν, p b) :
    ∀ᵐ b ∂(Measure.pi fun _ : Fin N => ν), ∀ i, p (b i) := by
  rw [ae_all_iff]
  intro i
  have := (measurePreserving_eval (fun _ : Fin N => ν) i).map_eq
  rw [← this] at h
  exact ae_of_ae_map (measurable_pi_apply i).aemeasurable h

theorem pi_map_same {N : ℕ} {β γ : Type} [MeasurableSpace β] [MeasurableSpace γ] {ν : Measure β} [IsProbabilityMeasure ν] {g : β → γ} (hg : Measurable g) :
    (Measure.pi fun _ : Fin N => ν).map (fun b i => g (b i)) = Measure.pi fun _ : Fin N => ν.map g := by
  have : IsProbabilityMeasure (ν.map g) := Measure.isProbabilityMeasure_map hg.aemeasurable
  exact Measure.pi_map_pi (fun _ => hg.aemeasurable)

theorem measurable_pi_same {N : ℕ} {β γ : Type} [MeasurableSpace β] [MeasurableSpace γ] {g : β → γ} (hg : Measurable g) :
    Measurable (fun (b : Fin N → β) i => g (b i)) := measurable_pi_iff.2 fun i => hg.comp (measurable_pi_apply i)

variable [MeasurableSpace τ] {U : Measure τ} {c : Ctx}

theorem realDraws_law (hR : R.Fair U L μ) {l : RLeaf} (h : RLeafOK L μ l) (N : ℕ) : Draws U (realDraws R L l N) (Measure.pi fun _ => l.meas μ) := by
  have := hR.prob
  have := h.prob
  by_cases hc : l.cond = true
  · obtain ⟨h1, h2⟩ := ppf_law hR h hc
    have hpr : IsProbabilityMeasure (volume.restrict (Set.Ico (0 : ℝ) 1)) := ⟨by simp⟩
    have hu := Law.of_draws (hR.uniform N)
    have e : realDraws R L l N = fun t => (fun i => R.ppf l.d ((R.uniform N t).1 i * l.Fl L + (1 - (R.uniform N t).1 i) * L.cdf l.d l.xu), (R.uniform N t).2) := by
      funext t; simp only [realDraws, if_pos hc]
    rw [e]
    have hg := measurable_pi_same (N := N) h1
    have hd := hR.uniform N
    refine ⟨(hg.comp (measurable_fst.comp hd.1)).prodMk (measurable_snd.comp hd.1), ?_⟩
    rw [← h2, ← pi_map_same h1]
    have : (fun t => (fun i => R.ppf l.d ((R.uniform N t).1 i * l.Fl L + (1 - (R.uniform N t).1 i) * L.cdf l.d l.xu), (R.uniform N t).2)) =
      (Prod.map (fun (b : Fin N → ℝ) i => R.ppf l.d (b i * l.Fl L + (1 - b i) * L.cdf l.d l.xu)) (id : τ → τ)) ∘ R.uniform N := rfl
    rw [this, ← Measure.map_map (hg.prodMap measurable_id) hd.1, hd.2, ← Measure.map_prod_map _ _ hg measurable_id, Measure.map_id]
  · have e : realDraws R L l N = R.rvs l.d N := by funext t; simp only [realDraws, if_neg hc]
    rw [e]
    have : l.meas μ = μ l.d := by simp [RLeaf.meas, realMeas, hc]
    rw [this]
    exact hR.rvs _ _ _ h.dist

theorem real_iid (hR : R.Fair U L μ) {k X d supp cond env} (hs : (Spe.real k X d supp cond env).WF c L μ) (he : (Spe.real k X d supp cond env).Sampled μ) (N : ℕ) :
    (Spe.real k X d supp cond env).IID R U L μ N := by
  obtain ⟨h1, h2, -, -⟩ := hs.rleaf
  have := hR.prob
  have := h1.prob
  cases he with
  | real hp hd =>
  have hm := measurable_leafAsg X env
  have h := Law.of_draws (realDraws_law hR h1 N)
  unfold Spe.IID
  rw [Spe.den, ← show RLeaf.meas μ ⟨k, d, supp, cond⟩ = realMeas μ d supp cond from rfl, ← pi_map_same hm]
  refine h.post (measurable_pi_same hm) (pi_ae hd) ?_
  intro t b t' hb hbt
  have hbt : realDraws R L ⟨k, d, supp, cond⟩ N t = (b, t') := by simpa using hbt
  simp only [Spe.sample]
  rw [leafSample_eq (s := .real k X d supp cond env) (vs := (List.ofFn b).map .num) (t' := t') rfl h2.built hp]
  · rw [List.map_map, ofFn_map]; rfl
  · intro v hv
    obtain ⟨x, hx, rfl⟩ := List.mem_map.1 hv
    obtain ⟨i, rfl⟩ := (List.mem_ofFn' _ _).1 hx
    exact hb i
  · simp only [leafDraws, hbt, List.map_map]; rfl

theorem pi_dirac' {N : ℕ} {β : Type} [MeasurableSpace β] (b : β) : (Measure.pi fun _ : Fin N => Measure.dirac b) = Measure.dirac (fun _ => b) := by
  refine Measure.pi_eq (fun s hs => ?_)
  rw [Measure.dirac_apply' _ (MeasurableSet.univ_pi hs)]
  simp only [Measure.dirac_apply' _ (hs _), Set.indicator_apply, Set.mem_univ_pi, Pi.one_apply]
  by_cases h : ∀ i, b ∈ s i
  · simp [h]
  · rw [if_neg h]
    push Not at h
    obtain ⟨i, hi⟩ := h
    exact (Finset.prod_eq_zero (Finset.mem_univ i) (by simp [hi])).symm

theorem atomic_iid (hR : R.Fair U L μ) {X v env} (hs : (Spe.atomic X v env).WF c L μ) (he : (Spe.atomic X v env).Sampled μ) (N : ℕ) :
    (Spe.atomic X v env).IID R U L μ N := by
  have := hR.prob
  cases hs with
  | atomic h1 h2 h3 =>
  cases he with
  | atomic hp hd =>
  unfold Spe.IID
  rw [Spe.den, pi_dirac']
  refine ⟨fun t => (fun _ => env.extend (baseAsg X (.num v)), t), ⟨by fun_prop, (Measure.dirac_prod _).symm⟩, .of_forall fun t => ?_⟩
  simp only [Spe.sample]
  rw [leafSample_eq (s := .atomic X v env) (vs := List.replicate N (.num v)) (t' := t) rfl h1.built hp]
  · rw [List.map_replicate, List.ofFn_const]
  · intro w hw
    rw [List.eq_of_mem_replicate hw]
    exact hd
  · simp only [leafDraws, List.map_replicate]

theorem normProbs_one {p : List ℝ} (h : p.sum = 1) : normProbs p = p := by simp [normProbs, h]

theorem pickLaw_cons (w : ℝ) (p : List ℝ) : pickLaw (w :: p) = ENNReal.ofReal w • Measure.dirac 0 + (pickLaw p).map (· + 1) := by
  unfold pickLaw
  rw [List.length_cons, Finset.sum_range_succ', add_comm, map_finset_sum' _ _ (by fun_prop)]
  simp [Measure.map_smul, Measure.map_dirac]

theorem pickLaw_univ : ∀ {p : List ℝ}, (∀ w ∈ p, 0 ≤ w) → pickLaw p Set.univ = ENNReal.ofReal p.sum
  | [], _ => by simp [pickLaw]
  | w :: p, h => by
    rw [pickLaw_cons, Measure.add_apply, Measure.map_apply (by fun_prop) .univ]
    simp only [Set.preimage_univ, pickLaw_univ (p := p) (fun x hx => h x (by simp [hx])), List.sum_cons]
    rw [ENNReal.ofReal_add (h w (by simp)) (List.sum_nonneg (fun x hx => h x (by simp [hx])))]
    simp

theorem pickLaw_prob {p : List ℝ} (h : ∀ w ∈ p, 0 ≤ w) (h1 : p.sum = 1) : IsProbabilityMeasure (pickLaw p) := ⟨by rw [pickLaw_univ h, h1]; simp⟩

theorem pickLaw_ae (p : List ℝ) : ∀ᵐ i ∂(pickLaw p), i < p.length := by
  unfold pickLaw
  rw [ae_iff, Measure.finset_sum_apply]
  refine Finset.sum_eq_zero ?_
  intro b hb
  simp at hb
  simp [hb]

theorem mixture_range : ∀ (ws : List ℝ) (ms : List (Measure Asg)), ws.length = ms.length →
    mixture ws ms = ∑ i ∈ Finset.range ws.length, ENNReal.ofReal (ws.getD i 0) • ms.getD i 0
  | [], _, _ => by simp [mixture]
  | w :: ws, [], h => by simp at h
  | w :: ws, m :: ms, h => by
    have ih := mixture_range ws ms (by simpa using h)
    rw [List.length_cons, Finset.sum_range_succ', add_comm]
    simp only [mixture, List.zipWith_cons_cons, List.sum_cons] at ih ⊢
    rw [ih]
    simp

theorem pickOutcomes_eq {N : ℕ} {dist : List (String × ℚ)} {sel : Fin N → ℕ} (h : ∀ i, sel i < dist.length) :
    pickOutcomes dist sel = .ok (List.ofFn (fun i => ((dist.map Prod.fst).getD (sel i) ""))) := by
  have gen : ∀ (l : List ℕ), (∀ i ∈ l, i < dist.length) → List.Forall₂ (fun i x => (match (dist.map Prod.fst)[i]? with
      | some x => (.ok x : Res String)
      | none => .error .index) = .ok x) l (l.map (fun i => (dist.map Prod.fst).getD i "")) := by
    intro l hl
    rw [List.forall₂_map_right_iff, List.forall₂_same]
    intro i hi
    have hi := hl i hi
    rw [List.getD_eq_getElem?_getD]
    rw [List.getElem?_eq_getElem (show i < (dist.map Prod.fst).length by simpa using hi)]
    rfl
  unfold pickOutcomes
  rw [← ofFn_map (fun i => (dist.map Prod.fst).getD i "")]
  exact mapM_of_forall₂ (gen _ (by
    intro i hi
    obtain ⟨j, rfl⟩ := (List.mem_ofFn' _ _).1 hi
    exact h j))

theorem nominal_iid (hR : R.Fair U L μ) {X dist} (hs : (Spe.nominal X dist).WF c L μ) (N : ℕ) : (Spe.nominal X dist).IID R U L μ N := by
  have := hR.prob
  cases hs with
  | nominal h1 h2 h3 =>
  have hsum : (dist.map (fun p => (p.2 : ℝ))).sum = 1 := by
    have : dist.map (fun p => (p.2 : ℝ)) = (dist.map Prod.snd).map (fun q : ℚ => (q : ℝ)) := by rw [List.map_map]; rfl
    rw [this, ← Rat.cast_list_sum, h3]; simp
  have hnn : ∀ w ∈ dist.map (fun p => (p.2 : ℝ)), 0 ≤ w := by
    intro w hw
    obtain ⟨p, hp, rfl⟩ := List.mem_map.1 hw
    exact_mod_cast h2 p hp
  have hpr := pickLaw_prob hnn hsum
  have hg : Measurable (fun i : ℕ => baseAsg X (.str ((dist.map Prod.fst).getD i ""))) := measurable_from_nat
  unfold Spe.IID
  have hden : (Spe.nominal X dist).den μ = (pickLaw (dist.map (fun p => (p.2 : ℝ)))).map (fun i : ℕ => baseAsg X (.str ((dist.map Prod.fst).getD i ""))) := by
    rw [Spe.den, mixture_range _ _ (by simp), pickLaw, map_finset_sum' _ _ hg]
    refine Finset.sum_congr rfl ?_
    intro i hi
    simp only [List.length_map, Finset.mem_range] at hi
    rw [Measure.map_smul, Measure.map_dirac' hg]
    simp [hi]
  rw [hden, ← pi_map_same hg]
  refine (Law.of_draws (hR.choice _ N hnn hsum)).post (measurable_pi_same hg) (pi_ae (pickLaw_ae _)) ?_
  intro t b t' hb hbt
  have hbt : R.choice (dist.map (fun p => (p.2 : ℝ))) N t = (b, t') := by simpa using hbt
  simp only [Spe.sample]
  have := leafSample_eq (R := R) (L := L) (s := .nominal X dist) (X := X) (env := [(X, .id X)]) (N := N) (t := t) (vs := (List.ofFn (fun i => ((dist.map Prod.fst).getD (b i) ""))).map .str) (t' := t') rfl .base (by simp [Tr.Plain]) (by
    intro v _
    simp [Env.extend, Tr.eval, baseAsg]) (by
    simp only [leafDraws, normProbs_one hsum, hbt, bind, Except.bind]
    rw [pickOutcomes_eq (by simpa using hb), List.map_map]; rfl)
  rw [show [X] = [(X, Tr.id X)].map Prod.fst from rfl, this, List.map_map, ofFn_map]
  congr 3
  funext i
  simp only [Function.comp]
  congr 1
  funext x
  simp only [Env.extend, List.foldl_cons, List.foldl_nil, Tr.eval]
  by_cases hx : x = X
  · simp [hx]
  · simp [hx]

end

end Sppl
