import Verif.Sample.UnorderedLemmas

set_option linter.all false

/-!
# The law of samples of sums and products up to their order (helper lemmas)
-/

namespace Sppl
open Classical MeasureTheory
open scoped ENNReal ProbabilityTheory

section
variable {τ : Type} {R : Rand τ} {L : Lib} {μ : Dist → Measure ℝ} [MeasurableSpace τ] {U : Measure τ} {c : Ctx}

/-- The samples are drawn from some law whose expected products are those of independent draws. -/
def SymLaw (U : Measure τ) (m : τ → Res (List Dct × τ)) (N : ℕ) (ν : Measure Asg) : Prop :=
  ∃ Λ : Measure (Fin N → Asg), IsProbabilityMeasure Λ ∧ Law U m (fun ω : Fin N → Asg => List.ofFn (fun i => toDct (ω i))) Λ ∧ ProdLaw Λ ν

theorem SymLaw.of_iid {s : Spe} {N : ℕ} [IsProbabilityMeasure (s.den μ)] (h : s.IID R U L μ N) : SymLaw U (s.sample R L N) N (s.den μ) :=
  ⟨_, inferInstance, h, ProdLaw.pi _⟩

/-! ## Products -/

theorem prod_symLaw (hR : R.Fair U L μ) {N : ℕ} : ∀ {cs : List Spe}, cs ≠ [] → (∀ s ∈ cs, s.WF c L μ) → (∀ s ∈ cs, s.NoMix → s.IID R U L μ N) →
    (∀ s ∈ cs, SymLaw U (s.sample R L N) N (s.den μ)) → cs.Pairwise (fun s s' => s.NoMix ∨ s'.NoMix) →
    SymLaw U (fun t => do
      let r ← Spe.sampleL R L cs N t
      .ok (mergeSamples r.1, r.2)) N (indep ((Spe.symbolsL cs).zip (Spe.denL μ cs)))
  | [], hne, _, _, _, _ => absurd rfl hne
  | [s], _, hw, _, h, _ => by
    have := hR.prob
    have hs := hw s (by simp)
    have := hs.prob
    have hm := measurable_mergeAsg s.symbols
    simp only [Spe.symbolsL, Spe.denL, List.zip_cons_cons, List.zip_nil_right, indep]
    have hg : Measurable (fun ω : Asg => mergeAsg s.symbols (ω, fun _ => none)) := hm.comp (by fun_prop)
    have e : ((s.den μ).prod (Measure.dirac (fun _ => none))).map (mergeAsg s.symbols) = (s.den μ).map (fun ω : Asg => mergeAsg s.symbols (ω, fun _ => none)) := by
      rw [Measure.prod_dirac, Measure.map_map hm (by fun_prop)]; rfl
    rw [e]
    obtain ⟨Λ, hΛ, hlaw, hprod⟩ := h s (by simp)
    refine ⟨Λ.map (fun b i => mergeAsg s.symbols (b i, fun _ => none)), Measure.isProbabilityMeasure_map (measurable_pi_same hg).aemeasurable, ?_, hprod.map_same hg⟩
    refine hlaw.post (good := fun _ => True) (measurable_pi_same hg) (by simp) ?_
    intro t b t' _ hb
    have hk := (C34_sample hs hb).2
    simp only [Spe.sampleL, hb, bind, Except.bind, mergeSamples]
    congr 3
    funext i
    rw [toDct_merge_none]
    exact hk _ ((List.mem_ofFn' _ _).2 ⟨i, rfl⟩)
  | s :: s' :: cs, _, hw, hi, h, hpw => by
    have := hR.prob
    have hs := hw s (by simp)
    have := hs.prob
    have hm := measurable_mergeAsg s.symbols
    have hl : IsProbabilityMeasure (indep ((Spe.symbolsL (s' :: cs)).zip (Spe.denL μ (s' :: cs)))) := by
      have := indep_prob (groups_prob (μ := μ) (cs := s' :: cs) (fun s hs => hw s (List.mem_cons_of_mem _ hs)))
      rwa [← den_prod, Spe.den] at this
    -- the sequence of the two computations
    have seq : ∀ {Λ Λ' : Measure (Fin N → Asg)} [IsProbabilityMeasure Λ] [IsProbabilityMeasure Λ'],
        Law U (s.sample R L N) (fun ω : Fin N → Asg => List.ofFn (fun i => toDct (ω i))) Λ →
        Law U (fun t => do
          let r ← Spe.sampleL R L (s' :: cs) N t
          .ok (mergeSamples r.1, r.2)) (fun ω : Fin N → Asg => List.ofFn (fun i => toDct (ω i))) Λ' →
        Law U (fun t => do
          let r ← Spe.sampleL R L (s :: s' :: cs) N t
          .ok (mergeSamples r.1, r.2)) (fun ω : Fin N → Asg => List.ofFn (fun i => toDct (ω i))) ((Λ.prod Λ').map (fun p i => mergeAsg s.symbols (p.1 i, p.2 i))) := by
      intro Λ Λ' _ _ hΛ hΛ'
      have h2 := hΛ.seq (ψ := fun p : (Fin N → Asg) × (Fin N → Asg) => (List.ofFn (fun i => toDct (mergeAsg s.symbols (p.1 i, p.2 i))))) hΛ'
        (m'' := fun t => do
          let r ← Spe.sampleL R L (s :: s' :: cs) N t
          .ok (mergeSamples r.1, r.2)) (by
        intro t b t1 b' t2 hb hb'
        have hk := (C34_sample hs hb).2
        simp only [bind, Except.bind] at hb'
        split at hb'; · cases hb'
        rename_i r hr
        rw [Spe.sampleL]
        simp only [hb, hr, bind, Except.bind]
        injection hb' with hb'
        rw [Prod.mk.injEq] at hb'
        rw [hb'.2]
        congr 2
        have hlen := (mapS_ok (r := r.1) (t' := r.2) ((sampleL_eq _ _ _).symm.trans hr)).length_eq
        obtain ⟨r1, r2⟩ := r
        cases r1 with
        | nil => simp at hlen
        | cons x xs =>
          simp only [mergeSamples] at hb' ⊢
          rw [hb'.1, zipWith_ofFn]
          congr 1
          funext i
          exact toDct_merge (hk _ ((List.mem_ofFn' _ _).2 ⟨i, rfl⟩)))
      refine h2.post (good := fun _ => True) (measurable_zip hm) (by simp) ?_
      intro t b t' _ hb
      exact hb
    rw [Spe.symbolsL, Spe.denL, List.zip_cons_cons, indep]
    have hpr : ∀ {Λ Λ' : Measure (Fin N → Asg)} [IsProbabilityMeasure Λ] [IsProbabilityMeasure Λ'],
        IsProbabilityMeasure ((Λ.prod Λ').map (fun p i => mergeAsg s.symbols (p.1 i, p.2 i))) :=
      fun {_ _} _ _ => Measure.isProbabilityMeasure_map (measurable_zip hm).aemeasurable
    rw [List.pairwise_cons] at hpw
    by_cases hmix : s.NoMix
    · have hsi := hi s (by simp) hmix
      obtain ⟨Λ, hΛ, hlaw, hprod⟩ := prod_symLaw hR (cs := s' :: cs) (by simp) (fun s hs => hw s (by simp [hs])) (fun s hs => hi s (by simp [hs])) (fun s hs => h s (by simp [hs])) hpw.2
      exact ⟨_, hpr, seq hsi hlaw, hprod.merge_right hm⟩
    · have hrest : ∀ s ∈ s' :: cs, s.IID R U L μ N := fun s hs => hi s (by simp [hs]) ((hpw.1 s hs).resolve_left hmix)
      obtain ⟨Λ, hΛ, hlaw, hprod⟩ := h s (by simp)
      have hr := prod_law hR (cs := s' :: cs) (by simp) (fun s hs => hw s (by simp [hs])) hrest
      exact ⟨_, hpr, seq hlaw hr, hprod.merge_left hm⟩

/-! ## Sums -/

theorem measurable_append {m n : ℕ} : Measurable (fun p : (Fin m → Asg) × (Fin n → Asg) => Fin.append p.1 p.2) := by
  refine measurable_pi_iff.2 fun i => ?_
  refine Fin.addCases (fun i => ?_) (fun i => ?_) i
  · simp only [Fin.append_left]; exact (measurable_pi_apply i).comp measurable_fst
  · simp only [Fin.append_right]; exact (measurable_pi_apply i).comp measurable_snd

/-- The samples of the components, one after the other. -/
theorem mapS_symLaw [IsProbabilityMeasure U] {func : ℕ → ℕ → τ → Res (List Dct × τ)} {n : ℕ → ℕ} {ν : ℕ → Measure Asg} : ∀ {keys : List ℕ},
    (∀ k ∈ keys, SymLaw U (func k (n k)) (n k) (ν k)) →
    ∃ Λ : Measure (Fin (keys.map n).sum → Asg), IsProbabilityMeasure Λ ∧
      Law U (mapS (fun i => func i (n i)) keys) (fun ω => chunk (keys.map n) (List.ofFn (fun i => toDct (ω i)))) Λ ∧
      ∀ φ : Asg → ℝ≥0∞, Measurable φ → ∫⁻ ω, ∏ i, φ (ω i) ∂Λ = (keys.map (fun k => (∫⁻ a, φ a ∂(ν k)) ^ n k)).prod
  | [], _ => by
    refine ⟨Measure.dirac (fun _ _ => none), inferInstance, ⟨fun t => (fun _ _ => none, t), ⟨by fun_prop, ?_⟩, .of_forall fun t => rfl⟩, ?_⟩
    · rw [Measure.dirac_prod]
    · intro φ _
      simp
  | k :: keys, h => by
    obtain ⟨Λ, hΛ, hlaw, hprod⟩ := h k (by simp)
    obtain ⟨Λ', hΛ', hlaw', hprod'⟩ := mapS_symLaw (keys := keys) (fun k hk => h k (by simp [hk]))
    have h2 := hlaw.seq (m'' := mapS (fun i => func i (n i)) (k :: keys))
      (ψ := fun p : (Fin (n k) → Asg) × (Fin (keys.map n).sum → Asg) => List.ofFn (fun i => toDct (p.1 i)) :: chunk (keys.map n) (List.ofFn (fun i => toDct (p.2 i)))) hlaw' (by
        intro t b t1 b' t2 hb hb'
        simp [mapS, hb, hb', bind, Except.bind])
    refine ⟨(Λ.prod Λ').map (fun p => Fin.append p.1 p.2), Measure.isProbabilityMeasure_map measurable_append.aemeasurable, ?_, ?_⟩
    · refine h2.post (good := fun _ => True) measurable_append (by simp) ?_
      intro t b t' _ hb
      rw [hb]
      congr 2
      have e : (List.ofFn fun i => toDct (Fin.append b.1 b.2 i)) = List.ofFn (fun i => toDct (b.1 i)) ++ List.ofFn (fun i => toDct (b.2 i)) := by
        have : (List.ofFn (Fin.append b.1 b.2)).map toDct = List.ofFn (toDct ∘ Fin.append b.1 b.2) := List.map_ofFn
        rw [List.ofFn_fin_append, List.map_append, List.map_ofFn, List.map_ofFn] at this
        exact this.symm
      show _ = chunk (n k :: keys.map n) (List.ofFn fun i => toDct (Fin.append b.1 b.2 i))
      rw [e, chunk, List.take_left' (by simp), List.drop_left' (by simp)]
    · intro φ hφ
      have key : ∫⁻ ω : Fin (n k + (keys.map n).sum) → Asg, ∏ i, φ (ω i) ∂((Λ.prod Λ').map (fun p => Fin.append p.1 p.2)) =
          (∫⁻ a, φ a ∂(ν k)) ^ n k * (keys.map (fun k => (∫⁻ a, φ a ∂(ν k)) ^ n k)).prod := by
        rw [lintegral_map (measurable_prodφ hφ) measurable_append]
        simp only [Fin.prod_univ_add, Fin.append_left, Fin.append_right]
        rw [lintegral_prod_mul (measurable_prodφ hφ).aemeasurable (measurable_prodφ hφ).aemeasurable, hprod _ hφ, hprod' _ hφ]
      exact key

theorem sampleMany_returns {τ α : Type} {R : Rand τ} {ws : List ℝ} {func : ℕ → ℕ → τ → Res (List α × τ)} {N n : ℕ} {t t1 t2 t3 : τ} {sel : Fin N → ℕ} {rs : List (List α)}
    {σ : Equiv.Perm (Fin n)} (h1 : R.choice (normProbs (pnorm ws)) N t = (sel, t1))
    (h2 : mapS (fun i => func i ((List.ofFn sel).count i)) (List.ofFn sel).reverse.dedup.reverse t1 = .ok (rs, t2)) (hn : rs.length = n) (h3 : R.shuffle n t2 = (σ, t3)) :
    sampleMany R ws func N t = .ok ((List.ofFn (fun i : Fin n => rs.get ((σ i).cast hn.symm))).flatten, t3) := by
  subst hn
  simp only [sampleMany, h1, h2, bind, Except.bind, h3]
  rfl

/-- The components of the samples, in the order in which they first occur. -/
def keysOf {N : ℕ} (sel : Fin N → ℕ) : List ℕ := (List.ofFn sel).reverse.dedup.reverse

theorem keysOf_perm {N : ℕ} (sel : Fin N → ℕ) : (keysOf sel).Perm (List.ofFn sel).dedup := by
  unfold keysOf
  refine (List.reverse_perm _).trans ?_
  exact (List.reverse_perm (List.ofFn sel)).dedup

theorem keysOf_sum {N : ℕ} (sel : Fin N → ℕ) : ((keysOf sel).map (fun k => (List.ofFn sel).count k)).sum = N := by
  rw [((keysOf_perm sel).map _).sum_eq]
  have := List.sum_map_count_dedup_eq_length (List.ofFn sel)
  rw [List.length_ofFn] at this
  convert this

theorem keysOf_prod {N : ℕ} (sel : Fin N → ℕ) (f : ℕ → ℝ≥0∞) : ((keysOf sel).map (fun k => f k ^ (List.ofFn sel).count k)).prod = ∏ i, f (sel i) := by
  have e : ∏ i, f (sel i) = ((Multiset.ofList (List.ofFn sel)).map f).prod := by
    rw [Multiset.map_coe, Multiset.prod_coe, List.map_ofFn, List.prod_ofFn]; rfl
  rw [((keysOf_perm sel).map _).prod_eq, e, Finset.prod_multiset_map_count]
  rw [← List.prod_toFinset _ (List.nodup_dedup _)]
  have : (Multiset.ofList (List.ofFn sel)).toFinset = (List.ofFn sel).dedup.toFinset := by ext; simp
  rw [this]
  refine Finset.prod_congr rfl (fun k _ => ?_)
  simp

theorem pi_pickLaw {ws : List ℝ} (N : ℕ) (h : IsProbabilityMeasure (pickLaw ws)) : (Measure.pi fun _ : Fin N => pickLaw ws) =
    ∑ sel ∈ Fintype.piFinset (fun _ : Fin N => Finset.range ws.length), (∏ i, childW ws (sel i)) • Measure.dirac sel := by
  refine Measure.pi_eq ?_
  intro A hA
  rw [Measure.finset_sum_apply]
  have : ∀ i, pickLaw ws (A i) = ∑ k ∈ Finset.range ws.length, childW ws k * (A i).indicator 1 k := by
    intro i
    unfold pickLaw
    rw [Measure.finset_sum_apply]
    refine Finset.sum_congr rfl (fun k _ => ?_)
    rw [Measure.smul_apply, Measure.dirac_apply' _ (hA i)]; rfl
  simp only [this]
  rw [Finset.prod_univ_sum]
  refine Finset.sum_congr rfl (fun sel _ => ?_)
  rw [Measure.smul_apply, Measure.dirac_apply' _ (MeasurableSet.univ_pi hA), Finset.prod_mul_distrib, smul_eq_mul]
  congr 1
  by_cases hs : sel ∈ Set.pi Set.univ A
  · rw [Set.indicator_of_mem hs]
    refine (Finset.prod_eq_one (fun i _ => ?_)).symm
    rw [Set.indicator_of_mem (hs i trivial)]; rfl
  · rw [Set.indicator_of_notMem hs]
    simp only [Set.mem_pi, Set.mem_univ, true_implies, not_forall] at hs
    obtain ⟨i, hi⟩ := hs
    refine (Finset.prod_eq_zero (Finset.mem_univ i) ?_).symm
    rw [Set.indicator_of_notMem hi]

/-- The samples for a given choice of the components. -/
theorem sel_symLaw (hR : R.Fair U L μ) {func : ℕ → ℕ → τ → Res (List Dct × τ)} {N : ℕ} {sel : Fin N → ℕ} {ν : ℕ → Measure Asg}
    (h : ∀ k ∈ keysOf sel, SymLaw U (func k ((List.ofFn sel).count k)) ((List.ofFn sel).count k) (ν k)) :
    ∃ Λ : Measure (Fin N → Asg), IsProbabilityMeasure Λ ∧
      Law U (fun t => do
        let r ← mapS (fun i => func i ((List.ofFn sel).count i)) (keysOf sel) t
        let p := R.shuffle r.1.length r.2
        .ok ((List.ofFn (fun i => r.1.get (p.1 i))).flatten, p.2)) (fun ω : Fin N → Asg => List.ofFn (fun i => toDct (ω i))) Λ ∧
      ∀ φ : Asg → ℝ≥0∞, Measurable φ → ∫⁻ ω, ∏ i, φ (ω i) ∂Λ = ∏ i, ∫⁻ a, φ a ∂(ν (sel i)) := by
  have := hR.prob
  obtain ⟨Λ, hΛ, hlaw, hprod⟩ := mapS_symLaw h
  let ns := (keysOf sel).map (fun k => (List.ofFn sel).count k)
  have hN : ns.sum = N := keysOf_sum sel
  have hns : ns.length = (keysOf sel).length := by simp [ns]
  choose P hP using fun σ => blocks_perm (ns := ns) (N := ns.sum) rfl hns σ
  have hsh := shuffle_prob (keysOf sel).length
  have h2 := hlaw.seq (m'' := fun t => do
        let r ← mapS (fun i => func i ((List.ofFn sel).count i)) (keysOf sel) t
        let p := R.shuffle r.1.length r.2
        .ok ((List.ofFn (fun i => r.1.get (p.1 i))).flatten, p.2))
    (ψ := fun p : (Fin ns.sum → Asg) × Equiv.Perm (Fin (keysOf sel).length) => List.ofFn (fun i => toDct (p.1 (P p.2 i)))) (Law.of_draws (hR.shuffle _)) (by
      intro t b t1 σ t2 hb hσ
      have hσ : R.shuffle (keysOf sel).length t1 = (σ, t2) := by simpa using hσ
      simp only [hb, bind, Except.bind]
      rw [← hP σ (fun i => toDct (b i)) ((chunk_length _ _).trans hns)]
      exact shuffle_returns ((chunk_length _ _).trans hns) hσ)
  have hg : Measurable (fun (p : (Fin ns.sum → Asg) × Equiv.Perm (Fin (keysOf sel).length)) (i : Fin N) => p.1 (P p.2 (i.cast hN.symm))) := by
    refine measurable_from_prod_countable_left fun σ => measurable_pi_iff.2 fun i => ?_
    exact measurable_pi_apply (P σ (i.cast hN.symm))
  refine ⟨(Λ.prod _).map (fun p i => p.1 (P p.2 (i.cast hN.symm))), Measure.isProbabilityMeasure_map hg.aemeasurable, h2.post (good := fun _ => True) hg (by simp) ?_, ?_⟩
  · intro t b t' _ hb
    rw [hb]
    congr 2
    refine List.ext_getElem (by simp [hN]) ?_
    intro i h1 h2
    simp
  · intro φ hφ
    rw [lintegral_map (measurable_prodφ hφ) hg]
    have e : ∀ p : (Fin ns.sum → Asg) × Equiv.Perm (Fin (keysOf sel).length), ∏ i : Fin N, φ (p.1 (P p.2 (i.cast hN.symm))) = ∏ i, φ (p.1 i) := by
      intro p
      rw [← Equiv.prod_comp (P p.2) (fun i => φ (p.1 i)), ← (finCongr hN.symm).prod_comp (fun i => φ (p.1 (P p.2 i)))]
      rfl
    simp only [e]
    have hm : Measurable (fun p : (Fin ns.sum → Asg) × Equiv.Perm (Fin (keysOf sel).length) => ∏ i, φ (p.1 i)) := (measurable_prodφ hφ).comp measurable_fst
    rw [lintegral_prod _ hm.aemeasurable]
    simp only [lintegral_const, measure_univ, mul_one]
    exact (hprod φ hφ).trans (keysOf_prod sel (fun k => ∫⁻ a, φ a ∂(ν k)))
where
  shuffle_returns {τ : Type} {R : Rand τ} {rs : List (List Dct)} {n : ℕ} {t t' : τ} {σ : Equiv.Perm (Fin n)} (hn : rs.length = n) (h : R.shuffle n t = (σ, t')) :
      (Except.ok ((List.ofFn (fun i => rs.get ((R.shuffle rs.length t).1 i))).flatten, (R.shuffle rs.length t).2) : Res (List Dct × τ)) =
        .ok ((List.ofFn (fun i : Fin n => rs.get ((σ i).cast hn.symm))).flatten, t') := by
    subst hn
    rw [h]
    rfl

theorem sum_symLaw (hR : R.Fair U L μ) {cs : List Spe} {ws : List ℝ} (hs : (Spe.sum cs ws).WF c L μ) (N : ℕ)
    (h : ∀ s ∈ cs, ∀ n, SymLaw U (s.sample R L n) n (s.den μ)) : SymLaw U ((Spe.sum cs ws).sample R L N) N ((Spe.sum cs ws).den μ) := by
  have := hR.prob
  cases hs with
  | sum h1 h2 h3 h4 h5 h6 =>
  have hpl := pickLaw_prob h4 h5
  have hcl := childLaw_prob (c := c) (L := L) (μ := μ) h1
  have hch := Law.of_draws (hR.choice ws N h4 h5)
  have hpp : IsProbabilityMeasure (Measure.pi fun _ : Fin N => pickLaw ws) := inferInstance
  rw [pi_pickLaw N hpl] at hch hpp
  have child : ∀ i, i < ws.length → ∀ n, SymLaw U (Spe.sampleI R L cs i n) n (childLaw μ cs i) := by
    intro i hi n
    have hi' : i < cs.length := by omega
    have hc : childLaw μ cs i = (cs[i]).den μ := by
      unfold childLaw; rw [getD_lt (by simpa using hi'), List.getElem_map]
    have e : Spe.sampleI R L cs i n = (cs[i]).sample R L n := by
      funext t; rw [sampleI_eq, List.getElem?_eq_getElem hi']
    rw [hc, e]
    exact h _ (List.getElem_mem hi') n
  have hsel : ∀ sel : Fin N → ℕ, ∃ Λ : Measure (Fin N → Asg), IsProbabilityMeasure Λ ∧ (sel ∈ Fintype.piFinset (fun _ : Fin N => Finset.range ws.length) →
      Law U (fun t => do
        let r ← mapS (fun i => Spe.sampleI R L cs i ((List.ofFn sel).count i)) (keysOf sel) t
        let p := R.shuffle r.1.length r.2
        .ok ((List.ofFn (fun i => r.1.get (p.1 i))).flatten, p.2)) (fun ω : Fin N → Asg => List.ofFn (fun i => toDct (ω i))) Λ ∧
      ∀ φ : Asg → ℝ≥0∞, Measurable φ → ∫⁻ ω, ∏ i, φ (ω i) ∂Λ = ∏ i, ∫⁻ a, φ a ∂(childLaw μ cs (sel i))) := by
    intro sel
    by_cases hm : sel ∈ Fintype.piFinset (fun _ : Fin N => Finset.range ws.length)
    · obtain ⟨Λ, hΛ, hl⟩ := sel_symLaw (sel := sel) hR (func := fun i n t => Spe.sampleI R L cs i n t) (ν := childLaw μ cs) (by
        intro k hk
        have hk : k ∈ List.ofFn sel := by
          have := (keysOf_perm sel).mem_iff.1 hk
          simpa using this
        obtain ⟨i, rfl⟩ := (List.mem_ofFn' _ _).1 hk
        have := (Fintype.mem_piFinset.1 hm) i
        exact child _ (Finset.mem_range.1 this) _)
      exact ⟨Λ, hΛ, fun _ => hl⟩
    · exact ⟨Measure.dirac (fun _ _ => none), inferInstance, fun h => absurd h hm⟩
  choose Λ hΛ hl using hsel
  have hfin : ∀ sel : Fin N → ℕ, (∏ i, childW ws (sel i)) ≠ ∞ := fun sel => ENNReal.prod_ne_top (fun i _ => childW_ne ws _)
  refine ⟨∑ sel ∈ Fintype.piFinset (fun _ : Fin N => Finset.range ws.length), (∏ i, childW ws (sel i)) • Λ sel, ?_, ?_, ?_⟩
  · constructor
    have := hpp.measure_univ
    rw [Measure.finset_sum_apply] at this ⊢
    simpa using this
  · refine Law.mix hfin hch (fun sel hsel => (hl sel hsel).1) hpp ?_
    intro t sel t1 b' t2 hsel k1 k2
    have k1 : R.choice ws N t = (sel, t1) := by simpa using k1
    simp only [Spe.sample, sampleMany, norm_ws h5, k1]
    exact k2
  · intro φ hφ
    rw [lintegral_finset_sum_measure, den_sum_range h3, lintegral_finset_sum_measure]
    simp only [lintegral_smul_measure]
    have e := Finset.prod_univ_sum (ι := Fin N) (fun _ => Finset.range ws.length) (fun _ k => childW ws k • ∫⁻ a, φ a ∂(childLaw μ cs k))
    rw [Finset.prod_const, Finset.card_univ, Fintype.card_fin] at e
    rw [e]
    refine Finset.sum_congr rfl (fun sel hsel => ?_)
    rw [(hl sel hsel).2 φ hφ]
    simp only [smul_eq_mul, Finset.prod_mul_distrib]

theorem spe_symLaw (hR : R.Fair U L μ) {s : Spe} (hs : s.WF c L μ) (he : s.Sampled μ) (ho : s.OneMix) (N : ℕ) : SymLaw U (s.sample R L N) N (s.den μ) := by
  have hp := hs.prob
  induction s using Spe.ind generalizing N with
  | hr => exact .of_iid (real_iid hR hs he N)
  | ha => exact .of_iid (atomic_iid hR hs he N)
  | hn => exact .of_iid (nominal_iid hR hs N)
  | hs cs ws ih =>
    have hw := hs
    cases hs with
    | sum h1 =>
    cases he with
    | sum he =>
    cases ho with
    | sum ho =>
    exact sum_symLaw hR hw N (fun s hs n => ih s hs (h1 s hs) (he s hs) (ho s hs) n (h1 s hs).prob)
  | hp cs ih =>
    have hw := hs
    cases hs with
    | prod h1 h2 h3 =>
    cases he with
    | prod he =>
    cases ho with
    | prod ho ho2 =>
    simp only [Spe.den, Spe.sample]
    exact prod_symLaw hR h2 h1 (fun s hs hn => C35_iid_partial hR (h1 s hs) (he s hs) (.inr hn)) (fun s hs => ih s hs (h1 s hs) (he s hs) (ho s hs) N (h1 s hs).prob) ho2

end

end Sppl
