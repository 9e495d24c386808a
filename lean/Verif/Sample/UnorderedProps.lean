import Verif.Sample.UnorderedPolar
import Verif.Sample.LawExample
import Mathlib.Data.Nat.Choose.Basic

set_option linter.all false

/-!
# C47: samples up to their order
-/

namespace Sppl
open Classical MeasureTheory
open scoped ENNReal ProbabilityTheory

section
variable {τ : Type} {R : Rand τ} {L : Lib} {μ : Dist → Measure ℝ} [MeasurableSpace τ] {U : Measure τ} {c : Ctx}

/-- The samples that a computation returns, up to an event of probability zero. -/
theorem law_event {m : τ → Res (List Dct × τ)} {N : ℕ} {Λ : Measure (Fin N → Asg)} [IsProbabilityMeasure Λ] [IsProbabilityMeasure U]
    (h : Law U m (fun ω : Fin N → Asg => List.ofFn (fun i => toDct (ω i))) Λ) {S : Set (Fin N → Asg)} (hS : MeasurableSet S) :
    U {t | ∃ (ω : Fin N → Asg) (t' : τ), m t = .ok (List.ofFn (fun i => toDct (ω i)), t') ∧ ω ∈ S} = Λ S := by
  obtain ⟨f, hf, hm⟩ := h
  have h1 : Measurable (fun t => (f t).1) := measurable_fst.comp hf.1
  rw [← hf.value, Measure.map_apply h1 hS]
  refine measure_congr (Filter.eventuallyEq_set.2 ?_)
  filter_upwards [hm] with t ht
  simp only [Set.mem_ofPred_eq, Set.mem_preimage]
  rw [ht]
  constructor
  · rintro ⟨ω, t', h, hω⟩
    injection h with h
    rw [Prod.mk.injEq] at h
    have h := List.ofFn_injective h.1
    have : (f t).1 = ω := by
      funext i
      exact toDct_injective (congrFun h i)
    rw [this]; exact hω
  · intro h
    exact ⟨(f t).1, (f t).2, rfl, h⟩

/-- C47: up to their order the samples are independent draws from the distribution of the SPE, for every `N`, when no product has two factors with
mixtures.  (Missing: products of mixtures, where it is false, see `C47_product_wrong`.) -/
theorem C47_unordered_partial (hR : R.Fair U L μ) {s : Spe} (hs : s.WF c L μ) (he : s.Sampled μ) (ho : s.OneMix) (N : ℕ) : s.UpToOrder R U L μ N := by
  have := hR.prob
  have := hs.prob
  intro S hS
  obtain ⟨Λ, hΛ, hlaw, hprod⟩ := spe_symLaw hR hs he ho N
  rw [← unordered_law hprod hS]
  exact law_event hlaw hS

/-- The number of the samples that are in the set. -/
noncomputable def hits {N : ℕ} (ω : Fin N → Asg) (A : Set Asg) : ℕ := (Finset.univ.filter (fun i => ω i ∈ A)).card

theorem hits_unordered {N : ℕ} (ω : Fin N → Asg) (A : Set Asg) : hits ω A = (unordered ω).countP (fun a => a ∈ A) := by
  unfold hits unordered
  rw [Multiset.coe_countP, Finset.card_filter, ← List.sum_ofFn, ← List.countP_eq_sum_aux]
where
  List.countP_eq_sum_aux : (List.ofFn fun i => if ω i ∈ A then 1 else 0).sum = (List.ofFn ω).countP (fun a => decide (a ∈ A)) := by
    induction N with
    | zero => simp
    | succ N ih => simp [List.ofFn_succ, List.countP_cons, ih (fun i => ω i.succ), add_comm]

theorem hits_pi {N : ℕ} {ν : Measure Asg} [IsProbabilityMeasure ν] {A : Set Asg} (hA : MeasurableSet A) (k : ℕ) :
    (Measure.pi fun _ : Fin N => ν) {ω | hits ω A = k} = N.choose k * ν A ^ k * (1 - ν A) ^ (N - k) := by
  have e : {ω : Fin N → Asg | hits ω A = k} = ⋃ T ∈ Finset.powersetCard k (Finset.univ : Finset (Fin N)), Set.pi Set.univ (fun i => if i ∈ T then A else Aᶜ) := by
    ext ω
    simp only [Set.mem_ofPred_eq, Set.mem_iUnion, Finset.mem_powersetCard, Finset.subset_univ, true_and, Set.mem_pi, Set.mem_univ, true_implies, exists_prop]
    constructor
    · intro h
      refine ⟨Finset.univ.filter (fun i => ω i ∈ A), h, fun i => ?_⟩
      by_cases hi : ω i ∈ A <;> simp [hi]
    · rintro ⟨T, hT, h⟩
      have : Finset.univ.filter (fun i => ω i ∈ A) = T := by
        ext i
        have := h i
        by_cases hi : i ∈ T <;> simp_all
      unfold hits
      rw [this, hT]
  rw [e, measure_biUnion_finset]
  · have : ∀ T ∈ Finset.powersetCard k (Finset.univ : Finset (Fin N)), (Measure.pi fun _ : Fin N => ν) (Set.pi Set.univ (fun i => if i ∈ T then A else Aᶜ)) = ν A ^ k * (1 - ν A) ^ (N - k) := by
      intro T hT
      rw [Finset.mem_powersetCard] at hT
      rw [Measure.pi_pi]
      have : ∀ i, ν (if i ∈ T then A else Aᶜ) = if i ∈ T then ν A else 1 - ν A := by
        intro i; split
        · rfl
        · rw [prob_compl_eq_one_sub hA]
      simp only [this]
      rw [Finset.prod_ite, Finset.prod_const, Finset.prod_const, Finset.filter_mem_eq_inter, Finset.univ_inter, hT.2, Finset.filter_not, Finset.filter_mem_eq_inter, Finset.univ_inter,
        Finset.card_sdiff_of_subset (Finset.subset_univ _), Finset.card_univ, Fintype.card_fin, hT.2]
    rw [Finset.sum_congr rfl this, Finset.sum_const, Finset.card_powersetCard, Finset.card_univ, Fintype.card_fin, nsmul_eq_mul, mul_assoc]
  · intro T _ T' _ hne
    refine Set.disjoint_left.2 fun ω h h' => hne ?_
    ext i
    have h1 := h i trivial
    have h2 := h' i trivial
    by_cases hi : i ∈ T <;> by_cases hi' : i ∈ T' <;> simp_all
  · intro T _
    exact MeasurableSet.univ_pi fun i => by split; exacts [hA, hA.compl]

theorem measurable_hits {N : ℕ} {A : Set Asg} (hA : MeasurableSet A) : Measurable (fun ω : Fin N → Asg => hits ω A) := by
  simp only [hits, Finset.card_filter]
  refine Finset.measurable_sum _ (fun i _ => Measurable.ite ((measurable_pi_apply i) hA) _root_.measurable_const _root_.measurable_const)

/-- C47: the number of samples with a property has the binomial law. -/
theorem C47_count_partial (hR : R.Fair U L μ) {s : Spe} (hs : s.WF c L μ) (he : s.Sampled μ) (ho : s.OneMix) (N : ℕ) {A : Set Asg} (hA : MeasurableSet A) (k : ℕ) :
    U {t | ∃ (ω : Fin N → Asg) (t' : τ), s.sample R L N t = .ok (List.ofFn (fun i => toDct (ω i)), t') ∧ hits ω A = k} =
      N.choose k * (s.den μ A) ^ k * (1 - s.den μ A) ^ (N - k) := by
  have := hs.prob
  have h := C47_unordered_partial hR hs he ho N {m | m.countP (fun a => a ∈ A) = k} (by
    simp only [Set.mem_ofPred_eq, ← hits_unordered]
    exact measurable_hits hA (measurableSet_singleton k))
  simp only [Set.mem_ofPred_eq, ← hits_unordered] at h
  rw [h, hits_pi hA]

end

/-- C47 non-vacuity: a generator and a mixture that meet the hypotheses, for every number of samples. -/
example (L : Lib) (μ : Dist → Measure ℝ) (N : ℕ) : zeroOne.UpToOrder (tapeRand μ) (tapeLaw L μ) L μ N :=
  C47_unordered_partial (c := ctx0) (tapeRand_fair L μ) (zeroOne_wf ctx0 L μ) (zeroOne_sampled μ) (.sum (by
    intro s hs; simp at hs; rcases hs with rfl | rfl <;> exact .atomic)) N

/-! ## Products of mixtures -/

/-- The variable is `0` or `1`, with equal probabilities. -/
noncomputable def bit (X : String) : Spe := .sum [.atomic X 0 [(X, .id X)], .atomic X 1 [(X, .id X)]] [1/2, 1/2]

/-- Two independent bits. -/
noncomputable def twoBits : Spe := .prod [bit "X", bit "Y"]

theorem bit_wf (X : String) (c : Ctx) (L : Lib) (μ : Dist → Measure ℝ) : (bit X).WF c L μ := by
  refine .sum (S := {X}) ?_ (by simp) (by simp) ?_ ?_ ?_
  · intro s hs
    simp at hs
    rcases hs with rfl | rfl <;> exact .atomic (envOK_single c X) (by intro p hp; simp at hp; subst hp; exact .id _) (by intro p hp; simp at hp; subst hp; simp [Tr.Regular])
  · intro w hw; simp at hw; subst hw; norm_num
  · norm_num
  · intro s hs; simp at hs; rcases hs with rfl | rfl <;> simp [Spe.symbols]

theorem twoBits_wf (c : Ctx) (L : Lib) (μ : Dist → Measure ℝ) : twoBits.WF c L μ := by
  refine .prod ?_ (by simp) ?_
  · intro s hs
    simp at hs
    rcases hs with rfl | rfl <;> exact bit_wf _ c L μ
  · simp [Spe.symbolsL, bit, Spe.symbols]

theorem atom_sample {τ : Type} (R : Rand τ) (L : Lib) (X : String) (x : ℝ) (N : ℕ) (t : τ) :
    (Spe.atomic X x [(X, .id X)]).sample R L N t = .ok (List.replicate N (toDct (baseAsg X (.num x))), t) := by
  simp only [Spe.sample]
  rw [leafSample_eq (s := .atomic X x [(X, .id X)]) (X := X) (env := [(X, .id X)]) (vs := List.replicate N (.num x)) (t' := t) rfl .base (by simp [Tr.Plain])]
  · rw [List.map_replicate]
    congr 3
    funext y
    simp only [toDct, Env.extend, List.foldl_cons, List.foldl_nil, Tr.eval]
    by_cases hy : y = X <;> simp [hy]
  · intro v _
    simp [Env.extend, Tr.eval, baseAsg]
  · simp only [leafDraws, List.map_replicate]

/-- Whatever the generator does, the samples of a bit are at most two constant blocks. -/
theorem bit_blocks {τ : Type} {R : Rand τ} {L : Lib} {X : String} {N : ℕ} {t t' : τ} {l : List Dct} (h : (bit X).sample R L N t = .ok (l, t')) :
    ∃ (a b : ℕ) (u v : Dct), l = List.replicate a u ++ List.replicate b v := by
  simp only [bit, Spe.sample, sampleMany, bind, Except.bind] at h
  split at h; · cases h
  rename_i r hr
  injection h with h
  rw [Prod.mk.injEq] at h
  have hb := mapS_ok (r := r.1) (t' := r.2) hr
  generalize R.choice _ N t = sel at *
  have hnd : (List.ofFn sel.1).reverse.dedup.reverse.Nodup := List.nodup_reverse.2 (List.nodup_dedup _)
  have block : ∀ {k : ℕ} {b : List Dct}, (∃ t t', Spe.sampleI R L [.atomic X 0 [(X, .id X)], .atomic X 1 [(X, .id X)]] k ((List.ofFn sel.1).count k) t = .ok (b, t')) →
      k < 2 ∧ ∃ n u, b = List.replicate n u := by
    rintro k b ⟨t, t', hk⟩
    rw [sampleI_eq] at hk
    match k with
    | 0 =>
      simp only [List.getElem?_cons_zero, atom_sample] at hk
      injection hk with hk
      rw [Prod.mk.injEq] at hk
      exact ⟨by norm_num, _, _, hk.1.symm⟩
    | 1 =>
      simp only [List.getElem?_cons_succ, List.getElem?_cons_zero, atom_sample] at hk
      injection hk with hk
      rw [Prod.mk.injEq] at hk
      exact ⟨by norm_num, _, _, hk.1.symm⟩
    | k + 2 => simp at hk
  have hp := ofFn_get_perm r.1 (R.shuffle r.1.length r.2).1
  generalize (List.ofFn fun i => r.1.get ((R.shuffle r.1.length r.2).1 i)) = bs at *
  generalize (List.ofFn sel.1).reverse.dedup.reverse = keys at *
  obtain ⟨rs, t2⟩ := r
  simp only at h hp hb
  replace h := h.1
  clear hr
  match keys, rs, hb, hnd with
  | [], [], .nil, _ => rw [hp.eq_nil] at h; exact ⟨0, 0, fun _ => none, fun _ => none, by simpa using h.symm⟩
  | [k], [x], .cons h1 .nil, _ =>
    have e := List.perm_singleton.1 hp
    subst e
    obtain ⟨_, n, u, rfl⟩ := block h1
    exact ⟨n, 0, u, u, by simpa using h.symm⟩
  | [k, k'], [x, y], .cons h1 (.cons h2 .nil), _ =>
    obtain ⟨_, n, u, rfl⟩ := block h1
    obtain ⟨_, n', u', rfl⟩ := block h2
    rcases List.perm_pair.1 hp with e | e
    · subst e
      exact ⟨n, n', u, u', by simpa using h.symm⟩
    · subst e
      exact ⟨n', n, u', u, by simpa using h.symm⟩
  | k :: k' :: k'' :: ks, x :: y :: z :: zs, .cons h1 (.cons h2 (.cons h3 _)), hnd =>
    have b1 := (block h1).1
    have b2 := (block h2).1
    have b3 := (block h3).1
    simp at hnd
    omega

/-- C47: whatever the generator does and however many samples are drawn, one call never shows all four values of two independent bits. -/
theorem C47_never_all {τ : Type} {R : Rand τ} {L : Lib} {N : ℕ} {t t' : τ} {l : List Dct} (h : twoBits.sample R L N t = .ok (l, t')) :
    ¬ (∀ x ∈ [(0 : ℝ), 1], ∀ y ∈ [(0 : ℝ), 1], ∃ d ∈ l, d "X" = some (.val (.num x)) ∧ d "Y" = some (.val (.num y))) := by
  intro hall
  simp only [twoBits, Spe.sample, Spe.sampleL, bind, Except.bind] at h
  split at h; · cases h
  rename_i r hr
  split at hr; · cases hr
  rename_i r1 hr1
  split at hr; · cases hr
  rename_i q hq
  split at hq; · cases hq
  rename_i r2 hr2
  injection hq with hq
  subst hq
  injection hr with hr
  subst hr
  injection h with h
  rw [Prod.mk.injEq] at h
  replace h := h.1
  simp only [mergeSamples] at h
  have k1 := (C34_sample (bit_wf "X" ctx0 L (fun _ => Measure.dirac 0)) hr1).2
  have k2 := (C34_sample (bit_wf "Y" ctx0 L (fun _ => Measure.dirac 0)) hr2).2
  obtain ⟨a, b, u, v, e1⟩ := bit_blocks hr1
  obtain ⟨a', b', u', v', e2⟩ := bit_blocks hr2
  -- the variables at a position
  have pos : ∀ d ∈ l, ∃ i, d "X" = (if i < a then u else v) "X" ∧ d "Y" = (if i < a' then u' else v') "Y" := by
    intro d hd
    rw [← h] at hd
    obtain ⟨i, hi, rfl⟩ := List.getElem_of_mem hd
    simp only [List.length_zipWith] at hi
    have hi1 : i < r1.1.length := by omega
    have hi2 : i < r2.1.length := by omega
    have g1 := k1 _ (List.getElem_mem hi1)
    have g2 := k2 _ (List.getElem_mem hi2)
    refine ⟨i, ?_, ?_⟩
    · simp only [List.getElem_zipWith]
      have hx : r1.1[i] "X" ≠ none := (g1 "X").2 (by simp [bit, Spe.symbols, Spe.symbolsL])
      have : r1.1[i] = if i < a then u else v := by
        simp only [e1, List.getElem_append, List.length_replicate, List.getElem_replicate]
        split <;> rfl
      rw [← this]
      cases hc : r1.1[i] "X" with
      | none => exact absurd hc hx
      | some w => rfl
    · simp only [List.getElem_zipWith]
      have hx : r1.1[i] "Y" = none := by
        by_contra hc
        have := (g1 "Y").1 hc
        simp [bit, Spe.symbols, Spe.symbolsL] at this
      have : r2.1[i] = if i < a' then u' else v' := by
        simp only [e2, List.getElem_append, List.length_replicate, List.getElem_replicate]
        split <;> rfl
      rw [← this, hx]
      rfl
  have pick : ∀ x ∈ [(0 : ℝ), 1], ∀ y ∈ [(0 : ℝ), 1], ∃ i, (if i < a then u else v) "X" = some (PyV.val (.num x)) ∧ (if i < a' then u' else v') "Y" = some (PyV.val (.num y)) := by
    intro x hx y hy
    obtain ⟨d, hd, d1, d2⟩ := hall x hx y hy
    obtain ⟨i, p1, p2⟩ := pos d hd
    exact ⟨i, by rw [← p1, d1], by rw [← p2, d2]⟩
  obtain ⟨i00, p00, q00⟩ := pick 0 (by simp) 0 (by simp)
  obtain ⟨i01, p01, q01⟩ := pick 0 (by simp) 1 (by simp)
  obtain ⟨i10, p10, q10⟩ := pick 1 (by simp) 0 (by simp)
  obtain ⟨i11, p11, q11⟩ := pick 1 (by simp) 1 (by simp)
  have sep : ∀ {i j n : ℕ} {u v : Dct} {s : String}, (if i < n then u else v) s = some (PyV.val (.num 0)) → (if j < n then u else v) s = some (PyV.val (.num 1)) → ¬ (i < n ↔ j < n) := by
    intro i j n u v s hi hj hij
    simp only [hij] at hi
    rw [hi] at hj
    simp at hj
  have s1 := sep p00 p10
  have s2 := sep p00 p11
  have s3 := sep p01 p10
  have s4 := sep p01 p11
  have s5 := sep q00 q01
  have s6 := sep q00 q11
  have s7 := sep q10 q01
  have s8 := sep q10 q11
  omega

/-- C47 non-vacuity: the samples of two bits can be drawn. -/
example (c : Ctx) (L : Lib) (μ : Dist → Measure ℝ) (N : ℕ) : ∃ r, twoBits.sample constRand L N () = .ok r := by
  have hb : ∀ X, (bit X).Everywhere := fun X => .sum (by
    intro s hs; simp at hs; rcases hs with rfl | rfl <;> exact .atomic (by intro p hp; simp at hp; subst hp; trivial))
  exact C34_sample_total (c := c) (μ := μ) constRand_ok (twoBits_wf _ _ _) (.prod (by intro s hs; simp at hs; rcases hs with rfl | rfl <;> exact hb _)) N ()

theorem measurableSet_is (X : String) (x : ℝ) : MeasurableSet {ω : Asg | ω X = some (.num x)} := by
  have h1 : MeasurableSet ({some (.num x)} : Set (Option (Val ℝ))) := by
    rw [measurableSet_ov]
    have : numVal ⁻¹' {some (.num x)} = {x} := by ext y; simp [numVal]
    rw [this]; exact measurableSet_singleton x
  exact (measurable_pi_apply (X := fun _ => Option (Val ℝ)) X) h1

theorem bit_den_is (μ : Dist → Measure ℝ) (X : String) (x : ℝ) (hx : x = 0 ∨ x = 1) : (bit X).den μ {ω : Asg | ω X = some (.num x)} ≠ 0 := by
  simp only [bit, Spe.den, Spe.denL, mixture, List.zipWith_cons_cons, List.zipWith_nil_left, List.sum_cons, List.sum_nil, add_zero, Measure.add_apply,
    Measure.smul_apply, Measure.dirac_apply' _ (measurableSet_is X x), Set.indicator_apply, Set.mem_ofPred_eq, Env.extend, List.foldl_cons, List.foldl_nil, Tr.eval, baseAsg, smul_eq_mul]
  rcases hx with rfl | rfl <;> simp

theorem twoBits_den_is (L : Lib) (μ : Dist → Measure ℝ) (x y : ℝ) (hx : x = 0 ∨ x = 1) (hy : y = 0 ∨ y = 1) :
    twoBits.den μ {ω : Asg | ω "X" = some (.num x) ∧ ω "Y" = some (.num y)} ≠ 0 := by
  have p1 := (bit_wf "X" ctx0 L μ).prob
  have p2 := (bit_wf "Y" ctx0 L μ).prob
  have h := indep_all (l := [({"X"}, (bit "X").den μ), ({"Y"}, (bit "Y").den μ)]) (Bs := [{ω | ω "X" = some (.num x)}, {ω | ω "Y" = some (.num y)}])
    (by intro q hq; simp at hq; rcases hq with rfl | rfl <;> assumption) (by simp)
    (.cons ⟨measurableSet_is _ _, by intro a b hab; simp [hab "X" (by simp)]⟩ (.cons ⟨measurableSet_is _ _, by intro a b hab; simp [hab "Y" (by simp)]⟩ .nil))
  have e : twoBits.den μ = indep [({"X"}, (bit "X").den μ), ({"Y"}, (bit "Y").den μ)] := by
    simp [twoBits, Spe.den, Spe.symbolsL, Spe.denL, bit, Spe.symbols]
  rw [e]
  simp at h
  rw [h]
  exact mul_ne_zero (bit_den_is μ "X" x hx) (bit_den_is μ "Y" y hy)

/-- C47 fails for products of mixtures: no generator makes `sample(4)` four independent draws of two independent bits, even up to the order. -/
theorem C47_product_wrong {τ : Type} [MeasurableSpace τ] (R : Rand τ) (U : Measure τ) (L : Lib) (μ : Dist → Measure ℝ) : ¬ twoBits.UpToOrder R U L μ 4 := by
  intro h
  have hp := (twoBits_wf ctx0 L μ).prob
  let S : Set (Multiset Asg) := {m | ∀ x ∈ [(0 : ℝ), 1], ∀ y ∈ [(0 : ℝ), 1], ∃ ω ∈ m, ω "X" = some (.num x) ∧ ω "Y" = some (.num y)}
  have hS : {ω : Fin 4 → Asg | unordered ω ∈ S} = {ω | ∀ x ∈ [(0 : ℝ), 1], ∀ y ∈ [(0 : ℝ), 1], ∃ i, ω i "X" = some (.num x) ∧ ω i "Y" = some (.num y)} := by
    ext ω
    simp only [S, unordered, Set.mem_ofPred_eq, Multiset.mem_coe, List.mem_ofFn', exists_exists_eq_and, Set.mem_range]
  have hm1 : ∀ x y : ℝ, MeasurableSet {ω : Asg | ω "X" = some (.num x) ∧ ω "Y" = some (.num y)} := fun x y => (measurableSet_is "X" x).inter (measurableSet_is "Y" y)
  have hm : MeasurableSet {ω : Fin 4 → Asg | unordered ω ∈ S} := by
    rw [hS]
    have hxy : ∀ x y : ℝ, MeasurableSet {ω : Fin 4 → Asg | ∃ i, ω i "X" = some (.num x) ∧ ω i "Y" = some (.num y)} := by
      intro x y
      rw [Set.ofPred_exists]
      refine MeasurableSet.iUnion fun i => ?_
      exact measurableSet_preimage (f := fun f : Fin 4 → Asg => f i) (measurable_pi_apply i) (hm1 x y)
    simp only [List.mem_cons, List.not_mem_nil, or_false, forall_eq_or_imp, forall_eq]
    exact (((hxy 0 0).inter (hxy 0 1)).inter ((hxy 1 0).inter (hxy 1 1)))
  have h1 := h S hm
  have h0 : {t | ∃ (ω : Fin 4 → Asg) (t' : τ), twoBits.sample R L 4 t = .ok (List.ofFn (fun i => toDct (ω i)), t') ∧ unordered ω ∈ S} = ∅ := by
    ext t
    simp only [Set.mem_ofPred_eq, Set.mem_empty_iff_false, iff_false]
    rintro ⟨ω, t', ht, hω⟩
    refine C47_never_all ht ?_
    intro x hx y hy
    have : ω ∈ {ω : Fin 4 → Asg | unordered ω ∈ S} := hω
    rw [hS] at this
    obtain ⟨i, i1, i2⟩ := this x hx y hy
    exact ⟨toDct (ω i), (List.mem_ofFn' _ _).2 ⟨i, rfl⟩, by simp [toDct, i1], by simp [toDct, i2]⟩
  rw [h0, measure_empty, hS] at h1
  let a : Fin 4 → ℝ × ℝ := ![(0, 0), (0, 1), (1, 0), (1, 1)]
  have hB : (Measure.pi fun _ : Fin 4 => twoBits.den μ) (Set.univ.pi fun i => {ω : Asg | ω "X" = some (.num (a i).1) ∧ ω "Y" = some (.num (a i).2)}) ≠ 0 := by
    rw [Measure.pi_pi]
    refine Finset.prod_ne_zero_iff.2 (fun i _ => twoBits_den_is L μ _ _ ?_ ?_)
    · fin_cases i <;> simp [a]
    · fin_cases i <;> simp [a]
  refine hB (measure_mono_null ?_ h1.symm)
  intro ω hω
  simp only [Set.mem_ofPred_eq, List.mem_cons, List.not_mem_nil, or_false, forall_eq_or_imp, forall_eq]
  exact ⟨⟨⟨0, hω 0 trivial⟩, ⟨1, hω 1 trivial⟩⟩, ⟨⟨2, hω 2 trivial⟩, ⟨3, hω 3 trivial⟩⟩⟩

end Sppl
