import Verif.Sample.LawSum
import Verif.Spe.Props

set_option linter.all false

/-!
# C35: the law of samples
-/

namespace Sppl
open Classical MeasureTheory
open scoped ENNReal ProbabilityTheory

section
variable {τ : Type} {R : Rand τ} {L : Lib} {μ : Dist → Measure ℝ} [MeasurableSpace τ] {U : Measure τ} {c : Ctx}

/-- C35: `sample(N)` gives `N` independent draws from the distribution of the SPE, for `N ≤ 2` or for SPEs without mixtures.  (Missing: mixtures and
`N ≥ 3`, where it is false, see `C35_mixture_wrong`.) -/
theorem C35_iid_partial (hR : R.Fair U L μ) {s : Spe} (hs : s.WF c L μ) (he : s.Sampled μ) {N : ℕ} (hN : N ≤ 2 ∨ s.NoMix) : s.IID R U L μ N := by
  induction s using Spe.ind generalizing N with
  | hr => exact real_iid hR hs he N
  | ha => exact atomic_iid hR hs he N
  | hn => exact nominal_iid hR hs N
  | hs cs ws ih =>
    rcases hN with hN | hN
    swap; · cases hN
    have hw := hs
    cases hs with
    | sum h1 =>
    cases he with
    | sum he =>
    have ih' : ∀ n, n ≤ 2 → ∀ s ∈ cs, s.IID R U L μ n := fun n hn s hs => ih s hs (h1 s hs) (he s hs) (.inl hn)
    interval_cases N
    · exact sum_iid_zero hR hw
    · exact sum_iid_one hR hw (ih' 1 (by norm_num))
    · exact sum_iid_two hR hw (ih' 1 (by norm_num)) (ih' 2 (by norm_num))
  | hp cs ih =>
    have hw := hs
    cases hs with
    | prod h1 =>
    cases he with
    | prod he =>
    refine prod_iid hR hw (fun s hs => ih s hs (h1 s hs) (he s hs) ?_)
    rcases hN with hN | hN
    · exact .inl hN
    · cases hN with
      | prod hN => exact .inr (hN s hs)

/-- Different assignments are different dictionaries. -/
theorem toDct_injective : Function.Injective toDct := by
  intro a b h
  funext x
  have := congrFun h x
  unfold toDct at this
  cases ha : a x <;> cases hb : b x <;> simp_all

/-- C35: the chance that one sample is in a set of assignments is the probability of the set. -/
theorem C35_one (hR : R.Fair U L μ) {s : Spe} (hs : s.WF c L μ) (he : s.Sampled μ) {A : Set Asg} (hA : MeasurableSet A) :
    U.real {t | ∃ ω t', s.sample R L 1 t = .ok ([toDct ω], t') ∧ ω ∈ A} = (s.den μ).real A := by
  have := hR.prob
  have := hs.prob
  obtain ⟨f, hf, hm⟩ := C35_iid_partial (N := 1) hR hs he (.inl (by norm_num))
  have h0 : Measurable (fun t => (f t).1 0) := (measurable_pi_apply 0).comp (measurable_fst.comp hf.1)
  have h1 : U.map (fun t => (f t).1 0) = s.den μ := by
    have : U.map (fun t => (f t).1 0) = (U.map (fun t => (f t).1)).map (fun b => b 0) := (Measure.map_map (measurable_pi_apply 0) (measurable_fst.comp hf.1)).symm
    rw [this, hf.value, (measurePreserving_eval (fun _ : Fin 1 => s.den μ) 0).map_eq]
  rw [← h1, map_measureReal_apply h0 hA]
  refine measureReal_congr (Filter.eventuallyEq_set.2 ?_)
  filter_upwards [hm] with t ht
  simp only [Set.mem_setOf_eq, Set.mem_preimage]
  rw [ht]
  constructor
  · rintro ⟨ω, t', h, hω⟩
    injection h with h
    rw [Prod.mk.injEq] at h
    have h := h.1
    simp only [List.ofFn_succ, List.ofFn_zero, List.cons.injEq, and_true] at h
    rw [toDct_injective h]; exact hω
  · intro h
    exact ⟨(f t).1 0, (f t).2, by simp, h⟩

/-- C35: the chance that one sample satisfies an event is the probability that `prob` computes. -/
theorem C35_prob_partial (hR : R.Fair U L μ) (hc : c.Correct) {s : Spe} (hs : s.WF c L μ) (he : s.Sampled μ) {n : ℕ} {e : Ev} (hq : s.CanAsk c e)
    (hsym : e.symbols ⊆ s.symbols) (hr : ∀ᵐ ω ∂(s.den μ), e.Regular ω) {p : ℝ} (h : s.prob c L n e = .ok p) :
    U.real {t | ∃ ω t', s.sample R L 1 t = .ok ([toDct ω], t') ∧ e.holds ω} = p := by
  rw [C18_prob_partial hc hs hq hsym hr h]
  exact C35_one hR hs he e.measurable_set

end

/-! ## Three samples of a mixture -/

/-- `0` or `1`, with equal probabilities. -/
noncomputable def zeroOne : Spe := .sum [.atomic "X" 0 [("X", .id "X")], .atomic "X" 1 [("X", .id "X")]] [1/2, 1/2]

theorem zeroOne_wf (c : Ctx) (L : Lib) (μ : Dist → Measure ℝ) : zeroOne.WF c L μ := by
  refine .sum (S := {"X"}) ?_ (by simp) (by simp) ?_ ?_ ?_
  · intro s hs
    simp at hs
    rcases hs with rfl | rfl <;> exact .atomic (envOK_single c "X") (by intro p hp; simp at hp; subst hp; exact .id _) (by intro p hp; simp at hp; subst hp; simp [Tr.Regular])
  · intro w hw; simp at hw; subst hw; norm_num
  · norm_num
  · intro s hs; simp at hs; rcases hs with rfl | rfl <;> simp [Spe.symbols]

theorem zeroOne_sampled (μ : Dist → Measure ℝ) : zeroOne.Sampled μ := by
  refine .sum ?_
  intro s hs
  simp at hs
  rcases hs with rfl | rfl <;> exact .atomic (by simp [Tr.Plain]) (by simp [Env.extend, Tr.eval, baseAsg])

/-- The assignment with one number. -/
def atX (x : ℝ) : Asg := baseAsg "X" (.num x)

theorem atomX_sample {τ : Type} (R : Rand τ) (L : Lib) (x : ℝ) (N : ℕ) (t : τ) :
    (Spe.atomic "X" x [("X", .id "X")]).sample R L N t = .ok (List.replicate N (toDct (atX x)), t) := by
  simp only [Spe.sample]
  rw [leafSample_eq (s := .atomic "X" x [("X", .id "X")]) (X := "X") (env := [("X", .id "X")]) (vs := List.replicate N (.num x)) (t' := t) rfl .base (by simp [Tr.Plain])]
  · rw [List.map_replicate]
    congr 3
    funext y
    simp only [toDct, Env.extend, List.foldl_cons, List.foldl_nil, Tr.eval, atX]
    by_cases hy : y = "X" <;> simp [hy]
  · intro v _
    simp [Env.extend, Tr.eval, baseAsg]
  · simp only [leafDraws, List.map_replicate]

theorem two_blocks {α : Type} {a b u v : α} {l l' : List α} (h : l ++ l' = [a, b, a]) (hl : ∀ d ∈ l, d = u) (hl' : ∀ d ∈ l', d = v) : a = b := by
  match l, h with
  | [], h => simp at h; subst h; simp at hl'; rw [hl'.1, hl'.2.1]
  | [x], h => simp at h; rw [h.2] at hl'; simp at hl'; rw [hl'.1, hl'.2]
  | [x, y], h => simp at h; rw [h.1, h.2.1] at hl; simp at hl; rw [hl.1, hl.2]
  | x :: y :: z :: l, h => simp at h; rw [h.1, h.2.1] at hl; simp at hl; rw [hl.1, hl.2.1]

/-- Whatever the generator does, the samples of each component come in a row. -/
theorem zeroOne_blocks {τ : Type} (R : Rand τ) (L : Lib) (t t' : τ) :
    zeroOne.sample R L 3 t ≠ .ok ([toDct (atX 0), toDct (atX 1), toDct (atX 0)], t') := by
  intro h
  have hne : toDct (atX 0) ≠ toDct (atX 1) := by
    intro h
    have := congrFun (toDct_injective h) "X"
    simp [atX, baseAsg] at this
  simp only [zeroOne, Spe.sample, sampleMany, bind, Except.bind] at h
  split at h; · cases h
  rename_i r hr
  injection h with h
  rw [Prod.mk.injEq] at h
  have hb := mapS_ok (r := r.1) (t' := r.2) hr
  generalize R.choice _ 3 t = sel at *
  have hnd : (List.ofFn sel.1).reverse.dedup.reverse.Nodup := List.nodup_reverse.2 (List.nodup_dedup _)
  have block : ∀ {k : ℕ} {b : List Dct}, (∃ t t', Spe.sampleI R L [.atomic "X" 0 [("X", .id "X")], .atomic "X" 1 [("X", .id "X")]] k ((List.ofFn sel.1).count k) t = .ok (b, t')) →
      (k = 0 ∧ ∀ d ∈ b, d = toDct (atX 0)) ∨ (k = 1 ∧ ∀ d ∈ b, d = toDct (atX 1)) := by
    rintro k b ⟨t, t', hk⟩
    rw [sampleI_eq] at hk
    match k with
    | 0 =>
      simp only [List.getElem?_cons_zero, atomX_sample] at hk
      injection hk with hk
      rw [Prod.mk.injEq] at hk
      left; refine ⟨rfl, ?_⟩
      intro d hd; rw [← hk.1] at hd; exact List.eq_of_mem_replicate hd
    | 1 =>
      simp only [List.getElem?_cons_succ, List.getElem?_cons_zero, atomX_sample] at hk
      injection hk with hk
      rw [Prod.mk.injEq] at hk
      right; refine ⟨rfl, ?_⟩
      intro d hd; rw [← hk.1] at hd; exact List.eq_of_mem_replicate hd
    | k + 2 => simp at hk
  have hp := ofFn_get_perm r.1 (R.shuffle r.1.length r.2).1
  generalize (List.ofFn fun i => r.1.get ((R.shuffle r.1.length r.2).1 i)) = bs at *
  generalize (List.ofFn sel.1).reverse.dedup.reverse = keys at *
  obtain ⟨rs, t2⟩ := r
  simp only at h hp hb
  replace h : _ ∧ True := ⟨h.1, trivial⟩
  clear hr
  match keys, rs, hb, hnd with
  | [], [], .nil, _ => rw [hp.eq_nil] at h; simp at h
  | [k], [x], .cons h1 .nil, _ =>
    have e := List.perm_singleton.1 hp
    subst e
    obtain ⟨u, hu⟩ : ∃ u, ∀ d ∈ x, d = u := (block h1).elim (fun h => ⟨_, h.2⟩) (fun h => ⟨_, h.2⟩)
    exact hne (two_blocks (l' := []) (v := toDct (atX 0)) (by simpa using h.1) hu (by simp))
  | [k, k'], [x, y], .cons h1 (.cons h2 .nil), _ =>
    obtain ⟨u, hu⟩ : ∃ u, ∀ d ∈ x, d = u := (block h1).elim (fun h => ⟨_, h.2⟩) (fun h => ⟨_, h.2⟩)
    obtain ⟨v, hv⟩ : ∃ u, ∀ d ∈ y, d = u := (block h2).elim (fun h => ⟨_, h.2⟩) (fun h => ⟨_, h.2⟩)
    rcases List.perm_pair.1 hp with e | e
    · subst e
      exact hne (two_blocks (by simpa using h.1) hu hv)
    · subst e
      exact hne (two_blocks (by simpa using h.1) hv hu)
  | k :: k' :: k'' :: ks, x :: y :: z :: zs, .cons h1 (.cons h2 (.cons h3 _)), hnd =>
    have b1 := (block h1).imp (fun h => h.1) (fun h => h.1)
    have b2 := (block h2).imp (fun h => h.1) (fun h => h.1)
    have b3 := (block h3).imp (fun h => h.1) (fun h => h.1)
    simp at hnd
    omega

/-- C35 fails for mixtures: no generator makes `sample(3)` three independent draws of `0` or `1`, since the sequence `0, 1, 0` never occurs. -/
theorem C35_mixture_wrong {τ : Type} [MeasurableSpace τ] (R : Rand τ) (U : Measure τ) [IsProbabilityMeasure U] (L : Lib) (μ : Dist → Measure ℝ) :
    ¬ zeroOne.IID R U L μ 3 := by
  rintro ⟨f, hf, hm⟩
  have hp := (zeroOne_wf ctx0 L μ).prob
  have hA : ∀ x : ℝ, MeasurableSet {ω : Asg | ω "X" = some (.num x)} := by
    intro x
    have h1 : MeasurableSet ({some (.num x)} : Set (Option (Val ℝ))) := by
      rw [measurableSet_ov]
      have : numVal ⁻¹' {some (.num x)} = {x} := by ext y; simp [numVal]
      rw [this]; exact measurableSet_singleton x
    exact (measurable_pi_apply (X := fun _ => Option (Val ℝ)) "X") h1
  have hden : ∀ x : ℝ, x = 0 ∨ x = 1 → zeroOne.den μ {ω : Asg | ω "X" = some (.num x)} ≠ 0 := by
    intro x hx
    simp only [zeroOne, Spe.den, Spe.denL, mixture, List.zipWith_cons_cons, List.zipWith_nil_left, List.sum_cons, List.sum_nil, add_zero, Measure.add_apply,
      Measure.smul_apply, Measure.dirac_apply' _ (hA x), Set.indicator_apply, Set.mem_setOf_eq, Env.extend, List.foldl_cons, List.foldl_nil, Tr.eval, baseAsg, smul_eq_mul]
    rcases hx with rfl | rfl <;> simp
  let a : Fin 3 → ℝ := ![0, 1, 0]
  have hB : (Measure.pi fun _ : Fin 3 => zeroOne.den μ) (Set.univ.pi fun i => {ω : Asg | ω "X" = some (.num (a i))}) ≠ 0 := by
    rw [Measure.pi_pi]
    refine Finset.prod_ne_zero_iff.2 (fun i _ => hden _ ?_)
    fin_cases i <;> simp [a]
  rw [← hf.value, Measure.map_apply (show Measurable (fun t => (f t).1) from measurable_fst.comp hf.1) (MeasurableSet.univ_pi fun i => hA _)] at hB
  obtain ⟨t, ht, hB⟩ : ∃ t, zeroOne.sample R L 3 t = .ok (List.ofFn (fun i => toDct ((f t).1 i)), (f t).2) ∧ t ∈ (fun t => (f t).1) ⁻¹' (Set.univ.pi fun i => {ω : Asg | ω "X" = some (.num (a i))}) := by
    by_contra hc
    push Not at hc
    refine hB (measure_mono_null ?_ (ae_iff.1 hm))
    intro t ht h
    exact hc t h ht
  have hk := (C34_sample (zeroOne_wf ctx0 L μ) ht).2
  have hω : ∀ i, (f t).1 i = atX (a i) := by
    intro i
    have h1 : (f t).1 i "X" = some (.num (a i)) := hB i trivial
    have h2 := hk _ ((List.mem_ofFn' _ _).2 ⟨i, rfl⟩)
    funext y
    by_cases hy : y = "X"
    · subst hy; rw [h1]; simp [atX, baseAsg]
    · have h3 := h2 y
      have : y ∉ zeroOne.symbols := by simp [zeroOne, Spe.symbols, Spe.symbolsL, hy]
      have : toDct ((f t).1 i) y = none := by by_contra hc; exact this (h3.1 hc)
      simp [toDct] at this
      rw [this]; simp [atX, baseAsg, hy]
  refine zeroOne_blocks R L t (f t).2 (ht.trans ?_)
  simp [List.ofFn_succ, hω, a]

end Sppl
