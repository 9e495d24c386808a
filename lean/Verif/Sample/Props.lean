import Verif.Sample.Lemmas
import Verif.Spe.Example

set_option linter.all false

/-!
# C34: the shape of samples
-/

namespace Sppl
open Classical MeasureTheory

section
variable {τ : Type} {R : Rand τ} {c : Ctx} {L : Lib} {μ : Dist → Measure ℝ}

/-- C34: `sample_subset(symbols, N)` returns exactly `N` dictionaries, with exactly the requested variables, for a non-empty request. -/
theorem C34_subset_partial {s : Spe} (hs : s.WF c L μ) {isSet : Bool} {syms : List String} {N : ℕ} {t t' : τ} {l : List Dct} (hne : syms ≠ [])
    (h : s.sampleSubset R L isSet syms N t = .ok (l, t')) : l.length = N ∧ ∀ d ∈ l, HasKeys d syms.toFinset := by
  revert isSet syms N t t' l
  induction s using Spe.ind with
  | hr => intro _ _ _ _ _ _ _ h; simp only [Spe.sampleSubset] at h; exact (leafSubset_ok h).2
  | ha => intro _ _ _ _ _ _ _ h; simp only [Spe.sampleSubset] at h; exact (leafSubset_ok h).2
  | hn => intro _ _ _ _ _ _ _ h; simp only [Spe.sampleSubset] at h; exact (leafSubset_ok h).2
  | hs cs ws ih =>
    intro isSet syms N t t' l hne h
    cases hs with
    | sum hcs =>
    simp only [Spe.sampleSubset] at h
    refine sampleMany_ok ?_ h
    intro i n t l t' _ h
    rw [sampleSubsetI_eq] at h
    split at h; swap; · cases h
    rename_i s hi
    have hm := List.mem_of_getElem? hi
    exact ih s hm (hcs s hm) hne h
  | hp cs ih =>
    intro isSet syms N t t' l hne h
    cases hs with
    | prod hcs =>
    simp only [Spe.sampleSubset, bind, Except.bind] at h
    split at h; · cases h
    rename_i parts hparts
    split at h; · cases h
    rename_i r hr
    cases h
    obtain ⟨p1, p2, -⟩ := partition_ok hparts
    have hr := mapS_ok (r := r.1) (t' := r.2) hr
    have key : List.Forall₂ (fun l S => l.length = N ∧ ∀ d ∈ l, HasKeys d S) r.1 (parts.map (fun p => p.2.toFinset)) := by
      rw [List.forall₂_map_right_iff, List.forall₂_iff_get]
      rw [List.forall₂_iff_get] at hr
      refine ⟨hr.1.symm, ?_⟩
      intro i h1 h2
      obtain ⟨t, t', h⟩ := hr.2 i h2 h1
      rw [sampleSubsetI_eq] at h
      split at h; swap; · cases h
      rename_i s hi
      have hm := List.mem_of_getElem? hi
      exact ih s hm (hcs s hm) (p1 _ (List.getElem_mem _)).1 h
    have hne' : r.1 ≠ [] := by
      intro h0
      obtain ⟨x, hx⟩ := List.exists_mem_of_ne_nil _ hne
      obtain ⟨p, hp, -⟩ := (p2 x).1 hx
      have := key.length_eq
      rw [h0] at this
      simp at this
      rw [List.length_eq_zero_iff.1 this.symm] at hp
      cases hp
    obtain ⟨k1, k2⟩ := mergeSamples_ok hne' key
    refine ⟨k1, ?_⟩
    intro d hd x
    rw [k2 d hd x, List.mem_toFinset, p2 x]
    simp

/-- C34: `sample(N)` returns exactly `N` dictionaries, with exactly the variables of the SPE. -/
theorem C34_sample {s : Spe} (hs : s.WF c L μ) {N : ℕ} {t t' : τ} {l : List Dct} (h : s.sample R L N t = .ok (l, t')) :
    l.length = N ∧ ∀ d ∈ l, HasKeys d s.symbols := by
  revert N t t' l
  induction s using Spe.ind with
  | hr => intro _ _ _ _ h; simp only [Spe.sample] at h; exact (leafSubset_ok h).2
  | ha => intro _ _ _ _ h; simp only [Spe.sample] at h; exact (leafSubset_ok h).2
  | hn => intro _ _ _ _ h; simp only [Spe.sample] at h; simpa [Spe.symbols] using (leafSubset_ok h).2
  | hs cs ws ih =>
    intro N t t' l h
    cases hs with
    | sum hcs hne _ _ _ hS =>
    simp only [Spe.sample] at h
    rw [Spe.symbols_sum hne hS]
    refine sampleMany_ok ?_ h
    intro i n t l t' _ h
    rw [sampleI_eq] at h
    split at h; swap; · cases h
    rename_i s hi
    have hm := List.mem_of_getElem? hi
    rw [← hS s hm]
    exact ih s hm (hcs s hm) h
  | hp cs ih =>
    intro N t t' l h
    cases hs with
    | prod hcs hne =>
    simp only [Spe.sample, bind, Except.bind] at h
    split at h; · cases h
    rename_i r hr
    cases h
    rw [sampleL_eq] at hr
    have hr := mapS_ok (r := r.1) (t' := r.2) hr
    have key : List.Forall₂ (fun l S => l.length = N ∧ ∀ d ∈ l, HasKeys d S) r.1 (cs.map Spe.symbols) := by
      rw [List.forall₂_map_right_iff, List.forall₂_iff_get]
      rw [List.forall₂_iff_get] at hr
      refine ⟨hr.1.symm, ?_⟩
      intro i h1 h2
      obtain ⟨t, t', h⟩ := hr.2 i h2 h1
      exact ih _ (List.getElem_mem _) (hcs _ (List.getElem_mem _)) h
    have hne' : r.1 ≠ [] := by
      intro h0
      have := key.length_eq
      rw [h0] at this
      simp at this
      exact hne (List.length_eq_zero_iff.1 this.symm)
    obtain ⟨k1, k2⟩ := mergeSamples_ok hne' key
    refine ⟨k1, ?_⟩
    intro d hd x
    rw [k2 d hd x, Spe.mem_symbols_prod]
    simp

theorem leaf_total (hR : R.InRange) {s : Spe} (hs : s.WF c L μ) (he : s.Everywhere) (hl : s.leafEnv.isSome) {isSet : Bool} {syms : List String} {N : ℕ}
    (hsub : ∀ x ∈ syms, x ∈ s.symbols) (t : τ) : ∃ r, leafSampleSubset R L s isSet syms N t = .ok r := by
  have real : ∀ (X : String) (env : Env) (xs : List ℝ), EnvBuilt X env → (∀ p ∈ env, p.2.Everywhere) →
      ∃ r, (xs.map (fun x => Dct.single X (.val (.num x)))).mapM (fun d => envLoop syms env d (fun _ => none)) = .ok r := by
    intro X env xs hb he
    induction xs with
    | nil => exact ⟨[], rfl⟩
    | cons x xs ih =>
      obtain ⟨r, hr⟩ := ih
      have h1 := envLoop_eq (syms := syms) (ω := baseAsg X (.num x)) (sim := fun _ => none) hb.nodup (fun p hp => (he p hp).plain) (by
        intro p hp
        obtain ⟨y, hy⟩ := hb.everywhere he (ω := baseAsg X (.num x)) (x := x) (by simp [baseAsg]) p.1 (List.mem_map.2 ⟨p, hp, rfl⟩)
        rw [hy]; simp)
      rw [← single_toDct] at h1
      exact ⟨_ :: r, by rw [List.map_cons, List.mapM_cons, h1]; simp only [bind, Except.bind]; rw [hr]; rfl⟩
  cases hs with
  | @real k X d supp cond env _ henv =>
    cases he with
    | real he =>
    simp only [Spe.symbols, List.mem_toFinset] at hsub
    simp only [leafSampleSubset, Spe.leafEnv, leafDraws, bind, Except.bind]
    rw [if_pos hsub]
    split
    · exact ⟨_, rfl⟩
    · obtain ⟨r, hr⟩ := real X env (List.ofFn (realDraws R L ⟨k, d, supp, cond⟩ N t).1) henv.built he
      rw [hr]
      exact ⟨_, rfl⟩
  | @atomic X v env henv =>
    cases he with
    | atomic he =>
    simp only [Spe.symbols, List.mem_toFinset] at hsub
    simp only [leafSampleSubset, Spe.leafEnv, leafDraws, bind, Except.bind]
    rw [if_pos hsub]
    split
    · exact ⟨_, rfl⟩
    · obtain ⟨r, hr⟩ := real X env (List.replicate N v) henv.built he
      rw [List.map_replicate] at hr
      rw [hr]
      exact ⟨_, rfl⟩
  | @nominal X dist h1 h2 h3 =>
    simp only [Spe.symbols, Finset.mem_singleton] at hsub
    simp only [leafSampleSubset, Spe.leafEnv, leafDraws, bind, Except.bind]
    rw [if_pos (by simpa using hsub)]
    have hne : dist ≠ [] := by rintro rfl; simp at h3
    have hpick : ∃ xs, pickOutcomes dist (R.choice (normProbs (dist.map (fun p => (p.2 : ℝ)))) N t).1 = .ok xs := by
      unfold pickOutcomes
      have gen : ∀ (l : List ℕ), (∀ i ∈ l, i < dist.length) → ∃ xs, l.mapM (fun i => match (dist.map Prod.fst)[i]? with
          | some x => (.ok x : Res String)
          | none => .error .index) = .ok xs := by
        intro l
        induction l with
        | nil => intro _; exact ⟨[], rfl⟩
        | cons i l ih =>
          intro h
          obtain ⟨xs, hxs⟩ := ih (fun j hj => h j (by simp [hj]))
          have hi := h i (by simp)
          refine ⟨(dist.map Prod.fst)[i]'(by simpa using hi) :: xs, ?_⟩
          rw [List.mapM_cons, hxs]
          simp only [List.getElem?_eq_getElem (show i < (dist.map Prod.fst).length by simpa using hi), bind, Except.bind, pure, Except.pure]
      refine gen _ ?_
      intro i hi
      obtain ⟨j, rfl⟩ := (List.mem_ofFn' _ _).1 hi
      simpa [normProbs] using hR (normProbs (dist.map (fun p => (p.2 : ℝ)))) N t j (by simpa [normProbs] using hne)
    obtain ⟨xs, hxs⟩ := hpick
    rw [hxs]
    simp only
    split
    · exact ⟨_, rfl⟩
    · have : ∃ r, (xs.map (fun x => Dct.single X (.val (.str x)))).mapM (fun d => envLoop syms [(X, .id X)] d (fun _ => none)) = .ok r := by
        clear hxs
        induction xs with
        | nil => exact ⟨[], rfl⟩
        | cons x xs ih =>
          obtain ⟨r, hr⟩ := ih
          have h1 := envLoop_eq (syms := syms) (env := [(X, .id X)]) (ω := baseAsg X (.str x)) (sim := fun _ => none) (by simp) (by simp [Tr.Plain]) (by
            simp [Env.extend, Tr.eval, baseAsg])
          rw [← single_toDct] at h1
          exact ⟨_ :: r, by rw [List.map_cons, List.mapM_cons, h1]; simp only [bind, Except.bind]; rw [hr]; rfl⟩
      obtain ⟨r, hr⟩ := this
      rw [hr]
      exact ⟨_, rfl⟩
  | sum => simp [Spe.leafEnv] at hl
  | prod => simp [Spe.leafEnv] at hl

/-- C34: `sample_subset` returns for every `N` and random state, if the derived variables have values everywhere and the requested variables are variables
of the SPE. -/
theorem C34_subset_total (hR : R.InRange) {s : Spe} (hs : s.WF c L μ) (he : s.Everywhere) {isSet : Bool} {syms : List String} (hsub : ∀ x ∈ syms, x ∈ s.symbols)
    (N : ℕ) (t : τ) : ∃ r, s.sampleSubset R L isSet syms N t = .ok r := by
  revert isSet syms N t
  induction s using Spe.ind with
  | hr => intro _ _ hsub _ t; simp only [Spe.sampleSubset]; exact leaf_total hR hs he (by simp [Spe.leafEnv]) hsub t
  | ha => intro _ _ hsub _ t; simp only [Spe.sampleSubset]; exact leaf_total hR hs he (by simp [Spe.leafEnv]) hsub t
  | hn => intro _ _ hsub _ t; simp only [Spe.sampleSubset]; exact leaf_total hR hs he (by simp [Spe.leafEnv]) hsub t
  | hs cs ws ih =>
    intro isSet syms hsub N t
    cases he with
    | sum he =>
    cases hs with
    | sum hcs hne hlen _ _ hS =>
    rw [Spe.symbols_sum hne hS] at hsub
    simp only [Spe.sampleSubset]
    refine sampleMany_total hR (by rintro rfl; simp at hlen; exact hne hlen) ?_ t
    intro i n t hi _ _
    rw [sampleSubsetI_eq, List.getElem?_eq_getElem (hlen ▸ hi)]
    have hm := List.getElem_mem (l := cs) (hlen ▸ hi)
    exact ih _ hm (hcs _ hm) (he _ hm) (by rw [hS _ hm]; exact hsub) n t
  | hp cs ih =>
    intro isSet syms hsub N t
    cases he with
    | prod he =>
    cases hs with
    | prod hcs hne hd =>
    have hlook : ∀ x ∈ syms, ∃ i, lookupChild (Spe.symbolsL cs) x = .ok i := by
      intro x hx
      obtain ⟨s, hs, hxs⟩ := Spe.mem_symbols_prod.1 (hsub x hx)
      unfold lookupChild
      have : ((Spe.symbolsL cs).findIdx? (fun S => decide (x ∈ S))).isSome := by
        rw [List.findIdx?_isSome, List.any_eq_true]
        exact ⟨s.symbols, by rw [Spe.symbolsL_eq]; exact List.mem_map.2 ⟨s, hs, rfl⟩, by simpa using hxs⟩
      obtain ⟨i, hi⟩ := Option.isSome_iff_exists.1 this
      exact ⟨i, by rw [hi]⟩
    obtain ⟨parts, hparts⟩ := partition_total hlook
    obtain ⟨p1, p2, -⟩ := partition_ok hparts
    obtain ⟨r, hr⟩ := mapS_total (f := fun p t => Spe.sampleSubsetI R L cs p.1 false p.2 N t) (l := parts) (by
      intro p hp t
      obtain ⟨x, hx⟩ := List.exists_mem_of_ne_nil _ (p1 p hp).1
      obtain ⟨hi, -⟩ := lookupChild_ok ((p1 p hp).2 x hx)
      have hi' : p.1 < cs.length := by simpa [Spe.symbolsL_eq] using hi
      rw [sampleSubsetI_eq, List.getElem?_eq_getElem hi']
      have hm := List.getElem_mem (l := cs) hi'
      refine ih _ hm (hcs _ hm) (he _ hm) ?_ N t
      intro y hy
      obtain ⟨hj, hy'⟩ := lookupChild_ok ((p1 p hp).2 y hy)
      simpa [Spe.symbolsL_eq] using hy') t
    exact ⟨_, by simp only [Spe.sampleSubset, hparts, hr, bind, Except.bind]; rfl⟩

/-- C34: `sample` returns for every `N` and random state, if the derived variables have values everywhere. -/
theorem C34_sample_total (hR : R.InRange) {s : Spe} (hs : s.WF c L μ) (he : s.Everywhere) (N : ℕ) (t : τ) : ∃ r, s.sample R L N t = .ok r := by
  revert N t
  induction s using Spe.ind with
  | hr => intro _ t; simp only [Spe.sample]; exact leaf_total hR hs he (by simp [Spe.leafEnv]) (by simp [Spe.symbols]) t
  | ha => intro _ t; simp only [Spe.sample]; exact leaf_total hR hs he (by simp [Spe.leafEnv]) (by simp [Spe.symbols]) t
  | hn => intro _ t; simp only [Spe.sample]; exact leaf_total hR hs he (by simp [Spe.leafEnv]) (by simp [Spe.symbols]) t
  | hs cs ws ih =>
    intro N t
    cases he with
    | sum he =>
    cases hs with
    | sum hcs hne hlen _ _ hS =>
    simp only [Spe.sample]
    refine sampleMany_total hR (by rintro rfl; simp at hlen; exact hne hlen) ?_ t
    intro i n t hi _ _
    rw [sampleI_eq, List.getElem?_eq_getElem (hlen ▸ hi)]
    have hm := List.getElem_mem (l := cs) (hlen ▸ hi)
    exact ih _ hm (hcs _ hm) (he _ hm) n t
  | hp cs ih =>
    intro N t
    cases he with
    | prod he =>
    cases hs with
    | prod hcs hne hd =>
    obtain ⟨r, hr⟩ := mapS_total (f := fun s t => Spe.sample R L s N t) (l := cs) (fun s hs t => ih s hs (hcs s hs) (he s hs) N t) t
    exact ⟨_, by simp only [Spe.sample, sampleL_eq, hr, bind, Except.bind]; rfl⟩

theorem sampleMany_some {α : Type} {ws : List ℝ} {func : ℕ → ℕ → τ → Res (List α × τ)} {N : ℕ} {t : τ} {r : List α × τ} (hN : 0 < N)
    (h : sampleMany R ws func N t = .ok r) : ∃ i n t' r', 0 < n ∧ func i n t' = .ok r' := by
  simp only [sampleMany, bind, Except.bind] at h
  split at h; · cases h
  rename_i q hq
  have hq := mapS_ok (r := q.1) (t' := q.2) hq
  have hm : (R.choice (normProbs (pnorm ws)) N t).1 ⟨0, hN⟩ ∈ List.ofFn (R.choice (normProbs (pnorm ws)) N t).1 := (List.mem_ofFn' _ _).2 ⟨_, rfl⟩
  obtain ⟨b, -, t1, t2, hb⟩ := forall₂_mem_left hq (a := (R.choice (normProbs (pnorm ws)) N t).1 ⟨0, hN⟩) (by simpa using hm)
  exact ⟨_, _, _, _, List.count_pos_iff.2 hm, hb⟩

/-- C34: requesting a variable that the SPE does not have raises an exception. -/
theorem C34_unknown {s : Spe} (hs : s.WF c L μ) {isSet : Bool} {syms : List String} {x : String} (hx : x ∈ syms) (hxs : x ∉ s.symbols) {N : ℕ} (hN : 0 < N)
    (t : τ) : ∃ err, s.sampleSubset R L isSet syms N t = .error err := by
  suffices ∀ r, s.sampleSubset R L isSet syms N t = .ok r → x ∈ s.symbols by
    cases h : s.sampleSubset R L isSet syms N t with
    | error e => exact ⟨e, rfl⟩
    | ok r => exact absurd (this r h) hxs
  clear hxs
  revert isSet syms N t
  induction s using Spe.ind with
  | hr => intro _ _ hx _ _ t r h; simp only [Spe.sampleSubset] at h; exact (leafSubset_ok (l := r.1) (t' := r.2) h).1 x hx
  | ha => intro _ _ hx _ _ t r h; simp only [Spe.sampleSubset] at h; exact (leafSubset_ok (l := r.1) (t' := r.2) h).1 x hx
  | hn => intro _ _ hx _ _ t r h; simp only [Spe.sampleSubset] at h; exact (leafSubset_ok (l := r.1) (t' := r.2) h).1 x hx
  | hs cs ws ih =>
    intro isSet syms hx N hN t r h
    cases hs with
    | sum hcs hne hlen _ _ hS =>
    simp only [Spe.sampleSubset] at h
    obtain ⟨i, n, t', r', hn, h⟩ := sampleMany_some hN h
    rw [sampleSubsetI_eq] at h
    split at h; swap; · cases h
    rename_i s hi
    have hm := List.mem_of_getElem? hi
    rw [Spe.symbols_sum hne hS, ← hS s hm]
    exact ih s hm (hcs s hm) hx hn t' _ h
  | hp cs ih =>
    intro isSet syms hx N hN t r h
    simp only [Spe.sampleSubset, bind, Except.bind] at h
    split at h; · cases h
    rename_i parts hparts
    obtain ⟨p1, p2, -⟩ := partition_ok hparts
    obtain ⟨p, hp, hxp⟩ := (p2 x).1 hx
    obtain ⟨hi, hxi⟩ := lookupChild_ok ((p1 p hp).2 x hxp)
    rw [Spe.mem_symbols_prod]
    simp only [Spe.symbolsL_eq, List.getElem_map] at hxi
    exact ⟨_, List.getElem_mem _, hxi⟩

theorem funcEvaluate_ok {α : Type} {S : Finset String} {args : List String} {func : List PyV → Res α} {ds : List Dct} {l : List α}
    (h : funcEvaluate S args func ds = .ok l) : List.Forall₂ (fun d a => ∃ vs, List.Forall₂ (fun x v => d x = some v) args vs ∧ func vs = .ok a) ds l := by
  simp only [funcEvaluate, funcSymbols, bind, Except.bind] at h
  split at h; · cases h
  rename_i as has
  split at has; swap; · cases has
  cases has
  split at h; · cases h
  rename_i kw hkw
  have hkw := mapM_ok hkw
  have h := mapM_ok h
  clear * - hkw h
  induction hkw generalizing l with
  | nil => cases h; exact .nil
  | cons h1 _ ih =>
    cases h with
    | cons h2 h3 =>
    refine .cons ⟨_, ?_, h2⟩ (ih h3)
    refine (mapM_ok h1).imp ?_
    intro x v hx
    split at hx
    · cases hx; assumption
    · cases hx

/-- C34: `sample_func(func, N)` is `func` at the samples that `sample_subset` returns for its arguments, with the same random state; so exactly `N` values if
there are arguments. -/
theorem C34_func {α : Type} {s : Spe} (hs : s.WF c L μ) {args : List String} {func : List PyV → Res α} {N : ℕ} {t t' : τ} {l : List α}
    (h : s.sampleFunc R L args func N t = .ok (l, t')) :
    (∃ ds, s.sampleSubset R L false args N t = .ok (ds, t') ∧
      List.Forall₂ (fun d a => ∃ vs, List.Forall₂ (fun x v => d x = some v) args vs ∧ func vs = .ok a) ds l) ∧ (args ≠ [] → l.length = N) := by
  suffices hk : ∃ ds, s.sampleSubset R L false args N t = .ok (ds, t') ∧
      List.Forall₂ (fun d a => ∃ vs, List.Forall₂ (fun x v => d x = some v) args vs ∧ func vs = .ok a) ds l by
    refine ⟨hk, fun hne => ?_⟩
    obtain ⟨ds, h1, h2⟩ := hk
    rw [← h2.length_eq]
    exact (C34_subset_partial hs hne h1).1
  have fsym : ∀ {S : Finset String} {ds : List Dct} {l : List α}, funcEvaluate S args func ds = .ok l → ∀ x ∈ args, x ∈ S := by
    intro S ds l h
    simp only [funcEvaluate, funcSymbols, bind, Except.bind] at h
    split at h; · cases h
    rename_i as has
    split at has; swap; · cases has
    assumption
  have leaf : ∀ {s : Spe} {X : String} {env : Env} {N : ℕ} {t t' : τ} {l : List α}, s.leafEnv = some (X, env) → X ∈ env.map Prod.fst → (env.length = 1 → env = [(X, .id X)]) → (env.map Prod.fst).Nodup →
      (do
        let r ← leafSampleSubset R L s true (env.map Prod.fst) N t
        let l ← funcEvaluate (env.map Prod.fst).toFinset args func r.1
        (.ok (l, r.2) : Res (List α × τ))) = .ok (l, t') →
      ∃ ds, leafSampleSubset R L s false args N t = .ok (ds, t') ∧
        List.Forall₂ (fun d a => ∃ vs, List.Forall₂ (fun x v => d x = some v) args vs ∧ func vs = .ok a) ds l := by
    intro s X env N t t' l hs hX h1 hnd h
    simp only [leafSampleSubset, hs, bind, Except.bind] at h
    rw [if_pos (by simp)] at h
    split at h; · cases h
    rename_i r hr
    split at h; · cases h
    rename_i l' hl
    cases h
    have ha := fsym hl
    have hl := funcEvaluate_ok hl
    split at hr; · cases hr
    rename_i q hq
    have hdraw := leafDraws_ok (l := q.1) (t' := q.2) hs hq
    -- the dictionaries of the general path
    have hrest : ∀ {d full : Dct}, envLoop (env.map Prod.fst) env d (fun _ => none) = .ok full →
        ∃ sub, envLoop args env d (fun _ => none) = .ok sub ∧ ∀ x ∈ args, sub x = full x := by
      have gen : ∀ (env' : Env) (d s1 s2 full : Dct), (∀ x ∈ env'.map Prod.fst, x ∈ env.map Prod.fst) → (∀ x ∈ args, s2 x = s1 x) →
          envLoop (env.map Prod.fst) env' d s1 = .ok full → ∃ sub, envLoop args env' d s2 = .ok sub ∧ ∀ x ∈ args, sub x = full x := by
        intro env'
        induction env' with
        | nil => intro d s1 s2 full _ h12 h; simp [envLoop] at h; subst h; exact ⟨s2, rfl, h12⟩
        | cons p env' ih =>
          obtain ⟨s, f⟩ := p
          intro d s1 s2 full hsub h12 h
          simp only [envLoop, bind, Except.bind] at h
          split at h; · cases h
          rename_i v hv
          rw [if_pos (hsub s (by simp))] at h
          have h12' : ∀ x ∈ args, (if s ∈ args then s2.put s v else s2) x = s1.put s v x := by
            intro x hx
            by_cases hsx : x = s
            · subst hsx; rw [if_pos hx]; simp [Dct.put]
            · split <;> simp [Dct.put, hsx, h12 x hx]
          obtain ⟨sub, hs1, hs2⟩ := ih (d.put s v) (s1.put s v) (if s ∈ args then s2.put s v else s2) full (fun x hx => hsub x (by simp at hx ⊢; exact .inr hx)) h12' h
          exact ⟨sub, by simp only [envLoop, hv, bind, Except.bind]; exact hs1, hs2⟩
      intro d full h
      exact gen env d _ _ full (fun x hx => hx) (fun _ _ => rfl) h
    have hfin : ∀ {ds subs : List Dct} {l : List α}, List.Forall₂ (fun full sub => ∀ x ∈ args, sub x = full x) ds subs →
        List.Forall₂ (fun d a => ∃ vs, List.Forall₂ (fun x v => d x = some v) args vs ∧ func vs = .ok a) ds l →
        List.Forall₂ (fun d a => ∃ vs, List.Forall₂ (fun x v => d x = some v) args vs ∧ func vs = .ok a) subs l := by
      intro ds subs l h1 h2
      induction h1 generalizing l with
      | nil => exact h2
      | cons h _ ih =>
        cases h2 with
        | cons h3 h4 =>
        refine .cons ?_ (ih h4)
        obtain ⟨vs, hvs, hf⟩ := h3
        refine ⟨vs, ?_, hf⟩
        clear hf h4 ih
        have hall : ∀ x ∈ args, _ := h
        clear * - hvs hall
        induction hvs with
        | nil => exact .nil
        | cons h5 _ ih => exact .cons ((hall _ (by simp)).trans h5) (ih (fun x hx => hall x (by simp [hx])))
    have hmap : ∀ {ds fulls : List Dct}, List.Forall₂ (fun d full => envLoop (env.map Prod.fst) env d (fun _ => none) = .ok full) ds fulls →
        ∃ subs, ds.mapM (fun d => envLoop args env d (fun _ => none)) = .ok subs ∧ List.Forall₂ (fun full sub => ∀ x ∈ args, sub x = full x) fulls subs := by
      intro ds fulls h
      induction h with
      | nil => exact ⟨[], rfl, .nil⟩
      | cons h _ ih =>
        obtain ⟨sub, k1, k2⟩ := hrest h
        obtain ⟨subs, k3, k4⟩ := ih
        exact ⟨sub :: subs, by rw [List.mapM_cons, k1]; simp only [bind, Except.bind]; rw [k3]; rfl, .cons k2 k4⟩
    simp only [leafSampleSubset, hs, bind, Except.bind, hq]
    rw [if_pos (by simpa using ha)]
    split at hr
    · rename_i hone
      cases hr
      have hlen : env = [(X, .id X)] := by
        refine h1 ?_
        have := List.toFinset_card_of_nodup hnd
        rw [hone.2] at this
        simpa using this.symm
      obtain ⟨subs, k1, k2⟩ := hmap (ds := r.1) (fulls := r.1) (by
        rw [List.forall₂_same]
        intro d hd
        have hk := hdraw.2 d hd
        obtain ⟨v, hv⟩ := Option.ne_none_iff_exists'.1 ((hk X).2 (by simp))
        rw [hlen]
        simp only [envLoop, Tr.evalPy, hv, bind, Except.bind, List.map_cons, List.map_nil, List.mem_singleton, if_true]
        congr 1
        funext x
        by_cases hx : x = X
        · simp [Dct.put, hx, hv]
        · simp only [Dct.put, hx, if_false]
          exact (not_not.1 ((hk x).not.2 (by simpa using hx))).symm)
      refine ⟨subs, ?_, hfin k2 hl⟩
      rw [if_neg (by simp), k1]
    · split at hr; · cases hr
      rename_i fulls hfulls
      cases hr
      obtain ⟨subs, k1, k2⟩ := hmap (mapM_ok hfulls)
      refine ⟨subs, ?_, hfin k2 hl⟩
      rw [if_neg (by simp), k1]
  revert N t t' l
  induction s using Spe.ind with
  | hr =>
    intro _ _ _ _ h
    simp only [Spe.sampleFunc, Spe.sample] at h
    cases hs with
    | real _ henv => simp only [Spe.sampleSubset]; exact leaf rfl henv.built.base_mem henv.built.single henv.built.nodup h
  | ha =>
    intro _ _ _ _ h
    simp only [Spe.sampleFunc, Spe.sample] at h
    cases hs with
    | atomic henv => simp only [Spe.sampleSubset]; exact leaf rfl henv.built.base_mem henv.built.single henv.built.nodup h
  | hn X dist =>
    intro _ _ _ _ h
    simp only [Spe.sampleFunc, Spe.sample] at h
    simp only [Spe.sampleSubset]
    exact leaf (X := X) (env := [(X, .id X)]) rfl (by simp) (fun _ => rfl) (by simp) (by simpa [Spe.symbols] using h)
  | hs cs ws ih =>
    intro N t t' l h
    cases hs with
    | sum hcs =>
    simp only [Spe.sampleFunc] at h
    simp only [Spe.sampleSubset]
    refine sampleMany_rel ?_ h
    intro i n t l t' h
    rw [sampleFuncI_eq] at h
    rw [sampleSubsetI_eq]
    split at h; swap; · cases h
    rename_i s hi
    have hm := List.mem_of_getElem? hi
    exact ih s hm (hcs s hm) h
  | hp cs ih =>
    intro N t t' l h
    simp only [Spe.sampleFunc, bind, Except.bind] at h
    split at h; · cases h
    rename_i as has
    simp only [funcSymbols] at has
    split at has; swap; · cases has
    cases has
    split at h; · cases h
    rename_i r hr
    split at h; · cases h
    rename_i l' hl
    cases h
    exact ⟨r.1, hr, funcEvaluate_ok hl⟩

/-- C34 is false for an empty request: for a product, `sample_subset([], N)` returns no sample at all, whatever `N` is (a leaf returns `N` empty
dictionaries). -/
theorem C34_empty_wrong (cs : List Spe) (isSet : Bool) (N : ℕ) (t : τ) : (Spe.prod cs).sampleSubset R L isSet [] N t = .ok ([], t) := by
  simp [Spe.sampleSubset, partitionSyms, mapS, mergeSamples, bind, Except.bind, pure, Except.pure]

/-- C34 is false for functions without arguments: for a product, `sample_func` returns no value at all. -/
theorem C34_constant_wrong {α : Type} (cs : List Spe) (func : List PyV → Res α) (N : ℕ) (t : τ) : (Spe.prod cs).sampleFunc R L [] func N t = .ok ([], t) := by
  rw [Spe.sampleFunc]
  simp only [funcSymbols, funcEvaluate, bind, Except.bind]
  rw [if_pos (by simp)]
  simp only
  rw [C34_empty_wrong]
  rfl

end

/-- A source of randomness that always draws the first element and the number zero. -/
def constRand : Rand Unit := ⟨fun _ t => (fun _ => 0, t), fun _ _ t => (fun _ => 0, t), fun _ t => (1, t), fun _ _ t => (fun _ => 0, t), fun _ _ => 0⟩

theorem constRand_ok : constRand.InRange := by
  intro p N t i hp
  exact List.length_pos_of_ne_nil hp

theorem coins_everywhere : coins.Everywhere := by
  refine .prod ?_
  intro s hs
  simp at hs
  rcases hs with rfl | rfl <;> exact .nominal

/-- C34 non-vacuity: three samples of two coins. -/
example (c : Ctx) (L : Lib) (μ : Dist → Measure ℝ) : ∃ r, coins.sample constRand L 3 () = .ok r :=
  C34_sample_total (c := c) (μ := μ) constRand_ok (coins_wf _ _ _) coins_everywhere 3 ()

/-- C34 non-vacuity: three samples of one of two coins. -/
example (c : Ctx) (L : Lib) (μ : Dist → Measure ℝ) : ∃ r, coins.sampleSubset constRand L true ["Y"] 3 () = .ok r :=
  C34_subset_total (c := c) (μ := μ) constRand_ok (coins_wf _ _ _) coins_everywhere (by simp [coins, Spe.symbols, Spe.symbolsL, coin]) 3 ()

end Sppl
