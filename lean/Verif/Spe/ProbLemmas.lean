import Verif.Spe.ProdLemmas
import Verif.Spe.IELemmas

set_option linter.all false

/-!
# Probabilities of events under an SPE (helper lemmas)
-/

namespace Sppl
open Classical MeasureTheory
open scoped ENNReal ProbabilityTheory

variable {c : Ctx} {L : Lib} {μ : Dist → Measure ℝ}

/-- Induction over SPEs. -/
theorem Spe.ind {Q : Spe → Prop} (hr : ∀ k X d supp cond env, Q (.real k X d supp cond env)) (ha : ∀ X v env, Q (.atomic X v env))
    (hn : ∀ X dist, Q (.nominal X dist)) (hs : ∀ cs ws, (∀ s ∈ cs, Q s) → Q (.sum cs ws)) (hp : ∀ cs, (∀ s ∈ cs, Q s) → Q (.prod cs)) :
    ∀ s, Q s := by
  intro s
  induction s using Spe.rec (motive_2 := fun cs => ∀ s ∈ cs, Q s) with
  | real => exact hr _ _ _ _ _ _
  | atomic => exact ha _ _ _
  | nominal => exact hn _ _
  | sum cs ws ih => exact hs _ _ ih
  | prod cs ih => exact hp _ ih
  | nil => rename_i h; cases h
  | cons s ss ih1 ih2 =>
    rename_i t ht
    rcases List.mem_cons.1 ht with rfl | ht
    · exact ih1
    · exact ih2 t ht

theorem Spe.symbolsL_eq (cs : List Spe) : Spe.symbolsL cs = cs.map Spe.symbols := by
  induction cs with
  | nil => rfl
  | cons s ss ih => simp [Spe.symbolsL, ih]
theorem Spe.denL_eq (cs : List Spe) : Spe.denL μ cs = cs.map (Spe.den μ) := by
  induction cs with
  | nil => rfl
  | cons s ss ih => simp [Spe.denL, ih]
theorem Spe.probMemL_eq {n : ℕ} (cs : List Spe) : Spe.probMemL c L n cs = cs.map (Spe.probMem c L n) := by
  induction cs with
  | nil => rfl
  | cons s ss ih => simp [Spe.probMemL, ih]
theorem Spe.mem_atomSymsL {cs : List Spe} {x : String} : x ∈ Spe.atomSymsL cs ↔ ∃ s ∈ cs, x ∈ s.atomSyms := by
  induction cs with
  | nil => simp [Spe.atomSymsL]
  | cons s ss ih => simp [Spe.atomSymsL, ih]

theorem mem_foldr_union {l : List (Finset String)} {x : String} : x ∈ l.foldr (· ∪ ·) ∅ ↔ ∃ S ∈ l, x ∈ S := by
  induction l with
  | nil => simp
  | cons a l ih => simp [ih]

theorem Spe.mem_symbols_prod {cs : List Spe} {x : String} : x ∈ (Spe.prod cs).symbols ↔ ∃ s ∈ cs, x ∈ s.symbols := by
  rw [Spe.symbols, mem_foldr_union, Spe.symbolsL_eq]; simp

theorem Spe.symbols_sum {cs : List Spe} {ws : List ℝ} {S : Finset String} (hne : cs ≠ []) (h : ∀ s ∈ cs, s.symbols = S) :
    (Spe.sum cs ws).symbols = S := by
  cases cs with
  | nil => exact absurd rfl hne
  | cons s ss => simpa [Spe.symbols, Spe.symbolsL] using h s (by simp)

/-! ## The denotation is a probability measure -/

theorem mixSum_one {ws : List ℝ} : ∀ {ps : List ℝ}, ps.length = ws.length → (∀ p ∈ ps, p = 1) → mixSum ws ps = ws.sum := by
  induction ws with
  | nil => intro ps h _; simp [mixSum]
  | cons w ws ih =>
    intro ps h hp
    cases ps with
    | nil => simp at h
    | cons p ps =>
      have := ih (ps := ps) (by simpa using h) (fun p hp' => hp p (by simp [hp']))
      simp only [mixSum, List.zipWith_cons_cons, List.sum_cons] at this ⊢
      rw [this, hp p (by simp)]; simp

theorem mixture_prob {ws : List ℝ} {ms : List (Measure Asg)} (hl : ms.length = ws.length) (hw : ∀ w ∈ ws, 0 ≤ w) (hs : ws.sum = 1)
    (hm : ∀ m ∈ ms, IsProbabilityMeasure m) : IsProbabilityMeasure (mixture ws ms) := by
  have hf : ∀ m ∈ ms, IsFiniteMeasure m := fun m hm' => by have := hm m hm'; infer_instance
  have h1 := mixture_finite (ws := ws) hf
  have h2 := mixture_real hw hf Set.univ
  rw [mixSum_one (by simp [hl]) (by
    intro p hp
    obtain ⟨m, hm', rfl⟩ := List.mem_map.1 hp
    have := hm m hm'
    simp), hs] at h2
  refine ⟨?_⟩
  rw [measureReal_def] at h2
  exact (ENNReal.toReal_eq_one_iff _).1 h2

theorem Spe.WF.prob {s : Spe} (h : s.WF c L μ) : IsProbabilityMeasure (s.den μ) := by
  induction h with
  | @real k X d supp cond env h1 h2 h3 h4 h5 h6 =>
    have hl := (Spe.WF.real (c := c) h1 h2 h3 h4 h5 h6).rleaf.1
    have : IsProbabilityMeasure (realMeas μ d supp cond) := hl.prob
    simp only [Spe.den]
    exact Measure.isProbabilityMeasure_map (measurable_leafAsg X env).aemeasurable
  | atomic => simp only [Spe.den]; infer_instance
  | @nominal X dist hn h0 h1 =>
    simp only [Spe.den]
    refine mixture_prob (by simp) ?_ ?_ ?_
    · intro w hw; obtain ⟨p, hp, rfl⟩ := List.mem_map.1 hw; exact_mod_cast h0 p hp
    · have : (dist.map (fun p => (p.2 : ℝ))) = (dist.map Prod.snd).map (Rat.cast : ℚ → ℝ) := by simp [List.map_map, Function.comp_def]
      rw [this, ← show (((dist.map Prod.snd).sum : ℚ) : ℝ) = ((dist.map Prod.snd).map (Rat.cast : ℚ → ℝ)).sum from
        map_list_sum (Rat.castHom ℝ) _, h1]; simp
    · intro m hm; obtain ⟨p, hp, rfl⟩ := List.mem_map.1 hm; infer_instance
  | @sum cs ws S h1 hne hl hw hs hS ih =>
    simp only [Spe.den]
    rw [Spe.denL_eq]
    refine mixture_prob (by simpa using hl) hw hs ?_
    intro m hm; obtain ⟨s, hs, rfl⟩ := List.mem_map.1 hm; exact ih s hs
  | @prod cs h1 hne hd ih =>
    simp only [Spe.den]
    refine indep_prob ?_
    intro q hq
    have := (List.of_mem_zip hq).2
    rw [Spe.denL_eq] at this
    obtain ⟨s, hs, hs'⟩ := List.mem_map.1 this
    rw [← hs']; exact ih s hs

/-! ## Factored events -/

/-- A factored event over the variables `S`, without string comparisons of the variables in `A`. -/
structure FactorOK (A : String → Prop) (S : Finset String) (F : Factor) : Prop where
  ne : F ≠ []
  cne : ∀ m ∈ F, m ≠ []
  inv : ∀ m ∈ F, ClauseInv A m
  sub : ∀ m ∈ F, ∀ p ∈ m, p.1 ∈ S

theorem FactorOK.mono {A A' : String → Prop} {S : Finset String} {F : Factor} (h : FactorOK A S F) (hA : ∀ s, A' s → A s) :
    FactorOK A' S F :=
  ⟨h.ne, h.cne, fun m hm => ⟨(h.inv m hm).nodup, fun p hp => ((h.inv m hm).ev p hp).mono hA⟩, h.sub⟩

theorem Factor.measurable_set {F : Factor} : MeasurableSet (Factor.set F) := by
  induction F with
  | nil => simp [Factor.set]
  | cons m F ih =>
    have : Factor.set (m :: F) = {ω | ∀ B ∈ m.map (fun p => p.2.set), ω ∈ B} ∪ Factor.set F := by
      ext ω
      simp only [Factor.set, Set.mem_setOf_eq, Set.mem_union, List.forall_mem_map, List.exists_mem_cons_iff, Ev.set]
    rw [this]
    refine MeasurableSet.union (measurable_all ?_) ih
    intro B hB
    obtain ⟨p, -, rfl⟩ := List.mem_map.1 hB
    exact p.2.measurable_set

theorem varsAll {A : String → Prop} {S : Finset String} {e : Ev} {k : String} (h : EvK A k e) (hk : k ∈ S) :
    e.All (fun l => ∃ k ∈ S, l.basic? = some (.id k)) := h.vars.mono (fun l t _ hl => ⟨k, hk, hl⟩)

/-- The event of a factored event. -/
theorem factorEvent_ok {A : String → Prop} {S : Finset String} {F : Factor} (hF : FactorOK A S F) {e : Ev} (h : factorEvent c F = .ok e) :
    e.Valid ∧ e.All (fun l => ∃ k ∈ S, l.basic? = some (.id k)) ∧ e.All (NumOn A) ∧ e.set = Factor.set F := by
  unfold factorEvent at h
  simp only [bind, Except.bind] at h
  split at h; · cases h
  rename_i cs hcs
  have hF2 := mapM_ok hcs
  have hQ : ∀ m ∈ F, ∀ g, reduceM (Ev.land c) (m.map Prod.snd) = .ok g →
      (g.Valid ∧ g.All (fun l => ∃ k ∈ S, l.basic? = some (.id k)) ∧ g.All (NumOn A)) ∧ ∀ ω, g.holds ω ↔ ∀ p ∈ m, p.2.holds ω := by
    intro m hm g hg
    have hv : ∀ e ∈ m.map Prod.snd, e.Valid := by
      intro e he; obtain ⟨p, hp, rfl⟩ := List.mem_map.1 he; exact ((hF.inv m hm).ev p hp).valid
    have h1 := reduce_land hv hg
    refine ⟨?_, fun ω => by rw [h1.2, List.forall_mem_map]⟩
    refine reduceM_ind (Q := fun g => g.Valid ∧ g.All (fun l => ∃ k ∈ S, l.basic? = some (.id k)) ∧ g.All (NumOn A)) ?_ ?_ hg
    · rintro x y z ⟨a1, a2, a3⟩ ⟨b1, b2, b3⟩ hz
      refine ⟨(Ev.land_spec a1 b1 hz).1, Ev.land_all ?_ a2 b2 hz, land_num a1 b1 a3 b3 hz⟩
      rintro e f g ⟨k, hk, h1⟩ _ h
      obtain ⟨t, r, h2, -, -, h4, -⟩ := Ev.simplify_some h
      rw [h1] at h2; cases h2; exact ⟨k, hk, h4⟩
    · intro e he
      obtain ⟨p, hp, rfl⟩ := List.mem_map.1 he
      have := (hF.inv m hm).ev p hp
      exact ⟨this.valid, varsAll this (hF.sub m hm p hp), this.num⟩
  have hv : ∀ e ∈ cs, e.Valid ∧ e.All (fun l => ∃ k ∈ S, l.basic? = some (.id k)) ∧ e.All (NumOn A) := by
    intro e he
    obtain ⟨m, hm, hg⟩ := forall₂_mem_right hF2 he
    exact (hQ m hm e hg).1
  have h1 := reduce_lor (fun e he => (hv e he).1) h
  have h2 : e.Valid ∧ e.All (fun l => ∃ k ∈ S, l.basic? = some (.id k)) ∧ e.All (NumOn A) := by
    refine reduceM_ind (Q := fun g => g.Valid ∧ g.All (fun l => ∃ k ∈ S, l.basic? = some (.id k)) ∧ g.All (NumOn A)) ?_ hv h
    rintro x y z ⟨a1, a2, a3⟩ ⟨b1, b2, b3⟩ hz
    refine ⟨(Ev.lor_spec a1 b1 hz).1, Ev.lor_all ?_ a2 b2 hz, lor_num a1 b1 a3 b3 hz⟩
    rintro e f g ⟨k, hk, h1⟩ _ h
    obtain ⟨t, r, h2, -, -, h4, -⟩ := Ev.simplify_some h
    rw [h1] at h2; cases h2; exact ⟨k, hk, h4⟩
  refine ⟨h2.1, h2.2.1, h2.2.2, ?_⟩
  ext ω
  simp only [Ev.set, Factor.set, Set.mem_setOf_eq, h1.2]
  constructor
  · rintro ⟨g, hg, hω⟩
    obtain ⟨m, hm, hg'⟩ := forall₂_mem_right hF2 hg
    exact ⟨m, hm, ((hQ m hm g hg').2 ω).1 hω⟩
  · rintro ⟨m, hm, hω⟩
    obtain ⟨g, hg, hg'⟩ := forall₂_mem_left hF2 hm
    exact ⟨g, hg, ((hQ m hm g hg').2 ω).2 hω⟩

theorem noNom_of_num {A : String → Prop} {e : Ev} (h : e.All (fun l => (∃ k, A k ∧ l.basic? = some (.id k)) ∧ NumOn A l)) : e.NoNom := by
  induction h with
  | @lit e t h1 h2 =>
    obtain ⟨⟨k, hk, hb⟩, hn⟩ := h2
    cases e with
    | ivl t i => simp [Ev.basic?] at hb; subst hb; exact .ivl (.id k)
    | fin t v => simp [Ev.basic?] at hb; subst hb; exact .fin (.id k)
    | nom t v => simp [Ev.basic?] at hb; subst hb; exact absurd hk (hn rfl k (by simp [Ev.symbols, Tr.symbols]))
    | or => simp [Ev.basic?] at hb
    | and => simp [Ev.basic?] at hb
  | or _ ih => exact .or ih
  | and _ ih => exact .and ih

/-- What a leaf is asked about a factored event. -/
theorem leafEvOK_factor {s : Spe} (hl : s.isLeaf = true) {F : Factor} (hF : FactorOK (· ∈ s.atomSyms) s.symbols F) {e : Ev}
    (h : factorEvent c F = .ok e) : LeafEvOK c s e ∧ (∀ ω, e.Regular ω) ∧ e.set = Factor.set F := by
  obtain ⟨h1, h2, h3, h4⟩ := factorEvent_ok hF h
  obtain ⟨g1, g2, g3⟩ := vars_made (c := c) h1 h2
  refine ⟨?_, g3, h4⟩
  cases s with
  | real => exact g1.mono
  | nominal => exact g1
  | sum => simp [Spe.isLeaf, Spe.leafEnv] at hl
  | prod => simp [Spe.isLeaf, Spe.leafEnv] at hl
  | atomic X v env =>
    refine ⟨g1.mono, noNom_of_num (A := (· ∈ (Spe.atomic X v env).atomSyms)) ((h2.and' h3).mono ?_)⟩
    rintro l t - ⟨⟨k, hk, hb⟩, hn⟩
    exact ⟨⟨k, by simpa [Spe.atomSyms, Spe.symbols] using hk, hb⟩, hn⟩

/-! ## The probability of a factored event -/

theorem probMem_ok (hc : c.Correct) {n : ℕ} : ∀ s : Spe, s.WF c L μ → ∀ (F : Factor), FactorOK (· ∈ s.atomSyms) s.symbols F → ∀ {p : ℝ},
    s.probMem c L n F = .ok p → p = (s.den μ).real (Factor.set F) := by
  have leaf : ∀ s : Spe, s.isLeaf = true → s.WF c L μ → ∀ (F : Factor), FactorOK (· ∈ s.atomSyms) s.symbols F → ∀ {p : ℝ},
      (do let e ← factorEvent c F; leafProb c L n s e) = .ok p → p = (s.den μ).real (Factor.set F) := by
    intro s hl hs F hF p h
    simp only [bind, Except.bind] at h
    split at h; · cases h
    rename_i e he
    obtain ⟨h1, h2, h3⟩ := leafEvOK_factor hl hF he
    rw [leafProb_ok hc hs h1 (Filter.Eventually.of_forall h2) h, h3]
  refine Spe.ind ?_ ?_ ?_ ?_ ?_
  · intro k X d supp cond env hs F hF p h
    rw [Spe.probMem] at h
    exact leaf _ rfl hs F hF h
  · intro X v env hs F hF p h
    rw [Spe.probMem] at h
    exact leaf _ rfl hs F hF h
  · intro X dist hs F hF p h
    rw [Spe.probMem] at h
    exact leaf _ rfl hs F hF h
  · intro cs ws ih hs F hF p h
    rw [Spe.probMem] at h
    simp only [bind, Except.bind] at h
    split at h; · cases h
    rename_i ps hps
    cases h
    cases hs with
    | @sum _ _ S h1 hne hl hw hsum hS =>
    have hps' : ps = cs.map (fun s => (s.den μ).real (Factor.set F)) := by
      rw [callAll, Spe.probMemL_eq, List.mapM_map] at hps
      refine mapM_map_eq hps ?_
      intro s hs p hp
      refine ih s hs (h1 s hs) F ?_ hp
      have := hF.mono (A' := (· ∈ s.atomSyms)) (fun x hx => Spe.mem_atomSymsL.2 ⟨s, hs, hx⟩)
      rw [Spe.symbols_sum hne hS] at this
      rw [hS s hs]; exact this
    simp only [Spe.den]
    rw [Spe.denL_eq, mixture_real hw, hps', List.map_map]
    · rfl
    · intro m hm
      obtain ⟨s, hs, rfl⟩ := List.mem_map.1 hm
      have := (h1 s hs).prob
      infer_instance
  · intro cs ih hs F hF p h
    rw [Spe.probMem] at h
    cases hs with
    | @prod _ h1 hne hd =>
    have hprob : IsProbabilityMeasure ((Spe.prod cs).den μ) := (Spe.WF.prod h1 hne hd).prob
    have hA : ∀ k : ℕ, MeasurableSet {ω : Asg | ∃ m : Clause String, F[k]? = some m ∧ ∀ p ∈ m, p.2.holds ω} := by
      intro k
      cases hk : F[k]? with
      | none => simp
      | some m =>
        have : {ω : Asg | ∃ m' : Clause String, some m = some m' ∧ ∀ p ∈ m', p.2.holds ω} = Factor.set [m] := by ext ω; simp [Factor.set]
        rw [this]; exact Factor.measurable_set
    have key := inclExcl_ok ((Spe.prod cs).den μ) (A := fun k : ℕ => {ω : Asg | ∃ m : Clause String, F[k]? = some m ∧ ∀ p ∈ m, p.2.holds ω}) hA ?_ h
    · rw [key]
      congr 1
      ext ω
      simp only [Set.mem_setOf_eq, Factor.set]
      constructor
      · rintro ⟨k, hk, m, hm, hω⟩; exact ⟨m, List.mem_of_getElem? hm, hω⟩
      · rintro ⟨m, hm, hω⟩
        obtain ⟨k, hk⟩ := List.getElem?_of_mem hm
        exact ⟨k, (List.getElem?_eq_some_iff.1 hk).1, m, hk, hω⟩
    · intro J p hJ hJm hp
      have hpick : ∀ m ∈ pickClauses F J, m ∈ F := by
        intro m hm
        obtain ⟨j, -, hj⟩ := List.mem_filterMap.1 hm
        exact List.mem_of_getElem? hj
      have hset : interJ (fun k : ℕ => {ω : Asg | ∃ m : Clause String, F[k]? = some m ∧ ∀ p ∈ m, p.2.holds ω}) J = {ω | ∀ m ∈ pickClauses F J, ∀ p ∈ m, p.2.holds ω} := by
        ext ω
        simp only [interJ, Set.mem_setOf_eq, pickClauses, List.mem_filterMap]
        constructor
        · rintro h m ⟨j, hj, hm⟩
          obtain ⟨m', hm', hω⟩ := h j hj
          rw [hm] at hm'; cases hm'; exact hω
        · intro h j hj
          have := hJm j hj
          exact ⟨F[j], by simp [this], h _ ⟨j, hj, by simp [this]⟩⟩
      rw [hset]
      simp only [Spe.den]
      refine conjProb_ok (A := (· ∈ (Spe.prod cs).atomSyms)) hd (by rw [Spe.symbolsL_eq, Spe.denL_eq]; simp) ?_ ?_ ?_ hp
      · intro m hm
        rw [Spe.denL_eq] at hm
        obtain ⟨s, hs, rfl⟩ := List.mem_map.1 hm
        exact (h1 s hs).prob
      · intro m hm
        exact (hF.inv m (hpick m hm)).ev
      · intro i hi hi' f hf cl p hne hcl hsub hp
        rw [Spe.probMemL_eq, List.getElem?_map] at hf
        have hi2 : i < cs.length := by rw [Spe.symbolsL_eq] at hi; simpa using hi
        rw [List.getElem?_eq_getElem hi2] at hf
        simp only [Option.map_some, Option.some.injEq] at hf
        subst hf
        have hsi : (Spe.symbolsL cs)[i] = (cs[i]).symbols := by simp [Spe.symbolsL_eq]
        have hdi : (Spe.denL μ cs)[i] = (cs[i]).den μ := by simp [Spe.denL_eq]
        have hmem : cs[i] ∈ cs := List.getElem_mem _
        have hFi : FactorOK (· ∈ (cs[i]).atomSyms) (cs[i]).symbols [cl] := by
          have : FactorOK (· ∈ (Spe.prod cs).atomSyms) (cs[i]).symbols [cl] :=
            ⟨by simp, by simpa using hne, by simpa using hcl, by
              intro m hm q hq
              rw [List.mem_singleton.1 hm] at hq
              rw [← hsi]; exact hsub q hq⟩
          exact this.mono (fun x hx => Spe.mem_atomSymsL.2 ⟨_, hmem, hx⟩)
        rw [ih _ hmem (h1 _ hmem) [cl] hFi hp, hdi]
        congr 1
        ext ω; simp [Factor.set]

/-! ## The probability of an event -/

theorem nomFreeL_iff {A : Finset String} {es : List Ev} : Ev.NomFreeL A es ↔ ∀ e ∈ es, e.NomFree A := by
  induction es with
  | nil => simp [Ev.NomFreeL]
  | cons e es ih => simp [Ev.NomFreeL, ih]

theorem nomFree_iff {A : Finset String} : ∀ e : Ev, e.NomFree A ↔ e.All (NumOn (· ∈ A)) := by
  refine Ev.ind ?_ ?_ ?_
  · intro e t ht
    rw [Ev.all_lit ht]
    cases e with
    | or => simp [Ev.basic?] at ht
    | and => simp [Ev.basic?] at ht
    | ivl => simp [Ev.NomFree, NumOn, Ev.isNom]
    | fin => simp [Ev.NomFree, NumOn, Ev.isNom]
    | nom t v => simp [Ev.NomFree, NumOn, Ev.isNom, Ev.symbols, Finset.disjoint_left]
  · intro es ih
    rw [Ev.all_or, Ev.NomFree, nomFreeL_iff]
    exact forall₂_congr ih
  · intro es ih
    rw [Ev.all_and, Ev.NomFree, nomFreeL_iff]
    exact forall₂_congr ih

/-- Factoring an event about plain variables. -/
theorem factor_ok {A : String → Prop} {d : Ev} (hv : d.Valid) (hvar : d.All VarLit) (hA : d.All (NumOn A)) {F : Factor}
    (h : dnfFactor1 c d = .ok F) : FactorOK A d.symbols F ∧ Factor.set F = d.set := by
  obtain ⟨h1, h2⟩ := dnfFactor_ok (P := fun l => VarLit l ∧ (l.Valid ∧ NumOn A l)) (by
    rintro e f g ⟨a1, a2⟩ ⟨b1, b2⟩ hs
    exact ⟨varLit_simp _ _ _ a1 b1 hs, num_and _ _ _ a2 b2 hs⟩) hv (hvar.and' ((Ev.valid_all hv).and' hA)) h
  refine ⟨⟨?_, ?_, ?_, ?_⟩, ?_⟩
  · rintro rfl
    have : d.disjuncts = [] := List.forall₂_nil_right_iff.1 h2
    cases d with
    | or es => cases hv with | or hne _ => exact hne this
    | _ => simp [Ev.disjuncts] at this
  · intro m hm
    obtain ⟨cl, hcl, hF⟩ := forall₂_mem_right h2 hm
    exact hF.2.1
  · intro m hm
    obtain ⟨cl, hcl, hF, -⟩ := forall₂_mem_right h2 hm
    refine ⟨hF.nodup, fun p hp => ⟨hF.valid p hp, ?_, (hF.allP p hp).mono (fun _ _ _ h => h.2.2)⟩⟩
    refine ((hF.allP p hp).and' (hF.lk p hp)).mono ?_
    rintro l t ht ⟨⟨⟨k, hk⟩, -⟩, s, hs, hl⟩
    have e1 := (selfLookup_ok hl).1
    rw [symbols_of_basic hk] at hs
    simp only [Tr.symbols, Finset.singleton_inj] at hs
    rw [hk, hs, e1]
  · intro m hm p hp
    obtain ⟨cl, hcl, hF, -⟩ := forall₂_mem_right h2 hm
    exact (hF.symbols hp).2
  · ext ω
    simp only [Factor.set, Ev.set, Set.mem_setOf_eq]
    rw [← Ev.disjuncts_holds]
    constructor
    · rintro ⟨m, hm, hh⟩
      obtain ⟨cl, hcl, hF⟩ := forall₂_mem_right h2 hm
      exact ⟨cl, hcl, (Ev.conjuncts_holds cl ω).1 ((hF.1.holds ω).1 hh)⟩
    · rintro ⟨cl, hcl, hh⟩
      obtain ⟨m, hm, hF⟩ := forall₂_mem_left h2 hcl
      exact ⟨m, hm, (hF.1.holds ω).2 ((Ev.conjuncts_holds cl ω).2 hh)⟩

theorem FactorOK.widen {A : String → Prop} {S S' : Finset String} {F : Factor} (h : FactorOK A S F) (hS : S ⊆ S') :
    FactorOK A S' F := ⟨h.ne, h.cne, h.inv, fun m hm p hp => hS (h.sub m hm p hp)⟩

/-- The set of an event and of its normal form. -/
theorem normOK_set {e r : Ev} (h : NormOK c e r) : e.symbols ⊇ r.symbols ∧ r.All VarLit := by
  refine ⟨?_, h.vars.mono (fun l t _ ⟨k, _, hk⟩ => ⟨k, hk⟩)⟩
  show r.symbols ⊆ e.symbols
  rw [Ev.symbols_all]
  refine h.vars.mono ?_
  rintro l t - ⟨k, hk, hl⟩
  rw [symbols_of_basic hl]; simpa [Tr.symbols] using hk

theorem real_congr_ae {m : Measure Asg} {A B : Set Asg} (h : ∀ᵐ ω ∂m, ω ∈ A ↔ ω ∈ B) : m.real A = m.real B :=
  measureReal_congr' h

theorem prob_ok (hc : c.Correct) {n : ℕ} {s : Spe} (hs : s.WF c L μ) {e : Ev} (he : s.CanAsk c e) (hsym : e.symbols ⊆ s.symbols)
    (hr : ∀ᵐ ω ∂(s.den μ), e.Regular ω) {p : ℝ} (h : s.prob c L n e = .ok p) : p = (s.den μ).real e.set := by
  have branch : e.Made c → e.NomFree s.atomSyms → s.isLeaf = false → p = (s.den μ).real e.set := by
    intro hm hn hl
    unfold Spe.prob at h
    rw [if_neg (by simp [hl])] at h
    simp only [bind, Except.bind] at h
    split at h; · cases h
    rename_i o ho
    obtain ⟨h1, h2⟩ := dnfNormalize_ok hc hm ho
    cases o with
    | none =>
      cases h
      have : (s.den μ).real e.set = (s.den μ).real ∅ := by
        refine real_congr_ae ?_
        filter_upwards [hr] with ω hω
        simpa [Ev.set] using h1 rfl ω hω
      rw [this]; simp
    | some d =>
      simp only at h
      split at h; · cases h
      rename_i F hF
      obtain ⟨hN, -⟩ := h2 d rfl
      obtain ⟨g1, g2⟩ := normOK_set hN
      have hnum := dnfNormalize_num hc hm ho ((nomFree_iff e).1 hn)
      obtain ⟨hF1, hF2⟩ := factor_ok (Ev.Made.valid _ hN.made) g2 hnum hF
      rw [probMem_ok hc s hs F (hF1.widen (g1.trans hsym)) h, hF2]
      refine real_congr_ae ?_
      filter_upwards [hr] with ω hω
      exact hN.holds ω hω
  cases s with
  | real => exact leafProb_ok hc hs he hr (by simpa [Spe.prob, Spe.isLeaf, Spe.leafEnv] using h)
  | atomic => exact leafProb_ok hc hs he hr (by simpa [Spe.prob, Spe.isLeaf, Spe.leafEnv] using h)
  | nominal => exact leafProb_ok hc hs he hr (by simpa [Spe.prob, Spe.isLeaf, Spe.leafEnv] using h)
  | sum cs ws => exact branch he.1 he.2 rfl
  | prod cs => exact branch he.1 he.2 rfl

end Sppl
