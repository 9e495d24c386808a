import Verif.Spe.CondLeaf

set_option linter.all false

/-!
# Simplification of sums of products (helper lemmas)
-/

namespace Sppl
open Classical MeasureTheory
open scoped ENNReal ProbabilityTheory

variable {c : Ctx} {L : Lib} {μ : Dist → Measure ℝ}

/-! ## Variables of an SPE -/

theorem Spe.WF.symbols_ne {s : Spe} (h : s.WF c L μ) : s.symbols.Nonempty := by
  induction h with
  | @real k X d supp cond env h1 h2 =>
    exact ⟨X, by simpa [Spe.symbols, Env.keys] using h2.built.base_mem⟩
  | @atomic X v env h2 => exact ⟨X, by simpa [Spe.symbols, Env.keys] using h2.built.base_mem⟩
  | @nominal X dist => exact ⟨X, by simp [Spe.symbols]⟩
  | @sum cs ws S h1 hne hl hw hs hS ih =>
    rw [Spe.symbols_sum hne hS]
    obtain ⟨t, ht⟩ := List.exists_mem_of_ne_nil _ hne
    rw [← hS t ht]; exact ih t ht
  | @prod cs h1 hne hd ih =>
    obtain ⟨t, ht⟩ := List.exists_mem_of_ne_nil _ hne
    obtain ⟨x, hx⟩ := ih t ht
    exact ⟨x, Spe.mem_symbols_prod.2 ⟨t, ht, hx⟩⟩

theorem measurable_none (S : Finset String) : MeasurableSet {ω : Asg | ∀ x, x ∉ S → ω x = none} := by
  have : {ω : Asg | ∀ x, x ∉ S → ω x = none} = ⋂ x, {ω : Asg | x ∉ S → ω x = none} := by ext ω; simp
  rw [this]
  refine MeasurableSet.iInter (fun x => ?_)
  by_cases hx : x ∈ S
  · simp [hx]
  · have h1 : Measurable (fun ω : Asg => ω x) := measurable_pi_apply x
    have h2 : {ω : Asg | x ∉ S → ω x = none} = (fun ω : Asg => ω x) ⁻¹' {none} := by ext ω; simp [hx]
    rw [h2]
    exact h1 (measurableSet_singleton _)

theorem indep_none : ∀ {l : List (Finset String × Measure Asg)}, (∀ q ∈ l, IsProbabilityMeasure q.2) → (∀ q ∈ l, ∀ᵐ ω ∂q.2, ∀ x, x ∉ q.1 → ω x = none) →
    ∀ᵐ ω ∂(indep l), ∀ x, x ∉ symsOf l → ω x = none
  | [], _, _ => by
    simp only [indep]
    rw [ae_dirac_iff]
    · intro x _; rfl
    · have : {ω : Asg | ∀ x, x ∉ symsOf [] → ω x = none} = {fun _ => none} := by
        ext ω; simp [symsOf, funext_iff]
      rw [this]; exact MeasurableSet.singleton _
  | (S, m) :: l, hp, h => by
    have p1 : IsProbabilityMeasure m := hp (S, m) (by simp)
    have hl : ∀ q ∈ l, IsProbabilityMeasure q.2 := fun q hq => hp q (by simp [hq])
    have p2 := indep_prob hl
    have ih := indep_none hl (fun q hq => h q (by simp [hq]))
    have h2 : ∀ᵐ p ∂(m.prod (indep l)), ∀ x, x ∉ symsOf l → p.2 x = none :=
      Measure.quasiMeasurePreserving_snd.ae ih
    rw [indep_cons]
    have hm := measurable_none (symsOf ((S, m) :: l))
    rw [ae_map_iff (measurable_mergeAsg S).aemeasurable hm]
    filter_upwards [h2] with p hp x hx
    have hx' : x ∉ S ∧ x ∉ symsOf l := by simpa [symsOf] using hx
    simp only [mergeAsg, hx'.1, if_false]
    exact hp x hx'.2

/-- Almost surely only the variables of the SPE are defined. -/
theorem Spe.WF.none {s : Spe} (h : s.WF c L μ) : ∀ᵐ ω ∂(s.den μ), ∀ x, x ∉ s.symbols → ω x = none := by
  induction h with
  | @real k X d supp cond env h1 h2 h3 h4 h5 h6 =>
    simp only [Spe.den]
    have hm := measurable_none (Spe.real k X d supp cond env).symbols
    rw [ae_map_iff (measurable_leafAsg X env).aemeasurable hm]
    refine Filter.Eventually.of_forall (fun y x hx => ?_)
    have hx' : x ∉ env.keys := by simpa [Spe.symbols, Env.keys] using hx
    rw [h2.built.extend_base _ (.inl hx')]
    have : x ≠ X := by rintro rfl; exact hx' h2.built.base_mem
    simp [baseAsg, this]
  | @atomic X v env h2 =>
    simp only [Spe.den]
    rw [ae_dirac_eq]
    intro x hx
    have hx' : x ∉ env.keys := by simpa [Spe.symbols, Env.keys] using hx
    rw [h2.built.extend_base _ (.inl hx')]
    have : x ≠ X := by rintro rfl; exact hx' h2.built.base_mem
    simp [baseAsg, this]
  | @nominal X dist hn h0 h1 =>
    simp only [Spe.den]
    refine mixture_ae ?_
    intro m hm
    obtain ⟨p, hp, rfl⟩ := List.mem_map.1 hm
    rw [ae_dirac_eq]
    intro x hx
    have : x ≠ X := by simpa [Spe.symbols] using hx
    simp [baseAsg, this]
  | @sum cs ws S h1 hne hl hw hs hS ih =>
    simp only [Spe.den]
    rw [Spe.denL_eq]
    refine mixture_ae ?_
    intro m hm; obtain ⟨s, hs, rfl⟩ := List.mem_map.1 hm
    have := ih s hs
    rw [hS s hs] at this
    rw [Spe.symbols_sum hne hS]
    exact this
  | @prod cs h1 hne hd ih =>
    rw [den_prod, ← symsOf_groups μ]
    refine indep_none (groups_prob h1) ?_
    intro q hq
    obtain ⟨s, hs, rfl⟩ := List.mem_map.1 hq
    exact ih s hs

/-- A product of one factor. -/
theorem den_single {s : Spe} (h : s.WF c L μ) : (Spe.prod [s]).den μ = s.den μ := by
  have p := h.prob
  rw [den_prod]
  show ((s.den μ).prod (Measure.dirac (fun _ => Option.none))).map (mergeAsg s.symbols) = s.den μ
  rw [Measure.prod_dirac, Measure.map_map (measurable_mergeAsg _) (by fun_prop)]
  have : (mergeAsg s.symbols ∘ fun x => (x, fun _ => Option.none)) =ᵐ[s.den μ] id := by
    filter_upwards [h.none] with ω hω
    funext x
    simp only [Function.comp, mergeAsg, id]
    by_cases hx : x ∈ s.symbols
    · simp [hx]
    · simp [hx, hω x hx]
  rw [Measure.map_congr this, Measure.map_id]

theorem listToProd_ok {cs : List Spe} {s : Spe} (hcs : ∀ t ∈ cs, t.WF c L μ) (h : listToProd cs = .ok s) :
    s.WF c L μ ∧ s.symbols = (Spe.prod cs).symbols ∧ s.den μ = (Spe.prod cs).den μ ∧ s.atomSyms ⊆ Spe.atomSymsL cs ∧ cs ≠ [] ∧
      ∀ E, (∀ t ∈ cs, t.Ready E) → s.Ready E := by
  unfold listToProd at h
  split at h
  · rename_i t
    cases h
    have hs := hcs s (by simp)
    refine ⟨hs, by simp [Spe.symbols, Spe.symbolsL], (den_single hs).symm, ?_, by simp, fun E hE => hE s (by simp)⟩
    intro x hx; exact Spe.mem_atomSymsL.2 ⟨s, by simp, hx⟩
  · obtain ⟨h1, h2, h3, h4, -, h5, h6⟩ := mkProd_ok hcs h
    exact ⟨h1, h2, h3, h4, h5, h6⟩

/-! ## Equality -/

theorem mixG_perm {α β : Type} [MeasurableSpace β] {l l' : List α} (h : l.Perm l') (f : α → ℝ) (g : α → Measure β) :
    mixG (l.map f) (l.map g) = mixG (l'.map f) (l'.map g) := by
  have e : ∀ l : List α, mixG (l.map f) (l.map g) = (l.map (fun a => ENNReal.ofReal (f a) • g a)).sum := by
    intro l
    induction l with
    | nil => simp
    | cons a l ih => rw [List.map_cons, List.map_cons, mixG_cons, ih]; simp
  rw [e, e]
  exact (h.map _).sum_eq

theorem mem_of_lookup' {dist : List (String × ℚ)} {k : String} {v : ℚ} (h : dist.lookup k = some v) : (k, v) ∈ dist := by
  induction dist with
  | nil => simp at h
  | cons a dist ih =>
    rw [List.lookup_cons] at h
    by_cases hk : k = a.1
    · simp [hk] at h; subst hk; subst h; simp
    · have : (k == a.1) = false := by simpa using hk
      rw [this] at h
      exact List.mem_cons_of_mem _ (ih h)

theorem Dist.ext_key {d d' : Dist} (h : d.key = d'.key) (hv : d.values = d'.values) : d = d' := by
  cases d; cases d'
  simp only [Dist.key, Prod.mk.injEq] at h
  simp_all

theorem eqPy_ok {E : String → Env} : ∀ {s t : Spe}, s.WF c L μ → t.WF c L μ → s.Ready E → t.Ready E → Spe.eqPy s t = true →
    s.den μ = t.den μ ∧ s.symbols = t.symbols := by
  intro s
  induction s using Spe.ind with
  | hr k X d supp cond env =>
    intro t hs ht es et h
    cases t with
    | real k' X' d' supp' cond' env' =>
      simp only [Spe.eqPy, decide_eq_true_eq] at h
      obtain ⟨rfl, rfl, hd, rfl, rfl, rfl⟩ := h
      cases es with | real v1 =>
      cases et with | real v2 =>
      obtain rfl := Dist.ext_key hd (v1.trans v2.symm)
      exact ⟨rfl, rfl⟩
    | _ => simp [Spe.eqPy] at h
  | ha X v env =>
    intro t hs ht es et h
    cases t with
    | atomic X' v' env' =>
      simp only [Spe.eqPy, decide_eq_true_eq] at h
      obtain ⟨rfl, rfl⟩ := h
      cases es; cases et
      exact ⟨rfl, rfl⟩
    | _ => simp [Spe.eqPy] at h
  | hn X dist =>
    intro t hs ht es et h
    cases t with
    | nominal X' dist' =>
      simp only [Spe.eqPy, decide_eq_true_eq] at h
      obtain ⟨rfl, hl, hk⟩ := h
      cases hs with
      | nominal hn h0 h1 =>
      have hp : dist.Perm dist' := by
        have hsub : dist ⊆ dist' := fun p hp => mem_of_lookup' (hk p hp)
        have hnd : dist.Nodup := hn.of_map
        exact (List.subperm_of_subset hnd hsub).perm_of_length_le (by omega)
      refine ⟨?_, by simp [Spe.symbols]⟩
      simp only [Spe.den, mixture_eq]
      exact mixG_perm hp _ _
    | _ => simp [Spe.eqPy] at h
  | hs cs ws ih =>
    intro t hs ht es et h
    cases t with
    | sum cs' ws' =>
      simp only [Spe.eqPy, Bool.and_eq_true, decide_eq_true_eq] at h
      obtain ⟨h, rfl⟩ := h
      cases hs with
      | sum h1 hne _ _ _ hS =>
      cases ht with
      | sum h1' _ _ _ _ hS' =>
      cases es with
      | sum e1 _ =>
      cases et with
      | sum e1' _ =>
      have key : ∀ (cs cs' : List Spe), (∀ s ∈ cs, ∀ {t}, s.WF c L μ → t.WF c L μ → s.Ready E → t.Ready E → Spe.eqPy s t = true →
          s.den μ = t.den μ ∧ s.symbols = t.symbols) → (∀ s ∈ cs, s.WF c L μ) → (∀ s ∈ cs', s.WF c L μ) → (∀ s ∈ cs, s.Ready E) →
          (∀ s ∈ cs', s.Ready E) → Spe.eqPyL cs cs' = true → Spe.denL μ cs = Spe.denL μ cs' ∧ Spe.symbolsL cs = Spe.symbolsL cs' := by
        intro cs
        induction cs with
        | nil => intro cs' _ _ _ _ _ h; cases cs' with
          | nil => exact ⟨rfl, rfl⟩
          | cons => simp [Spe.eqPyL] at h
        | cons s cs ihh =>
          intro cs' ih h1 h2 h3 h4 h
          cases cs' with
          | nil => simp [Spe.eqPyL] at h
          | cons t cs' =>
            simp only [Spe.eqPyL, Bool.and_eq_true] at h
            obtain ⟨g1, g2⟩ := ih s (by simp) (h1 s (by simp)) (h2 t (by simp)) (h3 s (by simp)) (h4 t (by simp)) h.1
            obtain ⟨g3, g4⟩ := ihh cs' (fun s hs => ih s (by simp [hs])) (fun s hs => h1 s (by simp [hs])) (fun s hs => h2 s (by simp [hs]))
              (fun s hs => h3 s (by simp [hs])) (fun s hs => h4 s (by simp [hs])) h.2
            simp [Spe.denL, Spe.symbolsL, g1, g2, g3, g4]
      obtain ⟨k1, k2⟩ := key cs cs' ih h1 h1' e1 e1' h
      simp only [Spe.den, Spe.symbols, k1, k2, and_self]
    | _ => simp [Spe.eqPy] at h
  | hp cs ih =>
    intro t hs ht es et h
    cases t with
    | prod cs' =>
      simp only [Spe.eqPy] at h
      cases hs with
      | prod h1 _ _ =>
      cases ht with
      | prod h1' _ _ =>
      cases es with
      | prod e1 =>
      cases et with
      | prod e1' =>
      have key : ∀ (cs cs' : List Spe), (∀ s ∈ cs, ∀ {t}, s.WF c L μ → t.WF c L μ → s.Ready E → t.Ready E → Spe.eqPy s t = true →
          s.den μ = t.den μ ∧ s.symbols = t.symbols) → (∀ s ∈ cs, s.WF c L μ) → (∀ s ∈ cs', s.WF c L μ) → (∀ s ∈ cs, s.Ready E) →
          (∀ s ∈ cs', s.Ready E) → Spe.eqPyL cs cs' = true → Spe.denL μ cs = Spe.denL μ cs' ∧ Spe.symbolsL cs = Spe.symbolsL cs' := by
        intro cs
        induction cs with
        | nil => intro cs' _ _ _ _ _ h; cases cs' with
          | nil => exact ⟨rfl, rfl⟩
          | cons => simp [Spe.eqPyL] at h
        | cons s cs ihh =>
          intro cs' ih h1 h2 h3 h4 h
          cases cs' with
          | nil => simp [Spe.eqPyL] at h
          | cons t cs' =>
            simp only [Spe.eqPyL, Bool.and_eq_true] at h
            obtain ⟨g1, g2⟩ := ih s (by simp) (h1 s (by simp)) (h2 t (by simp)) (h3 s (by simp)) (h4 t (by simp)) h.1
            obtain ⟨g3, g4⟩ := ihh cs' (fun s hs => ih s (by simp [hs])) (fun s hs => h1 s (by simp [hs])) (fun s hs => h2 s (by simp [hs]))
              (fun s hs => h3 s (by simp [hs])) (fun s hs => h4 s (by simp [hs])) h.2
            simp [Spe.denL, Spe.symbolsL, g1, g2, g3, g4]
      obtain ⟨k1, k2⟩ := key cs cs' ih h1 h1' e1 e1' h
      simp only [Spe.den, Spe.symbols, k1, k2, and_self]
    | _ => simp [Spe.eqPy] at h

/-! ## The pairs of equal factors -/

theorem keepIdx_perm (l : List Spe) (js : List ℕ) : (keepIdx l js true ++ keepIdx l js false).Perm l := by
  unfold keepIdx
  rw [← List.map_append]
  have h1 : (l.zipIdx.filter (fun p => decide (p.2 ∈ js) == true) ++ l.zipIdx.filter (fun p => decide (p.2 ∈ js) == false)).Perm l.zipIdx := by
    have := List.filter_append_perm (fun p : Spe × ℕ => decide (p.2 ∈ js) == true) l.zipIdx
    convert this using 3
    funext p
    cases decide (p.2 ∈ js) <;> rfl
  have := h1.map Prod.fst
  rwa [List.zipIdx_map_fst] at this

theorem mem_keepIdx {l : List Spe} {js : List ℕ} {b : Bool} {s : Spe} :
    s ∈ keepIdx l js b ↔ ∃ i, l[i]? = some s ∧ decide (i ∈ js) = b := by
  unfold keepIdx
  simp only [List.mem_map, List.mem_filter, beq_iff_eq, Prod.exists, exists_and_right, exists_eq_right, List.mem_zipIdx_iff_getElem?]

theorem mem_overlap {as bs : List Spe} {i j : ℕ} : (i, j) ∈ overlapPairs as bs ↔ ∃ a b, as[i]? = some a ∧ bs[j]? = some b ∧ Spe.eqPy a b = true := by
  unfold overlapPairs
  simp only [List.mem_flatMap, List.mem_filterMap, Prod.exists, List.mem_zipIdx_iff_getElem?]
  constructor
  · rintro ⟨b, j', hb, a, i', ha, h⟩
    split at h
    · rename_i he
      cases h
      exact ⟨a, b, ha, hb, he⟩
    · cases h
  · rintro ⟨a, b, ha, hb, he⟩
    exact ⟨b, j, hb, a, i, ha, by simp [he]⟩

/-- A list of factors of a product. -/
structure FactorsOK (c : Ctx) (L : Lib) (μ : Dist → Measure ℝ) (E : String → Env) (cs : List Spe) : Prop where
  wf : ∀ s ∈ cs, s.WF c L μ
  ready : ∀ s ∈ cs, s.Ready E
  disj : (cs.map Spe.symbols).Pairwise Disjoint

theorem FactorsOK.perm {E : String → Env} {as bs : List Spe} (h : FactorsOK c L μ E as) (hp : as.Perm bs) : FactorsOK c L μ E bs := by
  refine ⟨fun s hs => h.wf s (hp.mem_iff.2 hs), fun s hs => h.ready s (hp.mem_iff.2 hs), ?_⟩
  exact ((hp.map Spe.symbols).pairwise_iff (fun {_ _} (h : Disjoint _ _) => Disjoint.symm h)).1 h.disj

theorem FactorsOK.left {E : String → Env} {as bs : List Spe} (h : FactorsOK c L μ E (as ++ bs)) : FactorsOK c L μ E as := by
  refine ⟨fun s hs => h.wf s (by simp [hs]), fun s hs => h.ready s (by simp [hs]), ?_⟩
  have := h.disj
  rw [List.map_append, List.pairwise_append] at this
  exact this.1

theorem FactorsOK.right {E : String → Env} {as bs : List Spe} (h : FactorsOK c L μ E (as ++ bs)) : FactorsOK c L μ E bs := by
  refine ⟨fun s hs => h.wf s (by simp [hs]), fun s hs => h.ready s (by simp [hs]), ?_⟩
  have := h.disj
  rw [List.map_append, List.pairwise_append] at this
  exact this.2.1

theorem FactorsOK.groups_nodup {E : String → Env} {as : List Spe} (h : FactorsOK c L μ E as) : (groups μ as).Nodup := by
  have : ((groups μ as).map Prod.fst).Nodup := by
    have e : (groups μ as).map Prod.fst = as.map Spe.symbols := by simp [groups]
    rw [e]
    have hne : ∀ S ∈ as.map Spe.symbols, S.Nonempty := by
      intro S hS
      obtain ⟨s, hs, rfl⟩ := List.mem_map.1 hS
      exact (h.wf s hs).symbols_ne
    refine (List.Pairwise.and_mem.1 h.disj).imp ?_
    rintro S T ⟨hS, hT, hST⟩ rfl
    obtain ⟨x, hx⟩ := hne S hS
    exact Finset.disjoint_left.1 hST hx hx
  exact this.of_map

/-- Children with a common variable are the same child. -/
theorem FactorsOK.unique {E : String → Env} {as : List Spe} (h : FactorsOK c L μ E as) {i j : ℕ} {a b : Spe} (ha : as[i]? = some a) (hb : as[j]? = some b)
    {x : String} (hx : x ∈ a.symbols) (hx' : x ∈ b.symbols) : i = j := by
  have hd := h.disj
  rw [List.pairwise_iff_getElem] at hd
  obtain ⟨hi, rfl⟩ := List.getElem?_eq_some_iff.1 ha
  obtain ⟨hj, rfl⟩ := List.getElem?_eq_some_iff.1 hb
  rcases lt_trichotomy i j with h1 | h1 | h1
  · have := hd i j (by simpa using hi) (by simpa using hj) h1
    simp only [List.getElem_map] at this
    exact absurd hx' (Finset.disjoint_left.1 this hx)
  · exact h1
  · have := hd j i (by simpa using hj) (by simpa using hi) h1
    simp only [List.getElem_map] at this
    exact absurd hx (Finset.disjoint_left.1 this hx')

theorem FactorsOK.groups_pairwise {E : String → Env} {as : List Spe} (h : FactorsOK c L μ E as) : ((groups μ as).map Prod.fst).Pairwise Disjoint := by
  have e : (groups μ as).map Prod.fst = as.map Spe.symbols := by simp [groups]
  rw [e]; exact h.disj

theorem FactorsOK.keep {E : String → Env} {as : List Spe} (h : FactorsOK c L μ E as) (js : List ℕ) :
    FactorsOK c L μ E (keepIdx as js true) ∧ FactorsOK c L μ E (keepIdx as js false) := by
  have := h.perm (keepIdx_perm as js).symm
  exact ⟨this.left, this.right⟩

/-- The common factors are the same on both sides. -/
theorem common_perm {E : String → Env} {as bs : List Spe} (ha : FactorsOK c L μ E as) (hb : FactorsOK c L μ E bs) :
    (groups μ (keepIdx as ((overlapPairs as bs).map Prod.fst) true)).Perm (groups μ (keepIdx bs ((overlapPairs as bs).map Prod.snd) true)) := by
  refine (List.perm_ext_iff_of_nodup (ha.keep _).1.groups_nodup (hb.keep _).1.groups_nodup).2 ?_
  intro q
  simp only [groups, List.mem_map, mem_keepIdx, decide_eq_true_eq, Prod.exists, exists_and_right, exists_eq_right]
  constructor
  · rintro ⟨a, ⟨i, hi, j, hij⟩, rfl⟩
    obtain ⟨a', b, h1, h2, he⟩ := mem_overlap.1 hij
    rw [hi] at h1; cases h1
    have hma := List.mem_of_getElem? hi
    have hmb := List.mem_of_getElem? h2
    obtain ⟨g1, g2⟩ := eqPy_ok (ha.wf a hma) (hb.wf b hmb) (ha.ready a hma) (hb.ready b hmb) he
    exact ⟨b, ⟨j, h2, i, hij⟩, by rw [g1, g2]⟩
  · rintro ⟨b, ⟨j, hj, i, hij⟩, rfl⟩
    obtain ⟨a, b', h1, h2, he⟩ := mem_overlap.1 hij
    rw [hj] at h2; cases h2
    have hma := List.mem_of_getElem? h1
    have hmb := List.mem_of_getElem? hj
    obtain ⟨g1, g2⟩ := eqPy_ok (ha.wf a hma) (hb.wf b hmb) (ha.ready a hma) (hb.ready b hmb) he
    exact ⟨a, ⟨i, h1, j, hij⟩, by rw [g1, g2]⟩

theorem den_perm {E : String → Env} {as bs : List Spe} (ha : FactorsOK c L μ E as) (hp : (groups μ as).Perm (groups μ bs)) :
    (Spe.prod as).den μ = (Spe.prod bs).den μ := by
  rw [den_prod, den_prod]
  exact indep_perm hp (groups_prob ha.wf) ha.groups_pairwise

theorem symbols_perm {as bs : List Spe} (hp : (groups μ as).Perm (groups μ bs)) : (Spe.prod as).symbols = (Spe.prod bs).symbols := by
  ext x
  rw [← symsOf_groups μ, ← symsOf_groups μ]
  simp only [symsOf, mem_foldr_union]
  constructor
  · rintro ⟨S, hS, hx⟩; exact ⟨S, (hp.map Prod.fst).mem_iff.1 hS, hx⟩
  · rintro ⟨S, hS, hx⟩; exact ⟨S, (hp.map Prod.fst).mem_iff.2 hS, hx⟩

theorem den_append {as bs : List Spe} (ha : ∀ s ∈ as, s.WF c L μ) (hb : ∀ s ∈ bs, s.WF c L μ) :
    (Spe.prod (as ++ bs)).den μ = (((Spe.prod as).den μ).prod ((Spe.prod bs).den μ)).map (mergeAsg (Spe.prod as).symbols) := by
  rw [den_prod, den_prod, den_prod, show groups μ (as ++ bs) = groups μ as ++ groups μ bs by simp [groups],
    indep_append _ _ (groups_prob ha) (groups_prob hb), symsOf_groups]

theorem groups_append (as bs : List Spe) : groups μ (as ++ bs) = groups μ as ++ groups μ bs := by simp [groups]

/-! ## One step -/

/-- State of the reduction: factors that denote the mixture so far, scaled by its weight. -/
structure StateOK (c : Ctx) (L : Lib) (μ : Dist → Measure ℝ) (E : String → Env) (S : Finset String) (A : Finset String) (st : List Spe × ℝ) (m : Measure Asg) : Prop where
  fac : FactorsOK c L μ E st.1
  syms : (Spe.prod st.1).symbols = S
  atoms : Spe.atomSymsL st.1 ⊆ A
  pos : 0 < st.2
  den : ENNReal.ofReal st.2 • (Spe.prod st.1).den μ = m

theorem pair_mix {wa wb : ℝ} (ha : 0 < wa) (hb : 0 < wb) (m m' : Measure Asg) :
    ENNReal.ofReal (wa + wb) • mixture (pnorm [wa, wb]) [m, m'] = ENNReal.ofReal wa • m + ENNReal.ofReal wb • m' := by
  have h : 0 < wa + wb := by linarith
  have e : pnorm [wa, wb] = [wa / (wa + wb), wb / (wa + wb)] := by simp [pnorm]
  rw [e, mixture_cons, mixture_cons, mixture_nil, add_zero, smul_add, smul_smul, smul_smul, ← ENNReal.ofReal_mul h.le, ← ENNReal.ofReal_mul h.le,
    mul_div_cancel₀ _ h.ne', mul_div_cancel₀ _ h.ne']

theorem overlap_nodup {E : String → Env} {as bs : List Spe} (ha : FactorsOK c L μ E as) (hb : FactorsOK c L μ E bs) :
    ((overlapPairs as bs).map Prod.fst).Nodup ∧ (overlapPairs as bs).map Prod.fst ⊆ List.range as.length := by
  have hinj : ∀ p ∈ overlapPairs as bs, ∀ q ∈ overlapPairs as bs, p.1 = q.1 → p = q := by
    rintro ⟨i, j⟩ hp ⟨i', j'⟩ hq h
    simp only at h
    subst h
    obtain ⟨a, b, h1, h2, he⟩ := mem_overlap.1 hp
    obtain ⟨a', b', h1', h2', he'⟩ := mem_overlap.1 hq
    rw [h1] at h1'; cases h1'
    have hma := List.mem_of_getElem? h1
    have hmb := List.mem_of_getElem? h2
    have hmb' := List.mem_of_getElem? h2'
    have g := (eqPy_ok (ha.wf a hma) (hb.wf b hmb) (ha.ready a hma) (hb.ready b hmb) he).2
    have g' := (eqPy_ok (ha.wf a hma) (hb.wf b' hmb') (ha.ready a hma) (hb.ready b' hmb') he').2
    obtain ⟨x, hx⟩ := (ha.wf a hma).symbols_ne
    rw [hb.unique h2 h2' (x := x) (by rw [← g]; exact hx) (by rw [← g']; exact hx)]
  have hnd0 : (overlapPairs as bs).Nodup := by
    have hz : ∀ l : List Spe, l.zipIdx.Pairwise (fun p q => p.2 ≠ q.2) := by
      intro l
      have : (l.zipIdx.map Prod.snd).Nodup := by rw [List.zipIdx_map_snd]; exact List.nodup_range'
      exact List.pairwise_map.1 this
    unfold overlapPairs
    rw [List.nodup_flatMap]
    refine ⟨fun q hq => ?_, ?_⟩
    · unfold List.Nodup
      rw [List.pairwise_filterMap]
      refine (hz as).imp ?_
      intro p p' hne y hy y' hy'
      split at hy <;> split at hy' <;> simp at hy hy'
      subst hy; subst hy'
      intro he
      exact hne (Prod.mk.inj he).1
    · refine (hz bs).imp ?_
      intro q q' hne
      simp only [Function.onFun]
      intro y hy hy'
      obtain ⟨p, -, h1⟩ := List.mem_filterMap.1 hy
      obtain ⟨p', -, h2⟩ := List.mem_filterMap.1 hy'
      split at h1 <;> split at h2 <;> simp at h1 h2
      rw [← h1] at h2
      exact hne (Prod.mk.inj h2).2.symm
  have hnd : ((overlapPairs as bs).map Prod.fst).Nodup := (List.nodup_map_iff_inj_on hnd0).2 hinj
  have hsub : (overlapPairs as bs).map Prod.fst ⊆ List.range as.length := by
    intro i hi
    obtain ⟨⟨i', j⟩, hp, rfl⟩ := List.mem_map.1 hi
    obtain ⟨a, b, h1, -, -⟩ := mem_overlap.1 hp
    rw [List.mem_range]
    exact (List.getElem?_eq_some_iff.1 h1).1
  exact ⟨hnd, hsub⟩

theorem overlap_full {E : String → Env} {as bs : List Spe} (ha : FactorsOK c L μ E as) (hb : FactorsOK c L μ E bs)
    (hl : (overlapPairs as bs).length = as.length) : ∀ i < as.length, i ∈ (overlapPairs as bs).map Prod.fst := by
  obtain ⟨hnd, hsub⟩ := overlap_nodup ha hb
  have hperm := (List.subperm_of_subset hnd hsub).perm_of_length_le (by simp [hl])
  intro i hi
  exact hperm.mem_iff.2 (List.mem_range.2 hi)

theorem simplifyStep_ok {E : String → Env} {S A : Finset String} {st st' : List Spe × ℝ} {m : Measure Asg} {bs : List Spe} {wb : ℝ} (hst : StateOK c L μ E S A st m)
    (hb : FactorsOK c L μ E bs) (hS : (Spe.prod bs).symbols = S) (hA : Spe.atomSymsL bs ⊆ A) (hw : 0 < wb) (h : simplifyStep st bs wb = .ok st') :
    StateOK c L μ E S A st' (m + ENNReal.ofReal wb • (Spe.prod bs).den μ) := by
  obtain ⟨as, wa⟩ := st
  obtain ⟨ha, hSa, hAa, hpa, hden⟩ := hst
  simp only at ha hSa hAa hpa hden
  have hpos : ∀ w ∈ pnorm [wa, wb], 0 < w := (pnorm_ok (by simp [hpa, hw]) (by simp)).1
  -- the sum of two products
  have pair : ∀ {as' bs' : List Spe} {pa pb s : Spe}, FactorsOK c L μ E as' → FactorsOK c L μ E bs' → listToProd as' = .ok pa → listToProd bs' = .ok pb →
      mkSum [pa, pb] (pnorm [wa, wb]) = .ok s → s.WF c L μ ∧ s.Ready E ∧ s.symbols = (Spe.prod as').symbols ∧ s.symbols = (Spe.prod bs').symbols ∧
        (∀ x ∈ s.atomSyms, x ∈ Spe.atomSymsL as' ∨ x ∈ Spe.atomSymsL bs') ∧
        ENNReal.ofReal (wa + wb) • s.den μ = ENNReal.ofReal wa • (Spe.prod as').den μ + ENNReal.ofReal wb • (Spe.prod bs').den μ := by
    intro as' bs' pa pb s fa fb h1 h2 h3
    obtain ⟨a1, a2, a3, a4, -, a5⟩ := listToProd_ok fa.wf h1
    obtain ⟨b1, b2, b3, b4, -, b5⟩ := listToProd_ok fb.wf h2
    obtain ⟨s1, s2, s3, s4, -, -, -, s5⟩ := mkSum_ok (c := c) (L := L) (μ := μ) (by simp [a1, b1]) (fun w hw => (hpos w hw).le) h3
    refine ⟨s1, s5 E (by simp [a5 E fa.ready, b5 E fb.ready]) hpos, ?_, ?_, ?_, ?_⟩
    · rw [← a2, s2 pa (by simp)]
    · rw [← b2, s2 pb (by simp)]
    · intro x hx
      obtain ⟨t, ht, hx⟩ := Spe.mem_atomSymsL.1 (s4 hx)
      simp only [List.mem_cons, List.not_mem_nil, or_false] at ht
      rcases ht with rfl | rfl
      · exact .inl (a4 hx)
      · exact .inr (b4 hx)
    · rw [s3]
      simp only [List.map_cons, List.map_nil]
      rw [pair_mix hpa hw, a3, b3]
  unfold simplifyStep at h
  simp only [bind, Except.bind] at h
  split at h
  · -- nothing in common
    split at h; · cases h
    rename_i pa hpa'
    split at h; · cases h
    rename_i pb hpb'
    split at h; · cases h
    rename_i s hs
    cases h
    obtain ⟨g1, g2, g3, g4, g5, g6⟩ := pair ha hb hpa' hpb' hs
    refine ⟨⟨by simpa using g1, by simpa using g2, by simp⟩, ?_, ?_, by simp only; linarith, ?_⟩
    · rw [← hSa, ← g3]; simp [Spe.symbols, Spe.symbolsL]
    · intro x hx
      obtain ⟨t, ht, hx'⟩ := Spe.mem_atomSymsL.1 hx
      simp only [List.mem_cons, List.not_mem_nil, or_false] at ht
      subst ht
      exact (g5 x hx').elim (fun h => hAa h) (fun h => hA h)
    · rw [den_single g1, g6, hden]
  · split at h
    · -- everything in common
      rename_i hne hfull
      cases h
      have hall := overlap_full ha hb hfull
      have hrest : keepIdx as ((overlapPairs as bs).map Prod.fst) false = [] := by
        rw [List.eq_nil_iff_forall_not_mem]
        intro s hs
        obtain ⟨i, hi, hn⟩ := mem_keepIdx.1 hs
        have := hall i (List.getElem?_eq_some_iff.1 hi).1
        simp [this] at hn
      have pa : (groups μ (keepIdx as ((overlapPairs as bs).map Prod.fst) true)).Perm (groups μ as) := by
        have := (keepIdx_perm as ((overlapPairs as bs).map Prod.fst)).map (fun s => (s.symbols, s.den μ))
        rw [hrest, List.append_nil] at this
        exact this
      have hcom := common_perm ha hb
      have hrestb : keepIdx bs ((overlapPairs as bs).map Prod.snd) false = [] := by
        rw [List.eq_nil_iff_forall_not_mem]
        intro s hs
        have hd := (hb.perm (keepIdx_perm bs ((overlapPairs as bs).map Prod.snd)).symm).disj
        rw [List.map_append, List.pairwise_append] at hd
        have hsb : s ∈ bs := (keepIdx_perm bs _).mem_iff.1 (List.mem_append.2 (.inr hs))
        obtain ⟨x, hx⟩ := (hb.wf s hsb).symbols_ne
        have hxS : x ∈ (Spe.prod bs).symbols := Spe.mem_symbols_prod.2 ⟨s, hsb, hx⟩
        rw [hS, ← hSa, ← symbols_perm pa, symbols_perm hcom] at hxS
        obtain ⟨t, ht, hxt⟩ := Spe.mem_symbols_prod.1 hxS
        exact Finset.disjoint_left.1 (hd.2.2 _ (List.mem_map.2 ⟨t, ht, rfl⟩) _ (List.mem_map.2 ⟨s, hs, rfl⟩)) hxt hx
      have pb : (groups μ (keepIdx bs ((overlapPairs as bs).map Prod.snd) true)).Perm (groups μ bs) := by
        have := (keepIdx_perm bs ((overlapPairs as bs).map Prod.snd)).map (fun s => (s.symbols, s.den μ))
        rw [hrestb, List.append_nil] at this
        exact this
      refine ⟨ha, hSa, hAa, by simp only; linarith, ?_⟩
      simp only
      rw [← den_perm ha ((pa.symm.trans hcom).trans pb), ← hden, ENNReal.ofReal_add hpa.le hw.le, add_smul]
    · -- some in common
      split at h; · cases h
      rename_i pa hpa'
      split at h; · cases h
      rename_i pb hpb'
      split at h; · cases h
      rename_i s hs
      cases h
      obtain ⟨ka, ra⟩ := ha.keep ((overlapPairs as bs).map Prod.fst)
      obtain ⟨kb, rb⟩ := hb.keep ((overlapPairs as bs).map Prod.snd)
      obtain ⟨g1, g2, g3, g4, g5, g6⟩ := pair ra rb hpa' hpb' hs
      have hcom := common_perm ha hb
      have permA := ((List.perm_append_comm).trans (keepIdx_perm as ((overlapPairs as bs).map Prod.fst)))
      have permB := ((List.perm_append_comm).trans (keepIdx_perm bs ((overlapPairs as bs).map Prod.snd)))
      set KA := keepIdx as ((overlapPairs as bs).map Prod.fst) true with hKA
      set RA := keepIdx as ((overlapPairs as bs).map Prod.fst) false with hRA
      set KB := keepIdx bs ((overlapPairs as bs).map Prod.snd) true with hKB
      set RB := keepIdx bs ((overlapPairs as bs).map Prod.snd) false with hRB
      have hAas : FactorsOK c L μ E (RA ++ KA) := ha.perm permA.symm
      have eA : (Spe.prod as).den μ = (((Spe.prod RA).den μ).prod ((Spe.prod KA).den μ)).map (mergeAsg s.symbols) := by
        rw [g3, ← den_append ra.wf ka.wf, den_perm hAas (permA.map _)]
      have eB : (Spe.prod bs).den μ = (((Spe.prod RB).den μ).prod ((Spe.prod KA).den μ)).map (mergeAsg s.symbols) := by
        rw [den_perm ka hcom, g4, ← den_append rb.wf kb.wf, den_perm (hb.perm permB.symm) (permB.map _)]
      have eN : (Spe.prod (s :: KA)).den μ = ((s.den μ).prod ((Spe.prod KA).den μ)).map (mergeAsg s.symbols) := by
        rw [den_prod, den_prod]; rfl
      have symN : (Spe.prod (s :: KA)).symbols = S := by
        rw [← hSa]
        ext x
        rw [Spe.mem_symbols_prod, Spe.mem_symbols_prod]
        constructor
        · rintro ⟨t, ht, hx⟩
          rcases List.mem_cons.1 ht with rfl | ht
          · rw [g3] at hx
            obtain ⟨u, hu, hx⟩ := Spe.mem_symbols_prod.1 hx
            exact ⟨u, permA.mem_iff.1 (by simp [hu]), hx⟩
          · exact ⟨t, permA.mem_iff.1 (by simp [ht]), hx⟩
        · rintro ⟨t, ht, hx⟩
          rcases List.mem_append.1 (permA.mem_iff.2 ht) with ht | ht
          · exact ⟨s, by simp, by rw [g3]; exact Spe.mem_symbols_prod.2 ⟨t, ht, hx⟩⟩
          · exact ⟨t, by simp [ht], hx⟩
      refine ⟨⟨?_, ?_, ?_⟩, symN, ?_, by simp only; linarith, ?_⟩
      · intro t ht
        rcases List.mem_cons.1 ht with rfl | ht
        · exact g1
        · exact ka.wf t ht
      · intro t ht
        rcases List.mem_cons.1 ht with rfl | ht
        · exact g2
        · exact ka.ready t ht
      · rw [List.map_cons, List.pairwise_cons]
        refine ⟨?_, ka.disj⟩
        intro T hT
        have hd := hAas.disj
        rw [List.map_append, List.pairwise_append] at hd
        rw [g3, Finset.disjoint_left]
        intro x hx hxT
        obtain ⟨u, hu, hx⟩ := Spe.mem_symbols_prod.1 hx
        exact Finset.disjoint_left.1 (hd.2.2 _ (List.mem_map.2 ⟨u, hu, rfl⟩) _ hT) hx hxT
      · intro x hx
        obtain ⟨t, ht, hx'⟩ := Spe.mem_atomSymsL.1 hx
        have hAl : ∀ t ∈ RA ++ KA, t.atomSyms ⊆ A := fun t ht x hx => hAa (Spe.mem_atomSymsL.2 ⟨t, permA.mem_iff.1 ht, hx⟩)
        have hBl : ∀ t ∈ RB ++ KB, t.atomSyms ⊆ A := fun t ht x hx => hA (Spe.mem_atomSymsL.2 ⟨t, permB.mem_iff.1 ht, hx⟩)
        rcases List.mem_cons.1 ht with rfl | ht
        · rcases g5 x hx' with h | h
          · obtain ⟨u, hu, hx⟩ := Spe.mem_atomSymsL.1 h
            exact hAl u (by simp [hu]) hx
          · obtain ⟨u, hu, hx⟩ := Spe.mem_atomSymsL.1 h
            exact hBl u (by simp [hu]) hx
        · exact hAl t (by simp [ht]) hx'
      · have i1 := indep_prob (groups_prob ra.wf)
        have i2 := indep_prob (groups_prob rb.wf)
        have i3 := indep_prob (groups_prob ka.wf)
        have i4 := g1.prob
        rw [← den_prod] at i1 i2 i3
        have i5 : IsFiniteMeasure (ENNReal.ofReal wa • (Spe.prod RA).den μ) := Measure.smul_finite _ ENNReal.ofReal_ne_top
        have i6 : IsFiniteMeasure (ENNReal.ofReal wb • (Spe.prod RB).den μ) := Measure.smul_finite _ ENNReal.ofReal_ne_top
        simp only
        rw [eN, ← hden, eA, eB, ← Measure.map_smul, ← Measure.map_smul, ← Measure.map_smul, ← Measure.map_add _ _ (measurable_mergeAsg _)]
        congr 1
        rw [← Measure.prod_smul_left, ← Measure.prod_smul_left, ← Measure.prod_smul_left, g6, Measure.add_prod]

/-! ## All steps -/

theorem fold_ok {E : String → Env} {S A : Finset String} : ∀ {qs : List (List Spe × ℝ)} {st st' : List Spe × ℝ} {m : Measure Asg}, StateOK c L μ E S A st m →
    (∀ q ∈ qs, FactorsOK c L μ E q.1 ∧ (Spe.prod q.1).symbols = S ∧ Spe.atomSymsL q.1 ⊆ A ∧ 0 < q.2) →
    qs.foldlM (fun st q => simplifyStep st q.1 q.2) st = .ok st' →
    StateOK c L μ E S A st' (m + mixG (qs.map Prod.snd) (qs.map (fun q => (Spe.prod q.1).den μ)))
  | [], st, st', m, hst, _, h => by
    cases h; simpa using hst
  | q :: qs, st, st', m, hst, hq, h => by
    simp only [List.foldlM_cons, bind, Except.bind] at h
    split at h; · cases h
    rename_i st1 h1
    obtain ⟨g1, g2, g3, g4⟩ := hq q (by simp)
    have := fold_ok (simplifyStep_ok hst g1 g2 g3 g4 h1) (fun q hq' => hq q (by simp [hq'])) h
    simpa [mixG_cons, add_assoc] using this

theorem mapM_prod {cs : List Spe} : ∀ {css : List (List Spe)}, cs.mapM Spe.prod? = some css → cs = css.map Spe.prod := by
  induction cs with
  | nil => intro css h; simp at h; simp [h]
  | cons s cs ih =>
    intro css h
    rw [List.mapM_cons] at h
    cases s with
    | prod ds =>
      simp only [Spe.prod?, Option.bind_eq_bind, Option.bind_some] at h
      cases hm : cs.mapM Spe.prod? with
      | none => simp [hm] at h
      | some r =>
        simp [hm] at h
        subst h
        simp [ih hm]
    | _ => simp [Spe.prod?] at h

/-- `spe_simplify_sum_product`. -/
theorem simplifySumProduct_ok {E : String → Env} {cs : List Spe} {ws : List ℝ} {s : Spe} (hs : (Spe.sum cs ws).WF c L μ) (hE : (Spe.sum cs ws).Ready E)
    (h : simplifySumProduct cs ws = .ok s) :
    s.WF c L μ ∧ s.symbols = (Spe.sum cs ws).symbols ∧ s.atomSyms ⊆ (Spe.sum cs ws).atomSyms ∧ s.den μ = (Spe.sum cs ws).den μ ∧ s.Ready E := by
  unfold simplifySumProduct at h
  split at h
  · cases h; exact ⟨hs, rfl, fun _ h => h, rfl, hE⟩
  · rename_i css hcss
    have hcs := mapM_prod hcss
    cases hs with
    | @sum _ _ S h1 hne hl hw hsum hS =>
    cases hE with
    | sum e1 e2 =>
    have hsym : (Spe.sum cs ws).symbols = S := Spe.symbols_sum hne hS
    have hq : ∀ ds ∈ css, FactorsOK c L μ E ds ∧ (Spe.prod ds).symbols = S ∧ Spe.atomSymsL ds ⊆ Spe.atomSymsL cs := by
      intro ds hds
      have hm : Spe.prod ds ∈ cs := by rw [hcs]; exact List.mem_map.2 ⟨ds, hds, rfl⟩
      have w := h1 _ hm
      have e := e1 _ hm
      cases w with
      | prod w1 _ w3 =>
      cases e with
      | prod e3 =>
      refine ⟨⟨w1, e3, by rw [← Spe.symbolsL_eq]; exact w3⟩, hS _ hm, ?_⟩
      intro x hx
      exact Spe.mem_atomSymsL.2 ⟨_, hm, by simpa [Spe.atomSyms] using hx⟩
    unfold simplifyProducts at h
    split at h
    · rename_i ds css w ws
      simp only [bind, Except.bind] at h
      split at h; · cases h
      rename_i r hr
      split at h; swap; · cases h
      rename_i h1r
      obtain ⟨q1, q2, q3⟩ := hq ds (by simp)
      have hst : StateOK c L μ E S (Spe.atomSymsL cs) (ds, w) (ENNReal.ofReal w • (Spe.prod ds).den μ) := ⟨q1, q2, q3, e2 w (by simp), rfl⟩
      have hlen : css.length = ws.length := by rw [hcs] at hl; simpa using hl
      obtain ⟨f1, f2, f3, f4, f5⟩ := fold_ok hst (by
        rintro ⟨ds', w'⟩ hz
        have hz' := List.of_mem_zip hz
        obtain ⟨g1, g2, g3⟩ := hq ds' (by simp [hz'.1])
        exact ⟨g1, g2, g3, e2 w' (by simp [hz'.2])⟩) hr
      obtain ⟨p1, p2, p3, p4, -, p5⟩ := listToProd_ok f1.wf h
      refine ⟨p1, by rw [p2, f2, hsym], ?_, ?_, p5 E f1.ready⟩
      · intro x hx; simp only [Spe.atomSyms]; exact f3 (p4 hx)
      · rw [h1r, ENNReal.ofReal_one, one_smul] at f5
        rw [p3, f5]
        have hd : (Spe.sum cs (w :: ws)).den μ = mixG (w :: ws) (cs.map (Spe.den μ)) := by simp only [Spe.den, Spe.denL_eq]; rfl
        rw [hd, hcs, List.map_map, List.map_cons, mixG_cons]
        have z1 : (css.zip ws).map Prod.snd = ws := List.map_snd_zip (by omega)
        have z2 : (css.zip ws).map (fun q => (Spe.prod q.1).den μ) = css.map (fun ds => (Spe.prod ds).den μ) := by
          conv_rhs => rw [← List.map_fst_zip (l₁ := css) (l₂ := ws) (by omega), List.map_map]
          rfl
        rw [z1, z2]; rfl
    · cases h

end Sppl
